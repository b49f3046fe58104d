import Verif.Anchors.Props

/-! Concrete, non-trivial cases for the theorems about the cache of anchors. -/
namespace Tycho.Anchors

def a1 : Anchor := ⟨4, 1000, 7, 5, 0⟩
def a2 : Anchor := ⟨8, 2000, 8, 3, 1⟩
def a3 : Anchor := ⟨12, 2000, 9, 6, 2⟩
def a4 : Anchor := ⟨16, 3500, 9, 6, 3⟩

/-- A history with an anchor without externals for the shard, one taken and one cut off. -/
def ops1 : List Op := [.addInfo ⟨1, 500, 0, 0, 3⟩, .add a1 2, .add a2 0, .add a3 4, .popFront, .add a4 1, .removeLastAbove 3000]

def c1 : Cache := ops1.foldl Cache.run .empty

example : History ops1 c1 :=
  .step (.removeLastAbove 3000) (.step (.add a4 1) (.step .popFront (.step (.add a3 4) (.step (.add a2 0) (.step (.add a1 2)
    (.step (.addInfo ⟨1, 500, 0, 0, 3⟩) .empty (by intro i h; simp [Cache.lastInfo, Cache.empty] at h))
    (by intro i h; cases h; decide)) (by intro i h; cases h; decide)) (by intro i h; cases h; decide)) trivial)
    (by intro i h; cases h; decide)) trivial

example : c1.cache = [⟨12, a3, 4⟩] := by decide +kernel
example : ops1.foldl specQueue [] = [(a3, 4)] := by decide +kernel
example : c1.hasPending = true ∧ c1.hasPendingUpTo 11 = false ∧ c1.hasPendingUpTo 12 = true := by decide +kernel
example : c1.lastInfo = some (.ofAnchor a3 4) := by decide +kernel

/-- A cache with two anchors; in a transaction both are removed in two ways. -/
def c2 : Cache := [Op.add a1 2, .add a2 0, .add a3 4].foldl Cache.run .empty
def txOps : List TxOp := [.popFront, .removeLastAbove 500]

example : c2.pending = true ∧ c2.cache.length = 2 ∧ c2.history.length = 3 := by decide +kernel
example : (txOps.foldl Tx.apply (Tx.begin c2)).cache = ⟨[], [.ofAnchor a1 2], false⟩ := by decide +kernel
example : (txOps.foldl Tx.apply (Tx.begin c2)).drop = c2 := by decide +kernel
example : (txOps.foldl Tx.apply (Tx.begin c2)).commit.drop = ⟨[], [.ofAnchor a1 2], false⟩ := by decide +kernel

/-- Nothing is left below the cut: the oldest info stays. -/
example : c2.lastInfoAt 500 = some (.ofAnchor a1 2) ∧ c2.lastInfoAt 1500 = some (.ofAnchor a1 2) ∧
    c2.lastInfoAt 2000 = some (.ofAnchor a3 4) := by decide +kernel

end Tycho.Anchors
