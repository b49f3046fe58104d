import Verif.BlocksCache.Model
/-!
Specification notions for the blocks cache, independent of how the cache computes them.
-/
namespace Tycho.BlocksCache
open Tycho.Table

/-- The slots of the subgraph of a master block of seqno `mc`, in the cached blocks `t`, starting from the blocks `q`: the
starting blocks, and the previous blocks of a cached block that is in the subgraph and references `mc`. -/
inductive Reach (t : Table (Nat × Nat) Entry) (mc : Nat) (q : List Id) : Nat × Nat → Prop where
  | base {i : Id} : i ∈ q → Reach t mc q i.key
  | next {k : Nat × Nat} {e : Entry} {p : Id} :
      Reach t mc q k → get t k = some e → e.ref = mc → p ∈ e.prevs → Reach t mc q p.key

/-- What is assumed of blocks: the top shard blocks and the previous blocks of a shard block are shard blocks. -/
def Block.Wf (b : Block) : Prop :=
  (∀ t ∈ b.tops, t.id.shard ≠ 0) ∧ (b.id.shard ≠ 0 → ∀ p ∈ b.prevs, p.shard ≠ 0)

/-- What is assumed of the operations of a history. -/
def Op.Wf : Op → Prop
  | .collated b => b.Wf
  | .received b => b.Wf
  | .takeTops _ shs => ∀ s ∈ shs, s ≠ 0
  | _ => True

/-- The id of the block that an operation in state `c` brought from the chain and the cache accepted. -/
def accepts (c : Cache) : Op → Option Id
  | .received b => match (c.storeReceived b).2 with
    | .ok _ _ => some b.id
    | _ => none
  | _ => none

/-- The candidate of this node that an operation in state `c` added to the cache. -/
def addsOwn (c : Cache) : Op → Option Id
  | .collated b => match (c.storeCollated b).2 with
    | .ok false false => some b.id
    | _ => none
  | _ => none

/-- The blocks that an operation in state `c` handed to the node. -/
def sends (c : Cache) : Op → List Id
  | .commit i d => (c.commit i d).2.sent
  | _ => []

/-- What a history observed, operation by operation (oldest first). -/
def observe {α : Type} (f : Cache → Op → List α) (c : Cache) : List Op → List α
  | [] => []
  | o :: os => f c o ++ observe f (step c o) os

/-- All blocks accepted from the chain in a history, oldest first. -/
def acceptedIn (zero : Nat) (ops : List Op) : List Id := observe (fun c o => (accepts c o).toList) (Cache.init zero) ops

/-- All own candidates added in a history. -/
def addedIn (zero : Nat) (ops : List Op) : List Id := observe (fun c o => (addsOwn c o).toList) (Cache.init zero) ops

/-- All blocks handed to the node in a history. -/
def sentIn (zero : Nat) (ops : List Op) : List Id := observe sends (Cache.init zero) ops

theorem observe_append {α : Type} (f : Cache → Op → List α) (c : Cache) (a b : List Op) :
    observe f c (a ++ b) = observe f c a ++ observe f (a.foldl step c) b := by
  induction a generalizing c with
  | nil => rfl
  | cons o a ih => simp [observe, ih]

theorem run_snoc (zero : Nat) (ops : List Op) (o : Op) : run zero (ops ++ [o]) = step (run zero ops) o := by
  simp [run]

theorem observe_snoc {α : Type} (f : Cache → Op → List α) (zero : Nat) (ops : List Op) (o : Op) :
    observe f (Cache.init zero) (ops ++ [o]) = observe f (Cache.init zero) ops ++ f (run zero ops) o := by
  rw [observe_append]; simp [observe, run]

end Tycho.BlocksCache
