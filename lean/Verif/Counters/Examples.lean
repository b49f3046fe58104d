import Verif.Counters.Props
import Mathlib.Combinatorics.Colex
import Mathlib.Algebra.Order.Ring.GeomSum

/-! Concrete cases of the counters theorems. -/
namespace Tycho.Counters.Examples
open Tycho.Counters Tycho.Bytes Tycho.Codec Tycho.Table

/-- A set of `u64` as a string of `n` bytes, bit by bit. -/
theorem bitset_lt (n : Nat) (b : Finset Nat) (h : ∀ x ∈ b, x < 8 * n) : Finset.equivBitIndices.symm b < 256 ^ n := by
  have h1 : Finset.equivBitIndices.symm b < 2 ^ (8 * n) := Nat.geomSum_lt (by decide) h
  rwa [Nat.pow_mul] at h1

theorem bitset_round (n : Nat) (b : Finset Nat) (h : ∀ x ∈ b, x < 8 * n) :
    Finset.equivBitIndices (ofLe (leBytes n (Finset.equivBitIndices.symm b))) = b := by
  rw [ofLe_leBytes _ _ (bitset_lt n b h), Equiv.apply_symm_apply]

/-- A bitmap format exists: the flat bit set of 2^61 bytes. -/
def flat : BitmapFormat where
  ser b := leBytes (2 ^ 61) (Finset.equivBitIndices.symm b)
  de l := some (Finset.equivBitIndices (ofLe l))
  roundTrip b h := congrArg some (bitset_round (2 ^ 61) b (fun x hx => by have := h x hx; omega))
  lenBound b _ := by rw [leBytes_length]; omega

/-- Rows 0..3 get the counts 1, 200, 300, 2 (pushed out of order); then 0 is deleted, 1 becomes large, 2 small, 3 implicit. -/
def first : List Transition := [⟨2, 0, 300⟩, ⟨0, 0, 1⟩, ⟨1, 0, 200⟩, ⟨3, 0, 2⟩]
def second : List Transition := [⟨0, 1, 0⟩, ⟨1, 200, 257⟩, ⟨2, 300, 256⟩, ⟨3, 2, 1⟩]
def history : List Op := [.reserve 4, .batch first, .reload, .alloc, .batch second, .reload]

theorem first_contract : Contract (fun _ => 0) 4 first := by
  constructor <;> decide +kernel

theorem second_contract : Contract (Rc.setAll (fun _ => 0) first) 5 second := by
  constructor <;> decide +kernel

theorem history_honest : Honest (fun _ => 0) 0 history := by
  refine ⟨by omega, ?_, by show max 0 4 < _; omega, ?_, by show (4 : Nat) < _; omega, ?_, by show (4 : Nat) < _; omega,
    ?_, by show (4 + 1 : Nat) < _; omega, ?_, by show (5 : Nat) < _; omega, ?_, by show (5 : Nat) < _; omega⟩
  · intro ts h; cases h
  · intro ts h; injection h with h; subst h; exact ⟨first_contract, by decide +kernel⟩
  · intro ts h; cases h
  · intro ts h; cases h
  · intro ts h; injection h with h; subst h; exact ⟨second_contract, by decide +kernel⟩
  · intro ts h; cases h

/-- The history meets the hypotheses of `counters_agree`, and the counts it ends with. -/
example : (∃ c, run flat (Counters.new 0) history = some c ∧ Agrees c (specRun (fun _ => 0) history)) ∧
    (List.range 5).map (specRun (fun _ => 0) history) = [0, 257, 256, 1, 0] :=
  ⟨counters_agree flat 0 history history_honest, by decide +kernel⟩

/-- The model run of the two batches. -/
example : (List.range 4).map (get (runBatch (runBatch (Counters.new 4) first) second)) = [1, 257, 256, 1] ∧
    (runBatch (runBatch (Counters.new 4) first) second).liveCells = 3 ∧
    (runBatch (Counters.new 4) first).liveCells = 4 ∧
    (List.range 4).map (get (runBatch (Counters.new 4) first)) = [1, 200, 300, 2] := by
  decide +kernel

/-- The contract is needed: a wrong old count (200 instead of 300) leaves the row in the hash map with its old count. -/
example : get (runBatch (runBatch (Counters.new 4) first) [⟨2, 200, 5⟩]) 2 = 300 := by decide +kernel

/-- And a row twice in one batch mixes up the bits of the two counts. -/
example : get (runBatch (Counters.new 1) [⟨0, 0, 2⟩, ⟨0, 0, 3⟩]) 0 = 4 := by decide +kernel

/-- Snapshots that are rejected: empty, wrong version, cut short. -/
example : deserialize flat [] = none ∧ deserialize flat [2] = none ∧ deserialize flat [1, 0, 0] = none :=
  ⟨rfl, rfl, rfl⟩

end Tycho.Counters.Examples
