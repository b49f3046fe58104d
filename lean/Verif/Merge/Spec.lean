/-!
# Merge operators

RocksDB may at any time replace consecutive merge operands of a key, or the stored value and the operands after it, by their merge
(all operators here are registered with `set_merge_operator_associative`, so the same function does both). A read merges what is
there then. All five operators use the stored value exactly as a first operand.
-/
namespace Tycho.Merge

/-- `ops` may become `ops'`: groups of consecutive operands are replaced by their merge, any number of times. A merge that fails
replaces nothing. -/
inductive Regroup (f : List (List Nat) → Option (List Nat)) : List (List Nat) → List (List Nat) → Prop
  | refl (ops : List (List Nat)) : Regroup f ops ops
  | step {ops a g b : List (List Nat)} {v : List Nat} : Regroup f ops (a ++ g ++ b) → g ≠ [] → f g = some v →
      Regroup f ops (a ++ [v] ++ b)

/-- An invariant of single replacements is one of `Regroup`. -/
theorem Regroup.inv {f : List (List Nat) → Option (List Nat)} (P : List (List Nat) → Prop)
    (h : ∀ a g b v, g ≠ [] → f g = some v → P (a ++ g ++ b) → P (a ++ [v] ++ b)) {ops ops' : List (List Nat)}
    (hr : Regroup f ops ops') (hp : P ops) : P ops' := by
  induction hr with
  | refl => exact hp
  | step _ hg hf ih => exact h _ _ _ _ hg hf ih

end Tycho.Merge
