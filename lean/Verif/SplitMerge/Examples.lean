import Verif.SplitMerge.Replay
/-!
Concrete cases and findings.
-/
namespace Tycho.SplitMerge

/-- Up to `n` turns of the loop. -/
def runN : Nat → St → Option (Option (List Action))
  | _, ⟨[], _, out⟩ => some (some out)
  | 0, _ => none
  | n + 1, ⟨s :: q, rest, out⟩ => match turn q rest out s with
    | none => some none
    | some st => runN n st

theorem runN_runs : ∀ (n : Nat) (st : St) (r : Option (List Action)), runN n st = some r → Runs st r := by
  intro n
  induction n with
  | zero =>
    intro st r h
    obtain ⟨q, rest, out⟩ := st
    cases q with
    | nil => simp only [runN, Option.some.injEq] at h; subst h; exact .done _ _
    | cons s q => simp [runN] at h
  | succ n ih =>
    intro st r h
    obtain ⟨q, rest, out⟩ := st
    cases q with
    | nil => simp only [runN, Option.some.injEq] at h; subst h; exact .done _ _
    | cons s q =>
      simp only [runN] at h
      split at h
      · rename_i ht
        simp only [Option.some.injEq] at h; subst h
        exact .fail _ _ _ _ ht
      · rename_i st ht
        exact .next _ _ _ _ _ _ ht (ih st r h)

def sh (p : List Bool) : Shard := ⟨0, p⟩
def master : Shard := .full (-1)

instance (a b : Shard) : Decidable (a.le b) := inferInstanceAs (Decidable (_ ∧ _))
instance (a : List Shard) : Decidable (Apart a) := inferInstanceAs (Decidable (List.Pairwise _ _))
instance (a : List Shard) : Decidable (Valid a) := inferInstanceAs (Decidable (∀ s ∈ a, _))

def two : List Shard := [master, sh [false], sh [true]]
def four : List Shard := [sh [true, true], sh [false, false], master, sh [true, false, false], sh [false, true], sh [true, false, true]]

example : Apart two ∧ Apart four ∧ Valid four := by decide

/-- A ready result. -/
theorem two_four : Returns two four (some [.split (sh [false]), .split (sh [true]), .split (sh [true, false])]) := by
  unfold Returns start two four
  exact ⟨_, runN_runs 20 _ (some [.split (sh [false]), .split (sh [false]), .split (sh [true]), .split (sh [true]), .split (sh [true, false]), .split (sh [true, false])])
    (by decide +kernel), by decide +kernel⟩

example : ∃ S, DoesAll (fun x => x ∈ two) [.split (sh [false]), .split (sh [true]), .split (sh [true, false])] S ∧ S (sh [true, false, true]) ∧ S master := by
  obtain ⟨S, h1, h2, _⟩ := carries_over two four _ (by decide) (by decide) (by decide) (by decide) two_four
  exact ⟨S, h1, h2 _ (by decide) ⟨sh [true], by decide, by decide⟩, h2 _ (by decide) ⟨master, by decide, by decide⟩⟩

/-- Finding: merges are never listed: from two halves to the whole nothing is to do. -/
theorem merge_not_listed : Returns [sh [false], sh [true]] [sh []] (some []) := by
  unfold Returns start
  exact ⟨_, runN_runs 20 _ (some []) (by decide +kernel), by decide +kernel⟩

/-- Finding: nor are shards of a new workchain added when there are others. -/
theorem new_workchain_not_added : Returns [master] [master, sh []] (some []) := by
  unfold Returns start
  exact ⟨_, runN_runs 20 _ (some []) (by decide +kernel), by decide +kernel⟩

/-- Finding: from no shards, after the wanted ones are added, splits of shards are listed that are not there. -/
theorem splits_after_adds : Returns [] [sh [false], sh [true]] (some [.add (sh [false]), .add (sh [true]), .split (sh [])]) := by
  unfold Returns start
  exact ⟨_, runN_runs 20 _ (some [.add (sh [false]), .add (sh [true]), .split (sh []), .split (sh [])]) (by decide +kernel), by decide +kernel⟩

/-- The hypothesis of `splits_exactly` that present shards do not overlap is needed: here a shard is split before its ancestor. -/
theorem overlap_wrong_order : Returns [sh [true], sh []] [sh [true, true], sh [false]] (some [.split (sh [true]), .split (sh [])]) ∧
    ¬ Apart [sh [true], sh []] := by
  refine ⟨?_, by decide⟩
  unfold Returns start
  exact ⟨_, runN_runs 20 _ (some [.split (sh [true]), .split (sh [])]) (by decide +kernel), by decide +kernel⟩

end Tycho.SplitMerge
