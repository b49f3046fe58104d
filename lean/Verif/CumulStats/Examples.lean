import Verif.CumulStats.Props

/-! Concrete runs of the cumulative statistics. -/
namespace Tycho.CumulStats
open Tycho.Table

/-- Shard `s` has accounts `10 s .. 10 s + 9`; the collator works for shard 1. -/
def exEnv : Env := ⟨fun s a => decide (a / 10 = s), 1⟩

theorem exEnv_disjoint : Disjoint exEnv := by
  intro s s' a h h'
  simp only [exEnv, decide_eq_true_eq] at h h'
  omega

/-- A diff of shard 1 for accounts of shards 1 and 2, a diff of shard 2, a reader takes two messages, in a transaction shard 2 has
processed the first diff, a third diff comes, which is processed by shard 2, but not by shard 1. -/
def exOps : List Op := [
  .apply ⟨1, 0, 100⟩ [(11, 3), (12, 1), (21, 5)],
  .apply ⟨2, 0, 90⟩ [(11, 2), (25, 7)],
  .read 0 11 2,
  .begin,
  .update 2 [((0, 1), 120), ((0, 2), 80)],
  .apply ⟨1, 0, 110⟩ [(21, 4), (12, 6)],
  .apply ⟨1, 1, 110⟩ [(22, 9)]]

def exSpec : Spec := exOps.foldl (Spec.step exEnv) ⟨⟨[], [], fun _ _ => 0⟩, none⟩

example : Trace exEnv [] exOps exSpec := by
  have t0 : Trace exEnv [] [] ⟨⟨[], [], fun _ _ => 0⟩, none⟩ := .init
  have t1 := Trace.step (.apply ⟨1, 0, 100⟩ [(11, 3), (12, 1), (21, 5)]) t0 (by
    refine ⟨by simp, ?_, by simp⟩; unfold Uniq; decide)
  have t2 := Trace.step (.apply ⟨2, 0, 90⟩ [(11, 2), (25, 7)]) t1 (by
    refine ⟨by simp [Spec.step, Snap.step], ?_, by simp⟩; unfold Uniq; decide)
  have t3 := Trace.step (.read 0 11 2) t2 (by
    refine ⟨rfl, by decide, ?_⟩; decide +kernel)
  have t4 := Trace.step .begin t3 (by simp [Legal, Spec.step])
  have t5 := Trace.step (.update 2 [((0, 1), 120), ((0, 2), 80)]) t4 (by
    simp [Legal, Spec.step, Snap.step, Table.get])
  have t6 := Trace.step (.apply ⟨1, 0, 110⟩ [(21, 4), (12, 6)]) t5 (by
    refine ⟨by simp [Spec.step, Snap.step], ?_, by simp⟩; unfold Uniq; decide)
  have t7 := Trace.step (.apply ⟨1, 1, 110⟩ [(22, 9)]) t6 (by
    refine ⟨by simp [Spec.step, Snap.step], ?_, by simp⟩; unfold Uniq; decide)
  exact t7

/-- What the code counts after `exOps`, then with commit or rollback: accounts 11, 12, 21, 25 in partition 0 (initial, remaining),
account 22 in partition 1, total. -/
def exCounts (c : Cum) : List (Nat × Nat) × Nat × Nat :=
  ([11, 12, 21, 25].map (fun a => (c.initialCount 0 a, c.remainingCount 0 a)), c.initialCount 1 22, c.remainingTotal)

example : (Cum.run exEnv (Cum.new []) exOps).map exCounts = some ([(5, 3), (7, 7), (0, 0), (7, 7)], 9, 10) := by decide +kernel

example : (Cum.run exEnv (Cum.new []) (exOps ++ [.commit])).map exCounts = some ([(5, 3), (7, 7), (0, 0), (7, 7)], 9, 10) := by
  decide +kernel

example : (Cum.run exEnv (Cum.new []) (exOps ++ [.rollback])).map exCounts = some ([(5, 3), (1, 1), (5, 5), (7, 7)], 0, 4) := by
  decide +kernel

/-- The aggregate over partitions. -/
example : (Cum.run exEnv (Cum.new []) exOps).map (fun c => [11, 12, 21, 22, 25].map (fun a => (c.aggregated.get a).getD 0)) =
    some [5, 7, 0, 9, 7] := by decide +kernel

/-- Without disjoint shards (0 contains all accounts) two updates in one transaction count the same messages twice and panic. -/
example : Cum.run ⟨fun s a => s == 0 || decide (a / 10 = s), 1⟩ (Cum.new [])
    [.apply ⟨1, 0, 100⟩ [(21, 5)], .begin, .update 0 [((0, 1), 100)], .update 2 [((0, 1), 100)]] = none := by decide +kernel

/-- A diff with a count of zero added in a transaction makes a later update panic. -/
example : Cum.run exEnv (Cum.new []) [.apply ⟨1, 0, 90⟩ [(22, 1)], .begin,
    .apply ⟨1, 0, 100⟩ [(21, 0)], .commit, .update 2 [((0, 1), 100)]] = none := by decide +kernel

/-- A reader that takes more than there is makes the code panic. -/
example : Cum.run exEnv (Cum.new []) [.apply ⟨1, 0, 100⟩ [(11, 2)], .read 0 11 3] = none := by decide +kernel

end Tycho.CumulStats
