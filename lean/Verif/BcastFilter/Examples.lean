import Verif.BcastFilter.Kept
/-! Concrete histories: the hypotheses of the theorems are met; and what goes wrong outside of them. -/
namespace Tycho.BcastFilter.Examples
open Tycho.Table (get)

/-- Cache points of 2 rounds ahead, history of 100 rounds. -/
def conf : Conf := ⟨2, 100⟩

/-- The head at 10, and the next one. -/
def h10 : Head := ⟨1, 10, 1⟩
def h11 : Head := ⟨1, 11, 1⟩

/-- A received point. -/
def ok (h : Head) (r a d : Nat) : Op := .add h r a d .ok false (some 2)
def bad (h : Head) (r a d : Nat) : Op := .add h r a d .illFormed false (some 2)

/-- Author 1 sends an ill-formed point, then a good fork; author 2 sends a good point. -/
def three : List Op := [bad h10 11 1 100, ok h10 11 1 101, ok h10 11 2 200]

/-- The fork counts; the second author makes the minority, which is reported once. -/
example : ((run conf [bad h10 11 1 100]).add 2 h10 11 1 101 .ok false (some 2)).2 = ⟨false, none, some 100⟩ ∧
    ((run conf (three.take 2)).add 2 h10 11 2 200 .ok false (some 2)).2 = ⟨true, none, none⟩ ∧
    ((run conf three).add 2 h10 11 3 300 .ok true (some 2)).2 = ⟨false, none, none⟩ := by decide +kernel

/-- With evidence, a point below the minority is enough. -/
example : (St.init.add 2 h10 11 3 300 .ok true (some 2)).2.reached = true := by decide +kernel

/-- A round is reported only to a caller whose head is behind it. -/
example : ((run conf (three.take 2)).add 2 h11 11 2 200 .ok false (some 2)).2.reached = false := by decide +kernel

/-- After two ill-formed points a good third one is not kept and not counted. -/
theorem third_not_counted :
    ((run conf [bad h10 11 1 100, bad h10 11 1 101, ok h10 11 2 200]).add 2 h10 11 1 102 .ok false (some 2)).2 =
      ⟨false, none, some 100⟩ := by decide +kernel

/-- The hypotheses of `threshold_reported` are met. -/
example : (get (run conf three).rounds 11).map (fun i => (i.minority, i.count)) = some (2, 2) := by decide +kernel

/-- Duplicates are reported after the third repetition. -/
example : ((run conf [ok h10 11 1 100, ok h10 11 1 100, ok h10 11 1 100]).add 2 h10 11 1 100 .ok false (some 2)).2.duplicates = none ∧
    ((run conf [ok h10 11 1 100, ok h10 11 1 100, ok h10 11 1 100, ok h10 11 1 100]).add 2 h10 11 1 100 .ok false (some 2)).2.duplicates =
      some 4 := by decide +kernel

/-- A flush of round 11 in which points come at every moment: 3 after the start, 4 after the round is open, 5 after the end;
the callers still have the old head. -/
def race : List Op := three ++ [.flushStart h11, ok h10 11 3 300, .flushSet, ok h10 11 4 400, .flushVisit 2, .flushVisit 1,
  .flushVisit 3, .flushNext, .flushEnd, ok h10 11 5 500]

theorem race_calm : CalmAll conf race := by
  intro pre o post h
  cases o with
  | clean r hd => exact absurd (show Op.clean r hd ∈ race by rw [h]; simp) (by simp [race, three, ok, bad])
  | _ => trivial

/-- All are in the DAG or about to be. -/
example : (run conf race).flush = none ∧
    (run conf race).dag.map (fun x => (x.1, x.2.digest)) = [(11, 200), (11, 100), (11, 101), (11, 300)] ∧
    (run conf race).pending.map (fun x => (x.1, x.2.digest)) = [(11, 400), (11, 500)] := by decide +kernel

/-- The hypotheses of `opened_delivered` are met. -/
example : (get (run conf race).rounds 11).map (·.flagged) = some true ∧ (run conf race).flush = none := by decide +kernel

/-- The hypotheses of `flush_delivers` are met. -/
example : (run conf three).flush = none ∧ (get (run conf three).rounds 11).map (·.flagged) = some false ∧
    h11.has 11 = true ∧ firstBy (log conf three 11) 2 = some ⟨2, 200, true, true⟩ := by decide +kernel

/-- A call with an old head after the round was dropped from the cache makes it anew; the next flush takes it. -/
example : (run conf (race ++ [.flushStart h11, .flushEnd, ok h10 11 6 600])).hasPoint 11 6 = true ∧
    (run conf (race ++ [.flushStart h11, .flushEnd, ok h10 11 6 600, .flushStart h11, .flushSet, .flushVisit 6, .flushNext,
      .flushEnd])).dag.map (fun x => x.2.digest) = [200, 100, 101, 300, 600] := by decide +kernel

/-- A far point is kept as a digest. -/
example : firstBy (log conf [ok h10 13 1 100] 13) 1 = some ⟨1, 100, true, false⟩ ∧
    firstBy (log conf [ok h10 12 1 100] 12) 1 = some ⟨1, 100, true, true⟩ := by decide +kernel

/-- A clean-up that runs at the same time as a flush can remove a round that the flush has captured. A point that comes then
goes to a new entry of the round, which the flush opens although it goes over the old one: the point is neither in the DAG
nor owed, and the next flush drops it. -/
theorem clean_loses :
    let ops := [ok h10 11 1 100, .flushStart h11, .clean 200 h10, ok h10 11 2 200, .flushSet, .flushVisit 1, .flushNext, .flushEnd,
      .flushStart h11, .flushEnd]
    (run conf (ops.take 8)).hasPoint 11 2 = true ∧ (get (run conf (ops.take 8)).rounds 11).map (·.flagged) = some true ∧
      (run conf (ops.take 8)).flush = none ∧
      (run conf ops).hasPoint 11 2 = false ∧ (run conf ops).pending = [] ∧
      (run conf ops).dag.map (fun x => x.2.digest) = [100] := by decide +kernel

end Tycho.BcastFilter.Examples
