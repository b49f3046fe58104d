import Verif.Neighbours.Main

/-! Cases meeting the hypotheses of the theorems, and what the code does that one might not expect. -/
namespace Tycho.Neighbours

def na : Nb := ⟨0, 10, 100⟩
def nb : Nb := ⟨1, 11, 100⟩
def nc : Nb := ⟨2, 12, 100⟩

def run (max : Nat) (s : St) : List Ev → Option St
  | [] => some s
  | e :: l => (step max s e).bind fun t => run max t l

theorem run_reach {max d : Nat} {s t : St} (h : Reach max d s) (l : List Ev) (hw : ∀ e ∈ l, e.WF)
    (hr : run max s l = some t) : Reach max d t := by
  induction l generalizing s with
  | nil => cases hr; exact h
  | cons e l ih =>
    simp only [run] at hr
    cases hs : step max s e with
    | none => rw [hs] at hr; cases hr
    | some s' =>
      rw [hs] at hr
      exact ih (h.step (hw e (by simp)) hs) (fun e he => hw e (by simp [he])) hr

def start : St := new (fun _ => Stats.new 100) [na, nb]

theorem start_reach : Reach 2 100 start := .new [na, nb] (by decide) (by decide)

/-- C172: two new neighbours have weight 64 each. -/
theorem start_index : start.index = ⟨[(na, 64), (nb, 128)], 128⟩ := by decide

example : Reach 2 100 start ∧ start.index.items ≠ [] := ⟨start_reach, by decide⟩

example : choose start.index 63 = some na ∧ choose start.index 64 = some nb ∧
    chooseWith start.index (fun p => if p = 10 then 16 else 0) 48 = some (some nb) ∧
    chooseMultiple start.index (fun n => n.id) 1 (fun _ => true) = [nb] := by
  refine ⟨by decide, by decide, by decide, by decide⟩

/-- The upkeep: the second is punished and cleaned up. -/
def cleaned : List Ev :=
  [.punish 1 .malicious, .applyLoad 50, .applyCommit ⟨0, [na], true⟩]

theorem cleaned_runs : ∃ t, run 2 start cleaned = some t ∧ Reach 2 100 t ∧ t.entries = [na] ∧ t.notified = 1 ∧
    t.index = ⟨[(na, 64)], 64⟩ ∧ t.version ≠ start.version := by
  refine ⟨_, rfl, run_reach start_reach cleaned (by simp [cleaned, Ev.WF]) rfl, ?_, ?_, ?_, ?_⟩ <;> decide

/-- A full set: a worst one makes room for a new one. -/
def exchanged : List Ev :=
  [.track 0 30 (some true), .updateLoad [nc] 50, .updateCommit ⟨[na, nc], true⟩]

theorem exchanged_runs : ∃ t, run 2 start exchanged = some t ∧ Reach 2 100 t ∧ t.entries = [na, nc] ∧ t.notified = 1 ∧
    t.index = ⟨[(na, 72), (nc, 136)], 136⟩ := by
  refine ⟨_, rfl, run_reach start_reach exchanged (by simp [exchanged, Ev.WF]) rfl, ?_, ?_, ?_⟩ <;> decide

/-! ### Findings -/

theorem start3_reach : Reach 3 100 start := .new [na, nb] (by decide) (by decide)

/-- An update is at work when the second neighbour is punished and cleaned up ... -/
def raced : List Ev := [.updateLoad [] 50, .punish 1 .malicious, .applyLoad 50, .applyCommit ⟨0, [na], true⟩]

/-- ... and brings it back when it ends, although it is malicious. Nobody is notified of that. -/
theorem update_brings_back : ∃ s t, run 3 start raced = some s ∧ Reach 3 100 s ∧ s.entries = [na] ∧
    step 3 s (.updateCommit ⟨[na, nb], false⟩) = some t ∧
    t.entries = [na, nb] ∧ (t.stats nb.id).score = 0 ∧ t.notified = s.notified := by
  refine ⟨_, _, rfl, run_reach start3_reach raced (by simp [raced, Ev.WF]) rfl, ?_, rfl, ?_, ?_, ?_⟩ <;> decide

/-- An update with nobody new drops a good neighbour of a full set. -/
theorem update_drops_good : (updateLoad 2 start [] 50).list = [nb] ∧ good start.stats 50 na = true := by decide

/-- Two new neighbours of one peer would both be added (`Ev.WF` excludes it). -/
theorem update_adds_twice : (updateLoad 4 start [nc, { nc with id := 3 }] 50).list = [na, nb, nc, { nc with id := 3 }] := by
  decide

/-- Sorting the index (`get_sorted_neighbours`, not called at present) spoils it: the next choice with a
history underflows. -/
theorem sorted_spoils (fine : Nat → Nat) (r : Nat) : chooseWith (sortIndex start.index) fine r = none := by
  have h : sortIndex start.index = ⟨[(nb, 128), (na, 64)], 128⟩ := by decide
  rw [h]
  rfl

/-- Asked for a reliable neighbour, `choose_multiple` may find none although there is one: it looks for
reliable ones only among those drawn. -/
theorem many_misses_reliable : chooseMultiple start.index (fun n => n.id) 1 (fun n => decide (n.id = 0)) = [] := by
  decide

/-- A neighbour whose last requests took no time has no average, so no bonus; one of them taking a while, it is
the average of those from then on. -/
theorem no_time_no_bonus (n : Nat) :
    (tracks { Stats.new 100 with score := 128 } (List.replicate (n + 4) (0, some true))).selection = some 128 := by
  have h : ∀ k, (tracks { Stats.new 100 with score := 128 } (List.replicate (k + 4) (0, some true))).times = 0 ∧
      (tracks { Stats.new 100 with score := 128 } (List.replicate (k + 4) (0, some true))).score = 128 ∧
      (tracks { Stats.new 100 with score := 128 } (List.replicate (k + 4) (0, some true))).history = 0 := by
    intro k
    induction k with
    | zero => decide
    | succ k ih =>
      rw [show k + 1 + 4 = (k + 4) + 1 by omega, List.replicate_succ', tracks_append]
      obtain ⟨h1, h2, h3⟩ := ih
      simp [Stats.track, h1, h2, h3, addTime, maxScore]
  obtain ⟨h1, h2, h3⟩ := h n
  unfold Stats.selection
  rw [h1, h2, h3]
  have : avgTime 0 = none := by unfold avgTime digits; rfl
  simp [this, threshold]

/-- C174: the hypotheses. -/
example : avgTime (addTime (addTime (addTime (addTime 100 10) 20) 30) 40) = some 25 :=
  average_of_four 100 10 20 30 40 (by decide) (by decide) (by decide) (by decide) (by decide)

example : (tracks (Stats.new 100) [(10, some true), (10, some false), (10, some false), (10, none), (10, some false),
    (10, some false)]).selection = some 24 ∧
    [false, false, false, false] <:+ outcomes [(10, some true), (10, some false), (10, some false), (10, none),
      (10, some false), (10, some false)] := by
  have h : [false, false, false, false] <:+ outcomes [(10, some true), (10, some false), (10, some false), (10, none),
      (10, some false), (10, some false)] := by decide
  have := (selection_spec 100 [(10, some true), (10, some false), (10, some false), (10, none), (10, some false),
      (10, some false)] _ rfl (by decide)).1 h
  exact ⟨by rw [this]; decide, h⟩

end Tycho.Neighbours
