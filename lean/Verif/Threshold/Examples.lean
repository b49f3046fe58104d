import Verif.Threshold.Props

/-! Concrete, non-trivial executions. -/
namespace Tycho.Threshold.Examples

open Tycho.Threshold Tycho.PeerCount

def a (i t : Nat) : Pt := ⟨i, t, 5, i⟩
def peers : List Nat := [1, 2, 3, 4]

def legalB (s : St) : Act → Bool
  | .addCount p => decide (p.round = s.round ∧ p.author ∈ peers ∧ ∀ q ∈ s.added, q.author ≠ p.author)
  | .getStart _ => decide (s.worker = .free ∧ s.isReached = true)
  | _ => true

/-- Runs the actions, checking legality. -/
def runB (s : St) : List Act → Option St
  | [] => some s
  | x :: xs => if legalB s x then (step s x).bind (fun s' => runB s' xs) else none

theorem run_of_runB {A : St → Act → Prop} {s s' : St} {acts : List Act} (hA : ∀ s a, a ∈ acts → A s a)
    (h : runB s acts = some s') : Run peers A s acts s' := by
  induction acts generalizing s with
  | nil => simp only [runB, Option.some.injEq] at h; subst h; exact .nil _
  | cons x xs ih =>
    unfold runB at h
    split at h
    · rename_i hok
      rw [Option.bind_eq_some_iff] at h
      obtain ⟨s1, h1, h2⟩ := h
      refine .cons (hA s x (List.mem_cons_self ..)) ?_ h1 (ih (fun s a ha => hA s a (List.mem_cons_of_mem _ ha)) h2)
      cases x <;> simp only [Legal]
      · simpa [legalB] using hok
      · simpa [legalB] using hok
    · simp at h

/-- No timer starts late, and `get_reached` is not called. -/
def promptB : Act → Bool
  | .reachedRecv lag => lag = 0
  | .getStart _ | .getRecv _ => false
  | _ => true

def s0 : St := init 5 ⟨1⟩ 10 100

/-- Four peers, quorum 3, clock at 100, skew 10: the point of 3 has to wait, the point of 4 waits longer. -/
def prefixActs : List Act :=
  [.addCount (a 1 90), .addCount (a 3 115), .addSend (a 3 115), .reachedStart, .addSend (a 1 90), .reachedRecv 0, .reachedCount,
   .reachedDrop, .reachedStart, .reachedRecv 0, .reachedCount, .addCount (a 4 200), .addSend (a 4 200), .addCount (a 2 104),
   .addSend (a 2 104), .reachedRecv 0, .reachedCount, .reachedRecv 0, .reachedCount]

/-- `reached` still waits for the delayed point of 3. -/
def s1 : St := (runB s0 prefixActs).getD s0

theorem reach1 : Reachable peers 5 10 100 (fun _ _ => True) s1 :=
  ⟨⟨1⟩, prefixActs, .inl (by decide), run_of_runB (fun _ _ _ => trivial) (by decide +kernel)⟩

example : s1.worker = .waiting 110 ∧ s1.ready.length = 2 ∧ s1.delayed.length = 2 ∧ (unpack s1.count) = ⟨3, 2, 2, 0⟩ := by
  decide +kernel

example : ∃ acts s', Run peers (fun _ a => a.OfReached) s1 acts s' ∧ s'.isReached = true ∧ s'.worker = .free :=
  reached_can_finish reach1 (m := 110) (by decide +kernel) (by decide +kernel) (by decide +kernel) (by decide +kernel)

/-- Then time passes, the quorum is reached and taken; the point of 4 stays delayed. -/
def restActs : List Act := [.tick 5, .reachedExpired (a 3 115, 105), .reachedCount, .reachedDone]

def s2 : St := (runB s1 restActs).getD s0
def s3 : St := (runB s2 [.getStart 0]).getD s0
def s4 : St := (runB s3 [.getEmpty]).getD s0
def s5 : St := (runB s4 [.getFinish]).getD s0

/-- Only prompt actions: used for `get_reached_complete`. -/
theorem reach2 : Reachable peers 5 10 100 (Prompt 0) s2 := by
  refine ⟨⟨1⟩, prefixActs ++ restActs, .inl (by decide), run_of_runB ?_ (by decide +kernel)⟩
  intro s x hx
  have : ∀ x ∈ prefixActs ++ restActs, promptB x = true := by decide
  have hx' := this x hx
  cases x <;> simp_all [Prompt, promptB]

example : s5.taken = [[a 1 90, a 2 104, a 3 115]] ∧ s5.delayed = [(a 4 200, 190)] ∧ s5.clock = 105 := by decide +kernel

example : ∃ t, s5.taken = t :: s4.taken ∧ (t.map (·.author)).Nodup ∧ majorityOf 4 ≤ t.length := by
  have h4 : Reachable peers 5 10 100 (fun _ _ => True) s4 :=
    ⟨⟨1⟩, prefixActs ++ restActs ++ [.getStart 0, .getEmpty], .inl (by decide),
      run_of_runB (fun _ _ _ => trivial) (by decide +kernel)⟩
  obtain ⟨t, h1, h2, _, h3⟩ := get_reached_result h4 (s' := s5) (by decide +kernel)
  exact ⟨t, h1, h2, h3 (by decide +kernel)⟩

example : a 4 200 ∈ s5.taken.flatten ∨ a 4 200 ∈ s5.discarded ∨
    ∃ d, (a 4 200, d) ∈ s5.delayed ∧ s2.clock < d ∧ s2.clock + 10 < (a 4 200).time + 0 :=
  get_reached_complete (lag := 0) (s1 := s3) (s2 := s4) (acts := [.getEmpty]) reach2 (by simp only [Legal]; decide +kernel)
    (by simp [Prompt]) (by decide +kernel) (.cons trivial trivial (by decide +kernel) (.nil _)) (by simp) (by decide +kernel) _
    (by decide +kernel) (by decide +kernel)

/-- Twice the same author panics (callers must not do this). -/
example : ((runB { s0 with added := [] } [.addCount (a 1 90), .addSend (a 1 90)]).bind (fun s =>
    runB { s with added := [] } [.addCount (a 1 91), .addSend (a 1 91), .reachedStart, .reachedRecv 0, .reachedCount,
      .reachedRecv 0])).map (·.panicked) = some true := by decide +kernel

end Tycho.Threshold.Examples
