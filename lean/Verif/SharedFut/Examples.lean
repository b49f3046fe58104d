import Verif.SharedFut.Props

/-! Concrete interleavings. -/
namespace Tycho.SharedFut

def S.runs (s : S) : List Ev → Option S
  | [] => some s
  | e :: es => (s.step e).bind fun t => t.runs es

theorem reach_runs {s t : S} (hr : Reach s) (es : List Ev) (h : s.runs es = some t) : Reach t := by
  induction es generalizing s with
  | nil => simp only [S.runs, Option.some.injEq] at h; exact h ▸ hr
  | cons e es ih =>
    unfold S.runs at h
    cases hs : s.step e with
    | none => rw [hs] at h; simp at h
    | some u => rw [hs, Option.bind_some] at h; exact ih (.step hr hs) h

/-- A test of a state reached proves that there is one. -/
theorem reached (f : S → Bool) (es : List Ev) (h : (S.runs {} es).map f = some true) : ∃ s, Reach s ∧ f s = true := by
  cases hs : S.runs {} es with
  | none => rw [hs] at h; simp at h
  | some s => rw [hs] at h; exact ⟨s, reach_runs .start es hs, by simpa using h⟩

/-- 0 polls the future and waits, 1 queues up; 0 is cancelled: 1 has the permit and is woken, and then completes. -/
def cancelled : List Ev :=
  [.spawn 1, .poll 0, .acquire 0, .check 0, .innerPending 0, .poll 1, .acquire 1, .dropH 0]

example : (S.runs {} (cancelled.take 7)).map (fun s => (s.queue, s.waker, s.woken 1)) = some ([1], some 0, false) := by decide
example : (S.runs {} cancelled).map (fun s => (s.queue, s.res 1, s.woken 1)) = some ([], .granted, true) := by decide
example : (S.runs {} (cancelled ++ [.poll 1, .acquire 1, .check 1, .innerReady 1 7, .store 1, .unwrap 1])).map (·.given) =
    some [(1, 7, true)] := by decide
/-- The wake of the future between reaches nobody who waits, and nobody waits in vain for it. -/
example : (S.runs {} (cancelled ++ [.wake])).map (fun s => (s.woken 1, s.pc 1)) = some (true, .out) := by decide

/-- All hypotheses of C181 hold of 1 before the cancellation. -/
example : ∃ s, Reach s ∧ s.pc 1 = .out ∧ s.woken 1 = false ∧ s.queue = [1] := by
  obtain ⟨s, h1, h2⟩ := reached (fun s => decide (s.pc 1 = .out ∧ s.woken 1 = false ∧ s.queue = [1])) (cancelled.take 7) (by decide)
  exact ⟨s, h1, by simpa using h2⟩

/-- A handle that was about to ask for the permit when the future completed gets it and finds the output. -/
example : (S.runs {} [.spawn 1, .poll 0, .acquire 0, .check 0, .poll 1, .innerReady 0 7, .store 0, .acquire 1, .unwrap 0, .cloneOut 0,
    .dropH 0, .poll 1, .unwrap 1]).map (·.given) = some [(1, 7, true), (0, 7, false)] := by decide

/-- **Nobody may be told that it is the last**: two handles that take the output at the same time both see the other and
clone it. `QueryCache` then leaves its entry in the cache till the key is asked for again. -/
theorem nobody_last : ∃ s, Reach s ∧ (∀ p, s.pc p = .done ∨ s.pc p = .gone) ∧ s.given = [(1, 7, false), (0, 7, false)] := by
  obtain ⟨s, h1, h2⟩ := reached
    (fun s => decide (s.ids = [1, 0] ∧ s.pc 0 = .gone ∧ s.pc 1 = .gone ∧ s.given = [(1, 7, false), (0, 7, false)]))
    [.spawn 1, .poll 0, .acquire 0, .check 0, .innerReady 0 7, .store 0, .poll 1, .unwrap 0, .unwrap 1, .cloneOut 0, .cloneOut 1,
      .dropH 0, .dropH 1] (by decide)
  simp only [decide_eq_true_eq] at h2
  obtain ⟨h3, h4, h5, h6⟩ := h2
  refine ⟨s, h1, fun p => ?_, h6⟩
  by_cases hp : p ∈ s.ids
  · rw [h3] at hp
    simp only [List.mem_cons, List.not_mem_nil, or_false] at hp
    rcases hp with rfl | rfl
    · exact .inr h5
    · exact .inr h4
  · exact .inr ((inv h1).dom p hp)

/-- **A completed handle that is kept blocks the others**: the permit is given back only when the handle that completed is dropped;
till then those in the queue sleep, though the output is there. -/
theorem completed_blocks : ∃ s, Reach s ∧ s.state = .complete ∧ s.output = some 7 ∧ s.pc 0 = .done ∧ s.pc 1 = .out ∧
    s.woken 1 = false ∧ s.waker = none := by
  obtain ⟨s, h1, h2⟩ := reached
    (fun s => decide (s.state = .complete ∧ s.output = some 7 ∧ s.pc 0 = .done ∧ s.pc 1 = .out ∧ s.woken 1 = false ∧ s.waker = none))
    [.spawn 1, .poll 0, .acquire 0, .check 0, .poll 1, .acquire 1, .innerReady 0 7, .store 0, .unwrap 0, .cloneOut 0] (by decide)
  exact ⟨s, h1, by simpa using h2⟩

/-- A panic of the inner future panics the next that gets the permit. -/
example : (S.runs {} [.spawn 1, .poll 0, .acquire 0, .check 0, .poll 1, .acquire 1, .innerPanic 0, .poll 1, .acquire 1, .check 1]).map
    (fun s => (s.state, s.pc 1, s.given)) = some (.poisoned, .gone, []) := by decide

end Tycho.SharedFut
