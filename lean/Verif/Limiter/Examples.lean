import Verif.Limiter.Props
/-!
Histories of a limiter that meet the hypotheses of the theorems, and one that shows that the order of rounds is not kept
when a cancelled task gives back its permit.
-/
namespace Tycho.Limiter
open Tycho.Table (get)

/-- Two permits; tasks 0 and 1 are inside, 2 (round 5), 3 (round 9) and 4 (round 5) wait. -/
def busy : List Op :=
  [.enter 3, .enter 4, .enter 5, .enter 9, .enter 5, .tryAcquire 2, .tryAcquire 3, .tryAcquire 4, .acquire 2, .acquire 3, .acquire 4]

example : ((run 2 busy).tasks.map (·.phase), (run 2 busy).num .inside, (run 2 busy).permits)
    = ([.inside, .inside, .queued, .queued, .queued], 2, 0) := by decide +kernel
/-- The hypotheses of `highest_first` and `leaving_lets_in` are met: round 9 is let in first. -/
example : ((run 2 (busy ++ [.leave 0 2])).tasks[3]?).map (·.phase) = some .granted := by decide +kernel
example : ((run 2 (busy ++ [.leave 0 2])).tasks[2]?).map (·.phase) = some .queued := by decide +kernel
example : lastRound (run 2 busy).waiters = some 9 := by decide +kernel
/-- A task that was assigned a permit is cancelled: the permit goes on to a task of the highest round. -/
example : ((run 2 (busy ++ [.leave 0 2, .cancel 3 0, .onCancel 3 4])).tasks.map (·.phase))
    = [.done, .inside, .queued, .done, .granted] := by decide +kernel
/-- A permit is there before the task is in the queue, and the task is cancelled. -/
example : ((run 1 [.enter 1, .enter 2, .tryAcquire 1, .leave 0 0, .cancel 1 0]).avail, (run 1 [.enter 1, .enter 2, .tryAcquire 1, .leave 0 0, .cancel 1 0]).permits) = ([1], 0) := by decide +kernel
example : (run 1 [.enter 1, .enter 2, .tryAcquire 1, .leave 0 0, .cancel 1 0, .onCancel 1 0]).permits = 1 := by decide +kernel
/-- A queued task is cancelled; nothing remains of its round. -/
example : (run 1 [.enter 1, .enter 2, .tryAcquire 1, .acquire 1, .cancel 1 0, .onCancel 1 0]).waiters = [] := by decide +kernel
/-- The hypotheses of `quiet_is_empty`. -/
example : ∀ t ∈ (run 1 [.enter 1, .enter 2, .tryAcquire 1, .acquire 1, .cancel 1 0, .onCancel 1 0, .leave 0 0]).tasks,
    t.phase = .queued ∨ t.phase = .done := by decide +kernel
/-- A task finds the permit at its first poll of `acquire`, and another at its try. -/
example : (run 1 [.enter 1, .enter 2, .tryAcquire 1, .leave 0 0, .acquire 1]).num .inside = 1 := by decide +kernel
example : (run 1 [.enter 1, .enter 2, .leave 0 0, .tryAcquire 1]).num .inside = 1 := by decide +kernel
/-- A task of a round that is full again keeps the entry (lines 97-99), and a semaphore of an earlier entry of the round is
told from the present one (lines 78-86). -/
example : get (run 1 [.enter 1, .enter 5, .leave 0 0, .enter 5]).waiters 5 = some (1, 1) := by decide +kernel

/-- Task 1 (round 5) was assigned the permit, and its entry is gone; task 2 (round 5) and task 3 (round 9) came after. -/
def aba : List Op :=
  [.enter 3, .enter 5, .tryAcquire 1, .acquire 1, .leave 0 0,
   .enter 5, .tryAcquire 2, .acquire 2, .enter 9, .tryAcquire 3, .acquire 3]

/-- Finding: when the task that has the permit is cancelled, the permit goes to the task of round 5 although a task of round 9
waits: `cancel_inflight` prefers the round of the cancelled task (lines 79-86) to the highest. `highest_first` holds only for
permits given back by tasks that were inside. -/
theorem aba_ignores_priority :
    ((run 1 (aba ++ [.cancel 1 0, .onCancel 1 0])).tasks.map (fun t => (t.round, t.phase)))
      = [(3, .done), (5, .done), (5, .granted), (9, .queued)] := by decide +kernel


end Tycho.Limiter
