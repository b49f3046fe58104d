import Verif.Semaphore.Props

/-! Concrete runs that meet the hypotheses of `Props.lean`. -/
namespace Tycho.Semaphore.Ex

/-- The observable part of a state. -/
structure View where
  permits : Nat
  closed : Bool
  prio : List Nat
  ord : List Nat
  held : Nat
  flight : List Nat
  lost : Nat
deriving DecidableEq

def view (s : Option Sys) : Option View :=
  s.map fun s => ⟨s.permits, s.closed, s.q true, s.q false, s.held, s.flight, s.lost⟩

def start (n : Nat) (ops : List Op) : Option Sys := (Sys.new n).bind fun s => run s ops

/-- One permit; future 1 takes it; 2 and 3 wait as ordinary, 4 as priority; 2 gives up; the permit comes back. -/
def ops1 : List Op :=
  [.new 1 1 false, .poll 1, .cas 1, .new 2 1 false, .new 3 1 false, .new 4 1 true, .poll 2, .lock 2, .poll 3, .lock 3, .poll 4, .lock 4,
   .drop 2, .release 1]

example : view (start 1 ops1) = some ⟨0, false, [4], [3], 0, [1], 0⟩ := by decide +kernel
/-- The priority waiter is served first, although it came last; then it completes, releases, and 3 is served. -/
example : view (start 1 (ops1 ++ [.turn 1])) = some ⟨0, false, [], [3], 0, [], 0⟩ := by decide +kernel
example : view (start 1 (ops1 ++ [.turn 1, .poll 4, .cas 4, .lockTaken 4])) = some ⟨0, false, [], [3], 1, [], 0⟩ := by decide +kernel
example : view (start 1 (ops1 ++ [.turn 1, .poll 4, .cas 4, .lockTaken 4, .release 1, .turn 1])) =
    some ⟨0, false, [], [], 0, [], 0⟩ := by decide +kernel
/-- An ordinary waiter is served by the last step. -/
example : ((start 1 (ops1 ++ [.turn 1, .poll 4, .cas 4, .lockTaken 4, .release 1, .turn 1])).map fun s => (s.served false, s.joined false)) =
    some ([3], [2, 3]) := by decide +kernel
example : 1 + adds ops1 ≤ maxPermits := by decide
/-- A future reads what it needs, is then served by a release, takes a free permit too, and gives it back. -/
example : view (start 1 (ops1 ++ [.poll 3, .turn 1, .add 2, .turn 2, .cas 3, .lockTaken 3])) =
    some ⟨1, false, [], [], 1, [], 0⟩ := by decide +kernel
/-- A close between the two halves of that poll: the permit taken is dropped, the one given comes back when the future is
dropped. -/
example : view (start 1 (ops1 ++ [.poll 3, .turn 1, .add 2, .turn 2, .cas 3, .close, .lockTaken 3, .drop 3, .drop 4])) =
    some ⟨2, true, [], [], 0, [], 1⟩ := by decide +kernel
/-- After a close nothing is acquired. -/
example : view (start 2 [.close, .new 1 1 true, .poll 1, .cas 1, .lock 1, .tryAcquire 1]) = some ⟨2, true, [], [], 0, [], 0⟩ := by
  decide +kernel

end Tycho.Semaphore.Ex
