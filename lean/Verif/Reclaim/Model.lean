import Mathlib.Data.List.Basic

/-! Model of the queue of `Reclaimer` of `util/src/mem/reclaimer.rs`: values are dropped by background workers.

The threads that enqueue and the workers are alike, so the state says how many, or with which values, are at each place of
the code; every section under the lock, push, steal and notification is a step of its own. A notification wakes any one waiter, and
waiters may wake for no reason. -/
namespace Tycho.Reclaim

/-- util/src/mem/reclaimer.rs:116-127 `Inner`, with the threads. -/
structure S where
  len : Nat := 0
  queue : List Nat := []
  /-- about to look whether there is room, newly or woken -/
  entering : List Nat := []
  /-- waiting for room -/
  fullWait : List Nat := []
  /-- counted, about to push -/
  reserved : List Nat := []
  /-- pushed, about to notify a worker -/
  pushed : Nat := 0
  /-- workers about to steal -/
  idle : Nat
  /-- workers that found the queue empty or were woken, about to look at `len` -/
  seen : Nat := 0
  /-- workers waiting -/
  asleep : Nat := 0
  /-- stolen, about to be uncounted -/
  hold : List Nat := []
  /-- uncounted, about to notify -/
  after : List Nat := []
  dropping : List Nat := []
  dropped : List Nat := []
  /-- all values so far -/
  called : List Nat := []

inductive Ev where
  | call (x : Nat)
  | check (x : Nat)
  | push (x : Nat)
  | notifyE
  | steal
  | look
  | uncount (x : Nat)
  | notifyF (x : Nat) (y : Option Nat)
  | finish (x : Nat)
  | spuriousE
  | spuriousF (x : Nat)
deriving DecidableEq, Repr

def S.step (cap : Nat) (s : S) : Ev → Option S
  /- util/src/mem/reclaimer.rs:66-92 `drop` enqueues. -/
  | .call x => some { s with entering := x :: s.entering, called := x :: s.called }
  /- util/src/mem/reclaimer.rs:153-160 -/
  | .check x =>
    if x ∈ s.entering then
      if cap ≤ s.len then some { s with entering := s.entering.erase x, fullWait := x :: s.fullWait }
      else some { s with entering := s.entering.erase x, len := s.len + 1, reserved := x :: s.reserved }
    else none
  /- util/src/mem/reclaimer.rs:162 -/
  | .push x =>
    if x ∈ s.reserved then
      some { s with reserved := s.reserved.erase x, queue := s.queue ++ [x], pushed := s.pushed + 1 }
    else none
  /- util/src/mem/reclaimer.rs:163 -/
  | .notifyE =>
    if 0 < s.pushed then
      if 0 < s.asleep then some { s with pushed := s.pushed - 1, asleep := s.asleep - 1, seen := s.seen + 1 }
      else some { s with pushed := s.pushed - 1 }
    else none
  /- util/src/mem/reclaimer.rs:176-178,190-192 -/
  | .steal =>
    if 0 < s.idle then
      match s.queue with
      | x :: xs => some { s with idle := s.idle - 1, queue := xs, hold := x :: s.hold }
      | [] => some { s with idle := s.idle - 1, seen := s.seen + 1 }
    else none
  /- util/src/mem/reclaimer.rs:193-196 -/
  | .look =>
    if 0 < s.seen then
      if s.len = 0 then some { s with seen := s.seen - 1, asleep := s.asleep + 1 }
      else some { s with seen := s.seen - 1, idle := s.idle + 1 }
    else none
  /- util/src/mem/reclaimer.rs:179-183; the assertion must not fail -/
  | .uncount x =>
    if x ∈ s.hold ∧ 0 < s.len then some { s with hold := s.hold.erase x, len := s.len - 1, after := x :: s.after } else none
  /- util/src/mem/reclaimer.rs:184-185; `y` is the thread woken -/
  | .notifyF x y =>
    if x ∈ s.after then
      match y with
      | none =>
        if s.fullWait = [] then some { s with after := s.after.erase x, dropping := x :: s.dropping } else none
      | some y =>
        if y ∈ s.fullWait then
          some { s with after := s.after.erase x, dropping := x :: s.dropping, fullWait := s.fullWait.erase y,
                        entering := y :: s.entering }
        else none
    else none
  /- util/src/mem/reclaimer.rs:208-214 -/
  | .finish x =>
    if x ∈ s.dropping then
      some { s with dropping := s.dropping.erase x, dropped := x :: s.dropped, idle := s.idle + 1 }
    else none
  | .spuriousE => if 0 < s.asleep then some { s with asleep := s.asleep - 1, seen := s.seen + 1 } else none
  | .spuriousF x =>
    if x ∈ s.fullWait then some { s with fullWait := s.fullWait.erase x, entering := x :: s.entering } else none

/-- All runs with so much room and so many workers. -/
inductive Reach (cap workers : Nat) : S → Prop
  | start : Reach cap workers { idle := workers }
  | step {s t e} : Reach cap workers s → s.step cap e = some t → Reach cap workers t

end Tycho.Reclaim
