import Mathlib.Data.List.Nodup

/-! Model of `Shared` of `util/src/futures/shared.rs`: a future polled by many tasks, of which the one that has the permit
of a semaphore polls the inner future.

Each atomic operation of a poll is a step of its own (loads and stores are sequentially consistent), so the polls of all
handles interleave in any way. The inner future is any: a poll of it gives a value, nothing (then it keeps the waker of the
last poll, and may wake it) or panics. The semaphore is that of tokio with one permit: a permit released goes to the first in
the queue. `WeakShared` is left out; `WeakSharedHandle::upgrade` makes a handle as `clone` does. -/
namespace Tycho.SharedFut

/-- Where a handle is: between polls; in a poll, before the semaphore; with the permit, before the state is looked at;
polling the inner future; with the output written; taking the output; about to clone it; completed; dropped. -/
inductive Pc where
  | out | loaded | chk | run | wrote | take | clone | done | gone
deriving DecidableEq, Repr

/-- What a handle has of the semaphore: nothing; a place in the queue; a permit in its place; the permit. -/
inductive Res where
  | no | queued | granted | permit
deriving DecidableEq, Repr

inductive St where
  | polling | complete | poisoned
deriving DecidableEq, Repr

def upd {α : Type} (f : Nat → α) (p : Nat) (x : α) : Nat → α := fun q => if q = p then x else f q

/-- util/src/futures/shared.rs:12-18,270-283,323-330. `ids` are all handles there were, `woken` those whose task was woken (or
not polled yet) since their last poll began, `given` what their polls returned. -/
structure S where
  ids : List Nat := [0]
  pc : Nat → Pc := fun p => if p = 0 then .out else .gone
  res : Nat → Res := fun _ => .no
  woken : Nat → Bool := fun p => decide (p = 0)
  queue : List Nat := []
  free : Bool := true
  state : St := .polling
  output : Option Nat := none
  waker : Option Nat := none
  given : List (Nat × Nat × Bool) := []

/-- Whether a handle keeps the inner future alive. -/
def Pc.hasArc : Pc → Bool
  | .done | .gone => false
  | _ => true

/-- `OwnedSemaphorePermit` or `Acquire` of tokio is dropped. -/
def S.release (s : S) (p : Nat) : S :=
  match s.res p with
  | .no => s
  | .queued => { s with queue := s.queue.erase p, res := upd s.res p .no }
  | _ =>
    match s.queue with
    | [] => { s with free := true, res := upd s.res p .no }
    | q :: qs => { s with queue := qs, res := upd (upd s.res p .no) q .granted, woken := upd s.woken q true }

/-- A handle is dropped with what it has, also by a panic. -/
def S.drop (s : S) (p : Nat) : S :=
  let s := s.release p
  { s with pc := upd s.pc p .gone }

inductive Ev where
  | spawn (p : Nat)
  | poll (p : Nat)
  | acquire (p : Nat)
  | check (p : Nat)
  | innerPending (p : Nat)
  | innerReady (p : Nat) (v : Nat)
  | innerPanic (p : Nat)
  | store (p : Nat)
  | unwrap (p : Nat)
  | cloneOut (p : Nat)
  | dropH (p : Nat)
  | wake
deriving DecidableEq, Repr

def S.step (s : S) : Ev → Option S
  /- util/src/futures/shared.rs:20-28,256-263 `Clone`, `upgrade` -/
  | .spawn p =>
    if p ∉ s.ids ∧ (s.ids.any fun q => (s.pc q).hasArc) = true then
      some { s with ids := p :: s.ids, pc := upd s.pc p .out, woken := upd s.woken p true }
    else none
  /- util/src/futures/shared.rs:77-87 the fast path -/
  | .poll p =>
    if s.pc p = .out then
      some { s with pc := upd s.pc p (if s.state = .complete then .take else .loaded), woken := upd s.woken p false }
    else none
  /- util/src/futures/shared.rs:89-124 the permit -/
  | .acquire p =>
    if s.pc p = .loaded then
      match s.res p with
      | .permit => some { s with pc := upd s.pc p .chk }
      | .granted => some { s with res := upd s.res p .permit, pc := upd s.pc p .chk }
      | .queued => some { s with pc := upd s.pc p .out }
      | .no =>
        if s.free = true then some { s with free := false, res := upd s.res p .permit, pc := upd s.pc p .chk }
        else some { s with queue := s.queue ++ [p], res := upd s.res p .queued, pc := upd s.pc p .out }
    else none
  /- util/src/futures/shared.rs:128-135 -/
  | .check p =>
    if s.pc p = .chk then
      match s.state with
      | .complete => some { s with pc := upd s.pc p .take }
      | .poisoned => some (s.drop p)
      | .polling => some { s with pc := upd s.pc p .run }
    else none
  /- util/src/futures/shared.rs:156-171 the inner future is polled -/
  | .innerPending p => if s.pc p = .run then some { s with waker := some p, pc := upd s.pc p .out } else none
  /- util/src/futures/shared.rs:172-178 -/
  | .innerReady p v => if s.pc p = .run then some { s with output := some v, pc := upd s.pc p .wrote } else none
  /- util/src/futures/shared.rs:137-149 `Reset` -/
  | .innerPanic p => if s.pc p = .run then some ({ s with state := .poisoned }.drop p) else none
  /- util/src/futures/shared.rs:180-187 -/
  | .store p => if s.pc p = .wrote then some { s with state := .complete, pc := upd s.pc p .take } else none
  /- util/src/futures/shared.rs:293-304 `take_or_clone_output` -/
  | .unwrap p =>
    if s.pc p = .take then
      if (s.ids.any fun q => decide (q ≠ p) && (s.pc q).hasArc) = true then some { s with pc := upd s.pc p .clone }
      else s.output.map fun v => { s with pc := upd s.pc p .done, given := (p, v, true) :: s.given }
    else none
  | .cloneOut p =>
    if s.pc p = .clone then s.output.map fun v => { s with pc := upd s.pc p .done, given := (p, v, false) :: s.given }
    else none
  /- A handle is dropped between polls or after it completed. -/
  | .dropH p => if s.pc p = .out ∨ s.pc p = .done then some (s.drop p) else none
  /- The inner future wakes the task that polled it last. -/
  | .wake =>
    match s.waker with
    | some p => some { s with waker := none, woken := upd s.woken p true }
    | none => none

inductive Reach : S → Prop
  | start : Reach {}
  | step {s t e} : Reach s → s.step e = some t → Reach t

end Tycho.SharedFut
