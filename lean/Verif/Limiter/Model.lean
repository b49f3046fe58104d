import Verif.Common.Table
/-!
Model of `consensus/src/intercom/dependency/limiter.rs`: at most a number of tasks at once are inside, the others wait on a
semaphore of their round and are let in from the highest round down; a waiting task can be cancelled at any moment.

A semaphore is a number; what it has is the number of its free permits and the tasks that wait on it. A part of a call that
runs under the lock of the limiter is one step, and so is every call of a semaphore; the steps of all tasks interleave in
any order. `tokio::sync::Semaphore` is modelled by its documented behaviour: added permits go to waiting tasks first, a
task that was assigned a permit and is dropped gives it back. Which of the waiting tasks is first is left open (`pick`).
A panic is recorded (`bad`). Simplification: logs are not represented; the semaphores are never closed (line 160).
-/
namespace Tycho.Limiter
open Tycho.Table (Table get put del)

/-- Where a call of `enter` is. -/
inductive Phase where
  /-- Holds a waiter, lines 36-43; about to try, line 137. -/
  | start
  /-- The try failed, line 139; the guard is set; `acquire` is not yet in the queue. -/
  | second
  /-- In the queue of the semaphore, line 149. -/
  | queued
  /-- Was assigned a permit, but did not run yet. -/
  | granted
  /-- The future of `acquire` is dropped; the guard is about to run, lines 141-147. -/
  | cancelling
  /-- Holds the guard of the limiter. -/
  | inside
  /-- Is over. -/
  | done
deriving DecidableEq, Repr

/-- A call of `enter`. -/
structure Task where
  round : Nat
  sem : Nat
  phase : Phase
deriving DecidableEq, Repr

/-- `LimiterInner`, lines 13-23, with the semaphores and the tasks. `waiters` gives semaphore and `inflight` of a round;
`avail` the free permits of every semaphore. -/
structure St where
  permits : Nat
  waiters : Table Nat (Nat × Nat)
  avail : List Nat
  tasks : List Task
  bad : Bool
deriving DecidableEq, Repr

/-- `Limiter::new`, lines 26-31. -/
def St.init (permits : Nat) : St := ⟨permits, [], [], [], false⟩

/-- Free permits of a semaphore. -/
def St.free (s : St) (sem : Nat) : Nat := s.avail[sem]?.getD 0

/-- Is the task in the queue of the semaphore? -/
def Task.waitsOn (t : Task) (sem : Nat) : Bool := decide (t.phase = .queued ∧ t.sem = sem)

/-- The next task of the queue of a semaphore, if any. -/
def St.nextOf (s : St) (sem pick : Nat) : Option Nat :=
  if (s.tasks[pick]?.map (·.waitsOn sem)).getD false then some pick
  else s.tasks.findIdx? (·.waitsOn sem)

/-- Change of the phase of a task. -/
def St.phase (s : St) (k : Nat) (p : Phase) : St := match s.tasks[k]? with
  | some t => { s with tasks := s.tasks.set k { t with phase := p } }
  | none => s

/-- `Semaphore::add_permits(1)`. -/
def St.addPermit (s : St) (sem pick : Nat) : St := match s.nextOf sem pick with
  | some k => s.phase k .granted
  | none => { s with avail := s.avail.set sem (s.free sem + 1) }

/-- A free permit is taken, by `try_acquire`, `acquire` or `forget_permits(1)`. -/
def St.take (s : St) (sem : Nat) : St := { s with avail := s.avail.set sem (s.free sem - 1) }

/-- The highest round of the map, `last_entry`. -/
def lastRound (t : Table Nat (Nat × Nat)) : Option Nat := (t.map (·.1)).max?

/-- `inflight` of the round is decreased, lines 91-99 and 117-124. -/
def St.lessInflight (s : St) (round : Nat) : St := match get s.waiters round with
  | some (sem, n) => match n with
    | 0 => { s with bad := true }
    | 1 => { s with waiters := del s.waiters (fun x => decide (x = round)) }
    | n + 2 => { s with waiters := put s.waiters round (sem, n + 1) }
  | none => s

/-- `exit`, lines 110-130. -/
def St.exit (s : St) (pick : Nat) : St := match lastRound s.waiters with
  | some r => match get s.waiters r with
    | some (sem, _) => (s.addPermit sem pick).lessInflight r
    | none => s
  | none => if s.permits < 65535 then { s with permits := s.permits + 1 } else { s with bad := true }

/-- `get_waiter`, lines 52-68: the call of `enter`. -/
def St.enter (s : St) (round : Nat) : St :=
  if s.permits > 0 then { s with permits := s.permits - 1, tasks := s.tasks ++ [⟨round, 0, .inside⟩] }
  else match get s.waiters round with
    | some (sem, n) => { s with waiters := put s.waiters round (sem, n + 1), tasks := s.tasks ++ [⟨round, sem, .start⟩] }
    | none => { s with
        waiters := put s.waiters round (s.avail.length, 1),
        avail := s.avail ++ [0],
        tasks := s.tasks ++ [⟨round, s.avail.length, .start⟩] }

/-- `try_acquire`, line 137. -/
def St.tryAcquire (s : St) (k : Nat) : St := match s.tasks[k]? with
  | some t =>
    if t.phase = .start then
      if s.free t.sem > 0 then (s.take t.sem).phase k .inside else s.phase k .second
    else s
  | none => s

/-- The first poll of `acquire`, line 149. -/
def St.acquire (s : St) (k : Nat) : St := match s.tasks[k]? with
  | some t =>
    if t.phase = .second then
      if s.free t.sem > 0 then (s.take t.sem).phase k .inside else s.phase k .queued
    else s
  | none => s

/-- The task that was assigned a permit runs, lines 149-158. -/
def St.wake (s : St) (k : Nat) : St := match s.tasks[k]? with
  | some t => if t.phase = .granted then s.phase k .inside else s
  | none => s

/-- A waiting task is cancelled: the future of `acquire` is dropped first, before the guard runs. -/
def St.cancel (s : St) (k pick : Nat) : St := match s.tasks[k]? with
  | some t =>
    if t.phase = .second ∨ t.phase = .queued then s.phase k .cancelling
    else if t.phase = .granted then (s.phase k .cancelling).addPermit t.sem pick
    else s
  | none => s

/-- `cancel_inflight`, lines 71-108. -/
def St.cancelInflight (s : St) (round sem pick : Nat) : St := match get s.waiters round with
  | some (cur, _) =>
    if cur = sem then
      if s.free sem > 0 then (s.take sem).exit pick else s.lessInflight round
    else
      if s.free sem > 0 then ((s.take sem).addPermit cur pick).lessInflight round else { s with bad := true }
  | none => if s.free sem > 0 then (s.take sem).exit pick else { s with bad := true }

/-- The guard of a cancelled task runs, lines 40-41, 143-147. -/
def St.onCancel (s : St) (k pick : Nat) : St := match s.tasks[k]? with
  | some t => if t.phase = .cancelling then (s.phase k .done).cancelInflight t.round t.sem pick else s
  | none => s

/-- The guard of the limiter is dropped, lines 173-177. -/
def St.leave (s : St) (k pick : Nat) : St := match s.tasks[k]? with
  | some t => if t.phase = .inside then (s.phase k .done).exit pick else s
  | none => s

/-- One step of everything. -/
inductive Op where
  | enter (round : Nat)
  | tryAcquire (k : Nat)
  | acquire (k : Nat)
  | wake (k : Nat)
  | cancel (k pick : Nat)
  | onCancel (k pick : Nat)
  | leave (k pick : Nat)
deriving DecidableEq, Repr

/-- The effect of a step. -/
def step (s : St) : Op → St
  | .enter r => s.enter r
  | .tryAcquire k => s.tryAcquire k
  | .acquire k => s.acquire k
  | .wake k => s.wake k
  | .cancel k pick => s.cancel k pick
  | .onCancel k pick => s.onCancel k pick
  | .leave k pick => s.leave k pick

/-- A history of a limiter. -/
def run (permits : Nat) (ops : List Op) : St := ops.foldl step (St.init permits)

end Tycho.Limiter
