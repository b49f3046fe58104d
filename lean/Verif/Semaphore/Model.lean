/-!
Model of `util/src/sync/priority_semaphore.rs`: `PrioritySemaphore`, its wait lists, the `Acquire` future and permits.

Each step is one atomic effect: a successful compare-exchange on `permits`, or one critical section of the mutex together with
the single access to `permits` made in it (other threads can only change `permits` meanwhile, and these changes commute).
The word `permits` (`n << 1 | closed`) is a count and a flag; `waiters.closed` is written in the same critical section as the
flag and only read under the mutex, so it is the same flag. A failed compare-exchange has no effect. Queues list the oldest
waiter first (the code pushes at the front and pops at the back). Waking a waker is recorded when it is taken from the node.
`num` is the number of permits of one acquisition: the public API always uses 1, the code is written for any number.
Not modelled: memory orderings, the intrusive list's pointers (`LinkedList::remove` of a node that is not in the list does
nothing), mutex poisoning.
-/
namespace Tycho.Semaphore

/-- Where an `Acquire` future is: not being polled; in `poll_acquire` with `needed` read; has taken permits without the lock
and waits for it; has returned an error; completed or dropped. -/
inductive Pc
  | idle | polling (needed : Nat) | taken (acquired : Nat) | failed | gone
deriving DecidableEq, Repr

/-- priority_semaphore.rs:363-369, 489-494 `Acquire` with its `Waiter`; `state`: permits still needed; `woken`: its waker was
called. -/
structure Fut where
  id : Nat
  num : Nat
  prio : Bool
  queued : Bool
  state : Nat
  pc : Pc
  woken : Bool
deriving DecidableEq, Repr

/-- priority_semaphore.rs:16-19, 471-475. `held`: permits in live `SemaphorePermit`s; `flight`: what calls of
`add_permits_locked` still have to add; `lost`: permits dropped with an error; `created`: all permits ever made.
`joined`, `served`: histories of each wait list, oldest first. -/
structure Sys where
  permits : Nat
  closed : Bool
  q : Bool → List Nat
  futs : List Fut
  held : Nat
  flight : List Nat
  lost : Nat
  created : Nat
  joined : Bool → List Nat
  served : Bool → List Nat

/-- priority_semaphore.rs:22, on a 64-bit target. -/
def maxPermits : Nat := (2 ^ 64 - 1) / 8

/-- wake_list.rs:53 `NUM_WAKERS`. -/
def wakeCap : Nat := 32

/-- priority_semaphore.rs:26-41; `none`: panic. -/
def Sys.new (n : Nat) : Option Sys :=
  if n ≤ maxPermits then some ⟨n, false, fun _ => [], [], 0, [], 0, n, fun _ => [], fun _ => []⟩ else none

def setq {α} (q : Bool → α) (p : Bool) (x : α) : Bool → α := fun b => if b = p then x else q b

def setFut (fs : List Fut) (f : Fut) : List Fut := fs.map fun x => if x.id = f.id then f else x

def getFut (fs : List Fut) (id : Nat) : Option Fut := fs.find? fun f => decide (f.id = id)

/-- priority_semaphore.rs:170-176, 184-187, 509-526 (`assign_permits`): give permits to the oldest waiter of one list; if it has
all it needs, take it out and wake it. Returns what is left and whether a waiter was taken out. -/
def tryHead (p : Bool) (s : Sys) (rem : Nat) : Sys × Nat × Bool :=
  match s.q p with
  | [] => (s, rem, false)
  | id :: rest =>
    match getFut s.futs id with
    | none => (s, rem, false)
    | some f =>
      if f.state - min f.state rem = 0 then
        ({ s with q := setq s.q p rest, served := setq s.served p (s.served p ++ [id]),
                  futs := setFut s.futs { f with state := 0, woken := true } }, rem - min f.state rem, true)
      else ({ s with futs := setFut s.futs { f with state := f.state - min f.state rem } }, rem - min f.state rem, false)

/-- priority_semaphore.rs:166-188: the inner loop, with room for `cap` more wakers; priority waiters first. The flag is
`is_empty`. -/
def serve : Nat → Sys → Nat → Sys × Nat × Bool
  | 0, s, rem => (s, rem, false)
  | cap + 1, s, rem =>
    let a := tryHead true s rem
    if a.2.2 then serve cap a.1 a.2.1
    else
      let b := tryHead false a.1 a.2.1
      if b.2.2 then serve cap b.1 b.2.1 else (b.1, b.2.1, true)

/-- priority_semaphore.rs:156-216 `add_permits_locked`: one turn of the outer loop (one critical section). What is left stays in
flight. `none`: panic. -/
def addSection (s : Sys) (rem : Nat) : Option Sys :=
  if rem = 0 then some s
  else
    let r := serve wakeCap s rem
    if 0 < r.2.1 then
      if r.2.2 then
        if r.2.1 ≤ maxPermits ∧ r.1.permits + r.2.1 ≤ maxPermits then some { r.1 with permits := r.1.permits + r.2.1 } else none
      else some { r.1 with flight := r.2.1 :: r.1.flight }
    else some r.1

/-- priority_semaphore.rs:218-335 `poll_acquire` after the lock is taken and `acquired` permits are taken from the counter. -/
def finishPoll (s : Sys) (f : Fut) (acquired : Nat) : Option Sys :=
  if f.state - min f.state acquired = 0 then
    addSection { s with futs := setFut s.futs { f with state := 0, queued := false, pc := .gone }, held := s.held + f.num }
      (acquired - min f.state acquired)
  else
    let f' := { f with state := f.state - min f.state acquired, queued := true, pc := .idle }
    if f.queued then some { s with futs := setFut s.futs f' }
    else some { s with futs := setFut s.futs f', q := setq s.q f.prio (s.q f.prio ++ [f.id]),
                       joined := setq s.joined f.prio (s.joined f.prio ++ [f.id]) }

inductive Op
  /-- A new future. -/
  | new (id num : Nat) (prio : Bool)
  /-- `poll` begins: `needed` is read (l. 228-232). -/
  | poll (id : Nat)
  /-- The flag is seen: the future fails (l. 240-242). -/
  | seeClosed (id : Nat)
  /-- Permits are taken without the lock (l. 248-250, 268-281). -/
  | cas (id : Nat)
  /-- The lock is taken first (l. 255-264), then permits. -/
  | lock (id : Nat)
  /-- The lock is taken after the permits (l. 278). -/
  | lockTaken (id : Nat)
  /-- The future is dropped (l. 403-419). -/
  | drop (id : Nat)
  /-- `try_acquire` (l. 126-152). -/
  | tryAcquire (n : Nat)
  /-- A permit is dropped (l. 347-351). -/
  | release (n : Nat)
  /-- `add_permits` by the owner (l. 117-124). -/
  | add (n : Nat)
  /-- A call of `add_permits_locked` runs its next critical section. -/
  | turn (n : Nat)
  /-- `close` (l. 60-77). -/
  | close
deriving DecidableEq, Repr

/-- priority_semaphore.rs:403-419 `Drop for Acquire`. -/
def dropFut (s : Sys) (f : Fut) : Option Sys :=
  if f.queued then
    addSection { s with q := setq s.q f.prio ((s.q f.prio).erase f.id), futs := setFut s.futs { f with pc := .gone } }
      (f.num - f.state)
  else some { s with futs := setFut s.futs { f with pc := .gone } }

/-- priority_semaphore.rs:246-283: the loop with the lock held. -/
def lockPoll (s : Sys) (f : Fut) (n : Nat) : Option Sys :=
  if s.closed then some { s with futs := setFut s.futs { f with pc := .failed } }
  else if n ≤ s.permits ∧ f.queued = false then
    some { s with permits := s.permits - n, futs := setFut s.futs { f with pc := .gone }, held := s.held + f.num }
  else finishPoll { s with permits := s.permits - min n s.permits } f (min n s.permits)

def step (s : Sys) : Op → Option Sys
  | .new id num prio =>
    if (getFut s.futs id).isSome ∨ num = 0 then some s
    else some { s with futs := ⟨id, num, prio, false, num, .idle, false⟩ :: s.futs }
  | .poll id =>
    match getFut s.futs id with
    | none => some s
    | some f =>
      if f.pc = .idle then
        some { s with futs := setFut s.futs { f with pc := .polling (if f.queued then f.state else f.num) } }
      else some s
  | .seeClosed id =>
    match getFut s.futs id with
    | none => some s
    | some f =>
      match f.pc with
      | .polling _ => if s.closed then some { s with futs := setFut s.futs { f with pc := .failed } } else some s
      | _ => some s
  | .cas id =>
    match getFut s.futs id with
    | none => some s
    | some f =>
      match f.pc with
      | .polling n =>
        if s.closed = false ∧ n ≤ s.permits then
          if f.queued then some { s with permits := s.permits - n, futs := setFut s.futs { f with pc := .taken n } }
          else some { s with permits := s.permits - n, futs := setFut s.futs { f with pc := .gone }, held := s.held + f.num }
        else some s
      | _ => some s
  | .lock id =>
    match getFut s.futs id with
    | none => some s
    | some f =>
      match f.pc with
      | .polling n => lockPoll s f n
      | _ => some s
  | .lockTaken id =>
    match getFut s.futs id with
    | none => some s
    | some f =>
      match f.pc with
      | .taken n =>
        if s.closed then some { s with futs := setFut s.futs { f with pc := .failed }, lost := s.lost + n }
        else finishPoll s f n
      | _ => some s
  | .drop id =>
    match getFut s.futs id with
    | none => some s
    | some f =>
      match f.pc with
      | .idle => dropFut s f
      | .failed => dropFut s f
      | _ => some s
  | .tryAcquire n =>
    if s.closed = false ∧ n ≤ s.permits then some { s with permits := s.permits - n, held := s.held + n } else some s
  | .release n => if n ≤ s.held then some { s with held := s.held - n, flight := n :: s.flight } else some s
  | .add n => some { s with created := s.created + n, flight := n :: s.flight }
  | .turn n => if n ∈ s.flight then addSection { s with flight := s.flight.erase n } n else some s
  | .close => some { s with
      closed := true
      q := fun _ => []
      futs := s.futs.map fun f => if f.id ∈ s.q f.prio then { f with woken := true } else f }

/-- A run; `none` when some step panics. -/
def run (s : Sys) : List Op → Option Sys
  | [] => some s
  | op :: ops =>
    match step s op with
    | none => none
    | some s' => run s' ops

end Tycho.Semaphore
