import Verif.PeerCount.Model

/-!
Model of `consensus/src/dag/threshold.rs`: the collection of includes of one DAG round. Concurrent calls of `add`, one
task that runs `reached` (and may be dropped at its await point) or calls `get_reached`. Steps of different callers
interleave; each access to the shared channel or to the packed counter is one step.

Simplifications: a point is its author, time, round and a tag for the rest. Time is one monotone clock in milliseconds
(`UnixTime::now` is `MonotonicClock::now_millis`, and timers use the same kind of clock); saturation of `u64` is left out.
`DelayQueue` is a list of points with deadlines: it gives out only entries whose deadline has passed, `peek` is an entry
with the least deadline. `lag` is the time between the reading of the clock and the start of the timer. `ready` is a hash map by author, here
a list. `added`, `discarded`, `taken` are ghost state: what was given to `add`, what was thrown away as too far in the
future, and what `get_reached` returned.
-/
namespace Tycho.Threshold

open Tycho.PeerCount

/-- `PointInfo`, as far as needed here. -/
structure Pt where
  author : Nat
  time : Nat
  round : Nat
  tag : Nat
deriving DecidableEq, Repr

/-- threshold.rs:17-18 `TOO_FAR_FUTURE`: 365 days in milliseconds. -/
def tooFar : Nat := 365 * 24 * 3600 * 1000

/-- threshold.rs:209-214 `ThresholdCount`. -/
structure Count where
  target : Nat
  ready : Nat
  delayed : Nat
  inChannel : Nat
deriving DecidableEq, Repr

/-- threshold.rs:259-261 `pack`: big endian bytes of a `u32`. -/
def Count.pack (c : Count) : Nat := ((c.target * 256 + c.ready) * 256 + c.delayed) * 256 + c.inChannel

/-- threshold.rs:263-271 `unpack`. -/
def unpack (n : Nat) : Count := ⟨n / 256 / 256 / 256 % 256, n / 256 / 256 % 256, n / 256 % 256, n % 256⟩

/-- threshold.rs:273-282 `total`; `none` is a panic. -/
def Count.total (c : Count) : Option Nat :=
  if c.ready + c.delayed ≤ 255 ∧ c.ready + c.delayed + c.inChannel ≤ 255 then some (c.ready + c.delayed + c.inChannel)
  else none

/-- threshold.rs:217-230 `add_one_in_channel`; `none` is a panic. -/
def addOneInChannel (n : Nat) : Option Nat :=
  let c := unpack n
  if c.inChannel + 1 ≤ 255 then some { c with inChannel := c.inChannel + 1 }.pack else none

/-- threshold.rs:232-257 `set_decrease`; `none` is a panic. -/
def setDecrease (n ready delayed removed : Nat) : Option Nat :=
  if ready ≤ 255 ∧ delayed ≤ 255 then
    let c := unpack n
    if removed ≤ c.inChannel then
      some { c with ready := ready, delayed := delayed, inChannel := c.inChannel - removed }.pack
    else none
  else none

/-- threshold.rs:194-205 `push_ready`; `none` is a panic. -/
def pushReady (ready : List Pt) (p : Pt) : Option (List Pt) :=
  if ready.any (fun q => q.author = p.author) then none else some (ready ++ [p])

/-- Who holds the lock `work`, and where it is. -/
inductive Worker where
  /-- nobody holds the lock -/
  | free
  /-- in the loop of `reached` with its `max_time` -/
  | waiting (maxTime : Nat)
  /-- in the loop of `reached`, before `set_decrease(removed)` -/
  | counting (maxTime removed : Nat)
  /-- `get_reached` reads the channel -/
  | draining (maxTime removed : Nat)
  /-- `get_reached` before its `set_decrease` -/
  | drained (removed : Nat)
deriving DecidableEq, Repr

/-- threshold.rs:21-35 `Threshold`, `ThresholdWork`, the running calls, the clock and ghost state. -/
structure St where
  round : Nat
  target : Nat
  capacity : Nat
  skew : Nat
  clock : Nat
  count : Nat
  /-- calls of `add` between the counter and the channel -/
  adding : List Pt
  chan : List Pt
  delayed : List (Pt × Nat)
  ready : List Pt
  isReached : Bool
  worker : Worker
  panicked : Bool
  added : List Pt
  discarded : List Pt
  taken : List (List Pt)
deriving DecidableEq, Repr

/-- threshold.rs:38-60 `new`. -/
def init (round : Nat) (pc : PeerCount) (skew clock : Nat) : St where
  round := round
  target := pc.majority
  capacity := pc.full
  skew := skew
  clock := clock
  count := Count.pack ⟨pc.majority % 256, 0, 0, 0⟩
  adding := []
  chan := []
  delayed := []
  ready := []
  isReached := false
  worker := .free
  panicked := false
  added := []
  discarded := []
  taken := []

def St.panic (s : St) : St := { s with panicked := true }

/-- threshold.rs:67-71 `add`, its assertion and the counter. -/
def St.addCount (s : St) (p : Pt) : St :=
  if p.round ≠ s.round then s.panic
  else match addOneInChannel s.count with
    | none => s.panic
    | some c => { s with count := c, adding := p :: s.adding, added := p :: s.added }

/-- threshold.rs:72-78 `add`, the channel. -/
def St.addSend (s : St) (p : Pt) : St :=
  if s.chan.length < s.capacity then { s with adding := s.adding.erase p, chan := s.chan ++ [p] } else s.panic

/-- threshold.rs:88-103 `reached` takes the lock. -/
def St.reachedStart (s : St) : St := if s.isReached then s else { s with worker := .waiting (s.clock + s.skew) }

/-- threshold.rs:133-134 a received point that is in time, or an expired one, becomes ready. -/
def St.reachedReady (s : St) (p : Pt) (maxTime removed : Nat) : St := match pushReady s.ready p with
  | none => s.panic
  | some ready => { s with ready := ready, worker := .counting maxTime removed }

/-- threshold.rs:106-128 the body of `reached` for a point received from the channel; the clock is read again at `s.clock`. -/
def St.reachedRecv (s : St) (p : Pt) (rest : List Pt) (maxTime lag : Nat) : St :=
  let s := { s with chan := rest }
  if p.time - maxTime > tooFar then { s with discarded := p :: s.discarded, worker := .counting maxTime 1 }
  else
    let maxTime := if p.time - maxTime > 0 then s.clock + s.skew else maxTime
    let toDelay := p.time - maxTime
    if toDelay > 0 then
      { s with delayed := s.delayed ++ [(p, s.clock + lag + toDelay)], worker := .counting maxTime 1 }
    else s.reachedReady p maxTime 1

/-- threshold.rs:118,135 `set_decrease` in `reached`. -/
def St.reachedCount (s : St) (maxTime removed : Nat) : St :=
  match setDecrease s.count s.ready.length s.delayed.length removed with
  | none => s.panic
  | some c => { s with count := c, worker := .waiting maxTime }

/-- threshold.rs:138 the loop of `reached` has ended. -/
def St.reachedDone (s : St) : St := { s with isReached := true, worker := .free }

/-- An entry of `DelayQueue` with the least deadline, and the others. -/
def popMin : List (Pt × Nat) → Option ((Pt × Nat) × List (Pt × Nat))
  | [] => none
  | x :: xs => match popMin xs with
    | none => some (x, [])
    | some (y, ys) => if x.2 ≤ y.2 then some (x, y :: ys) else some (y, x :: ys)

/-- threshold.rs:156-167 the loop over delayed points in `get_reached`; `none` is a panic, `fuel` bounds the steps by the
number of delayed points. -/
def drainDelayed (fuel clock maxTime lag : Nat) (delayed : List (Pt × Nat)) (ready : List Pt) :
    Option (List (Pt × Nat) × List Pt) := match fuel with
  | 0 => some (delayed, ready)
  | fuel + 1 => match popMin delayed with
    | none => some (delayed, ready)
    | some ((p, _), rest) =>
      let toDelay := p.time - maxTime
      if toDelay > 0 then some (rest ++ [(p, clock + lag + toDelay)], ready)
      else match pushReady ready p with
        | none => none
        | some ready => drainDelayed fuel clock maxTime lag rest ready

/-- threshold.rs:142-167 `get_reached`: the lock, the assertion, delayed points. -/
def St.getStart (s : St) (lag : Nat) : St :=
  if s.worker ≠ .free then s.panic
  else if !s.isReached then s.panic
  else match drainDelayed s.delayed.length s.clock (s.clock + s.skew) lag s.delayed s.ready with
    | none => s.panic
    | some (delayed, ready) => { s with delayed := delayed, ready := ready, worker := .draining (s.clock + s.skew) 0 }

/-- threshold.rs:169-183 `get_reached` takes one point from the channel. -/
def St.getRecv (s : St) (p : Pt) (rest : List Pt) (maxTime removed lag : Nat) : St :=
  let s := { s with chan := rest, worker := .draining maxTime (removed + 1) }
  let toDelay := p.time - maxTime
  if removed + 1 > 255 then s.panic
  else if toDelay > tooFar then { s with discarded := p :: s.discarded }
  else if toDelay > 0 then { s with delayed := s.delayed ++ [(p, s.clock + lag + toDelay)] }
  else match pushReady s.ready p with
    | none => s.panic
    | some ready => { s with ready := ready }

/-- threshold.rs:185-192 `get_reached` sets the counter and gives out what is ready. -/
def St.getFinish (s : St) (removed : Nat) : St :=
  match setDecrease s.count s.ready.length s.delayed.length removed with
  | none => s.panic
  | some c => { s with count := c, ready := [], worker := .free, taken := s.ready :: s.taken }

/-- Steps of all callers. -/
inductive Act where
  | tick (ms : Nat)
  | addCount (p : Pt)
  | addSend (p : Pt)
  | reachedStart
  | reachedRecv (lag : Nat)
  | reachedExpired (entry : Pt × Nat)
  | reachedCount
  | reachedDone
  /-- the future of `reached` is dropped while it waits -/
  | reachedDrop
  | getStart (lag : Nat)
  | getRecv (lag : Nat)
  /-- the channel is found empty -/
  | getEmpty
  | getFinish
deriving DecidableEq, Repr

/-- One step, `none` if the caller is not at this place. -/
def step (s : St) : Act → Option St
  | .tick ms => some { s with clock := s.clock + ms }
  | .addCount p => some (s.addCount p)
  | .addSend p => if p ∈ s.adding then some (s.addSend p) else none
  | .reachedStart => if s.worker = .free then some s.reachedStart else none
  | .reachedRecv lag => match s.worker, s.chan with
    | .waiting m, p :: rest => if s.ready.length < s.target then some (s.reachedRecv p rest m lag) else none
    | _, _ => none
  | .reachedExpired e => match s.worker with
    | .waiting m => if s.ready.length < s.target ∧ e ∈ s.delayed ∧ e.2 ≤ s.clock then
        some ({ s with delayed := s.delayed.erase e }.reachedReady e.1 m 0) else none
    | _ => none
  | .reachedCount => match s.worker with
    | .counting m k => some (s.reachedCount m k)
    | _ => none
  | .reachedDone => match s.worker with
    | .waiting _ => if s.target ≤ s.ready.length then some s.reachedDone else none
    | _ => none
  | .reachedDrop => match s.worker with
    | .waiting _ => if s.ready.length < s.target then some { s with worker := .free } else none
    | _ => none
  | .getStart lag => some (s.getStart lag)
  | .getRecv lag => match s.worker, s.chan with
    | .draining m k, p :: rest => some (s.getRecv p rest m k lag)
    | _, _ => none
  | .getEmpty => match s.worker, s.chan with
    | .draining _ k, [] => some { s with worker := .drained k }
    | _, _ => none
  | .getFinish => match s.worker with
    | .drained k => some (s.getFinish k)
    | _ => none

end Tycho.Threshold
