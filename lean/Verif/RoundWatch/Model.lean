import Mathlib.Data.List.Basic

/-!
# Model of `consensus/src/engine/round_watch.rs`: the watches of rounds

A `tokio` watch channel is a value with a version, and for each receiver the version it
has seen. Calls of any number of senders and receivers interleave.
-/

namespace Tycho.RoundWatch

/-- A `RoundWatcher` (consensus/src/engine/round_watch.rs:108-111). `base` and `got` are
for the specification: the value when it was made, and what `next` returned, the last
first. -/
structure Rx where
  /-- the version it has seen -/
  seen : Nat
  /-- `changed` has returned in `next`, `borrow_and_update` has not -/
  mid : Bool
  base : Nat
  got : List Nat

/-- A `RoundWatch` (consensus/src/engine/round_watch.rs:62-65) with its receivers.
`sets` is for the specification: all that was given to `set_max`. -/
structure W where
  value : Nat
  version : Nat
  closed : Bool
  rxs : List Rx
  sets : List Nat

/-- `default` (consensus/src/engine/round_watch.rs:66-73). -/
def init : W := ⟨0, 0, false, [], []⟩

/-- `set_max` (consensus/src/engine/round_watch.rs:87-96): the new state and what is
returned. `send_if_modified` holds the lock for the closure and increments the version
if it returned true. `set_max_raw` (83-85) is the same. -/
def setMax (w : W) (v : Nat) : W × Bool :=
  if w.value < v then
    ({ w with value := v, version := w.version + 1, sets := v :: w.sets }, true)
  else ({ w with sets := v :: w.sets }, false)

/-- `get` (consensus/src/engine/round_watch.rs:79-81, 115-117): it marks nothing as
seen. -/
def get (w : W) : Nat := w.value

/-- `receiver` (consensus/src/engine/round_watch.rs:99-104): `subscribe` takes the
current version as seen. -/
def receiver (w : W) : W :=
  { w with rxs := w.rxs ++ [⟨w.version, false, w.value, []⟩] }

/-- What `changed` does when polled. -/
inductive Polled where
  | ready (w : W)
  | failed
  | pending

/-- `changed().await` in `next` (consensus/src/engine/round_watch.rs:121), one poll: it
returns if the version is not the one seen, else fails if all senders are gone, else
sleeps. -/
def changed (w : W) (i : Nat) (r : Rx) : Polled :=
  if r.seen ≠ w.version then
    .ready { w with rxs := w.rxs.set i { r with seen := w.version, mid := true } }
  else if w.closed then .failed
  else .pending

/-- `borrow_and_update` in `next` (consensus/src/engine/round_watch.rs:122). -/
def update (w : W) (i : Nat) (r : Rx) : W :=
  { w with rxs := w.rxs.set i { r with seen := w.version, mid := false,
                                       got := w.value :: r.got } }

/-- The steps, in any order. -/
inductive Step : W → W → Prop
  | setMax (w v) : w.closed = false → Step w (setMax w v).1
  | receiver (w) : w.closed = false → Step w (receiver w)
  | changed (w i r w') : w.rxs[i]? = some r → r.mid = false → changed w i r = .ready w' →
      Step w w'
  | update (w i r) : w.rxs[i]? = some r → r.mid = true → Step w (update w i r)
  | close (w) : Step w { w with closed := true }

/-- The states reached. -/
inductive Reach : W → Prop
  | init : Reach init
  | step (w w') : Reach w → Step w w' → Reach w'

end Tycho.RoundWatch
