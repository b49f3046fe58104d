import Mathlib.Data.List.Basic

/-! Model of `QueryCache::run` of `network/src/dht/query.rs`: callers that ask for the same key share one future.

A call is three steps, with those of other calls in any order between: it takes the future of the entry or makes a new one (under the
lock of the entry); it lets go of the future, with the output or cancelled, and is told whether it was the last; if it was, it removes
the entry if nobody has its future (under the lock). Futures are numbers, `held` has a pair of key and future for each call that has
not let go. -/
namespace Tycho.QueryCache

structure S where
  next : Nat := 0
  cache : Nat → Option Nat := fun _ => none
  held : List (Nat × Nat) := []
  removing : List Nat := []

/-- `upgrade` succeeds; `strong_count` is not zero. -/
def S.live (s : S) (f : Nat) : Bool := s.held.any fun h => h.2 == f

/-- network/src/dht/query.rs:29-61 -/
def S.enter (s : S) (k : Nat) : S × Nat :=
  let new : S × Nat :=
    ({ s with next := s.next + 1, cache := fun q => if q = k then some s.next else s.cache q, held := (k, s.next) :: s.held }, s.next)
  match s.cache k with
  | none => new
  | some f => if s.live f = true then ({ s with held := (k, f) :: s.held }, f) else new

/-- network/src/dht/query.rs:63-96: `take_or_clone_output` or `consume`; the last may not be told so by the former, if another
let go at the same time. -/
def S.leave (s : S) (h : Nat × Nat) (last : Bool) : Option S :=
  if h ∈ s.held then
    let s := { s with held := s.held.erase h }
    if last = true then
      if s.live h.2 = true then none else some { s with removing := h.1 :: s.removing }
    else some s
  else none

/-- network/src/dht/query.rs:61-63,75-78,98-101 `remove_if` with `on_drop`. -/
def S.remove (s : S) (k : Nat) : Option S :=
  if k ∈ s.removing then
    let t := { s with removing := s.removing.erase k }
    match s.cache k with
    | none => some t
    | some f => if s.live f = true then some t else some { t with cache := fun q => if q = k then none else s.cache q }
  else none

inductive Ev where
  | enter (k : Nat)
  | leave (h : Nat × Nat) (last : Bool)
  | remove (k : Nat)
deriving DecidableEq, Repr

def S.step (s : S) : Ev → Option S
  | .enter k => some (s.enter k).1
  | .leave h last => s.leave h last
  | .remove k => s.remove k

/-- All histories, the newest event first. -/
inductive Reach : S → List Ev → Prop
  | start : Reach {} []
  | step {s t h e} : Reach s h → s.step e = some t → Reach t (e :: h)

end Tycho.QueryCache
