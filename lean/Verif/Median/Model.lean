/-!
Model of `util/src/num/median.rs` and `util/src/num/safe_avg.rs`. A `BinaryHeap` is modelled by the
list of its elements in pop order (that the standard heap pops in order is trusted); `u128` values
are `Nat`s with the saturating operations written out.
-/
namespace Tycho.Median

/-- Largest u128. -/
def u128Max : Nat := 2 ^ 128 - 1

/-- `BinaryHeap<Reverse<u128>>::push`: keep ascending order. -/
def pushMin (x : Nat) : List Nat → List Nat
  | [] => [x]
  | y :: ys => if x ≤ y then x :: y :: ys else y :: pushMin x ys

/-- `BinaryHeap<u128>::push`: keep descending order. -/
def pushMax (x : Nat) : List Nat → List Nat
  | [] => [x]
  | y :: ys => if y ≤ x then x :: y :: ys else y :: pushMax x ys

/-- util/src/num/median.rs:4-8 `struct StreamingUnsignedMedian`. -/
structure Median where
  lo : List Nat := []
  hi : List Nat := []

/-- util/src/num/median.rs:11-23 `insert`. -/
def Median.insert (m : Median) (v : Nat) : Median :=
  let hi := pushMin v m.hi
  let (lo, hi) := match hi with
    | x :: rest => (pushMax x m.lo, rest)
    | [] => (m.lo, [])
  if lo.length > hi.length + 1 then
    match lo with
    | x :: rest => { lo := rest, hi := pushMin x hi }
    | [] => { lo := lo, hi := hi }
  else { lo := lo, hi := hi }

/-- util/src/num/median.rs:30-41 `get_median_checked`; the `unwrap`s on empty heaps are the `none`s
of the inner matches (proved unreachable). -/
def Median.get (m : Median) : Option Nat :=
  match m.lo with
  | [] => none
  | a :: _ =>
    if m.lo.length > m.hi.length then some a
    else match m.hi with
      | b :: _ => some (min (a + b) u128Max / 2)
      | [] => none

/-- util/src/num/safe_avg.rs:1-5 `SafeUnsignedAvg`. -/
structure Avg where
  sum : Nat := 0
  counter : Nat := 0
deriving DecidableEq

/-- util/src/num/safe_avg.rs:15-23 `accum` (overflow of `counter` itself not modelled). -/
def Avg.accum (s : Avg) (v : Nat) : Avg :=
  if s.sum + v ≤ u128Max then { sum := s.sum + v, counter := s.counter + 1 }
  else { sum := min (s.sum / s.counter + v) u128Max, counter := 0 + 1 }

/-- util/src/num/safe_avg.rs:30-38 `get_avg_checked`. -/
def Avg.get (s : Avg) : Option Nat :=
  if s.counter = 0 then none else if s.counter = 1 then some s.sum else some (s.sum / s.counter)

end Tycho.Median
