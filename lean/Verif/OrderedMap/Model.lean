import Mathlib.Data.Prod.Lex
import Mathlib.Data.List.Nodup
import Mathlib.Data.List.InsertIdx
import Mathlib.Data.List.Sort

/-! Model of `consensus/src/utils/value_ordered_map.rs`: a bounded map ordered by value, kept as an
`IndexMap` sorted ascending. The index map is the list of its entries in order. `none` is a panic (an
index out of range or an underflow). -/
namespace Tycho.OrderedMap

variable {K V : Type} [LinearOrder K] [LinearOrder V]

/-- consensus/src/utils/value_ordered_map.rs:103-105 `compare`: by value, then by key. -/
def ord (e : K × V) : V ×ₗ K := toLex (e.2, e.1)

/-- consensus/src/utils/value_ordered_map.rs:11-15 `struct ValueOrderedMap`. -/
structure Map (K V : Type) where
  inner : List (K × V)
  maxLen : Nat
deriving DecidableEq, Repr

/-- consensus/src/utils/value_ordered_map.rs:18-29 `enum UpsertResult`. -/
inductive Upsert (K V : Type) where
  | inserted
  | updated (old : V)
  | evicted (k : K) (v : V)
  | rejected
  | tooLow
deriving DecidableEq, Repr

/-- consensus/src/utils/value_ordered_map.rs:36-41 `with_max_len`. -/
def withMaxLen (n : Nat) : Map K V := ⟨[], n⟩

/-- consensus/src/utils/value_ordered_map.rs:49-51: on a sorted list the binary search gives the index of
the first entry that is not less, or the length. -/
def pos (l : List (K × V)) (e : K × V) : Nat := l.findIdx fun x => !decide (ord x < ord e)

/-- `shift_insert` of the index map. -/
def insertAt (l : List (K × V)) (i : Nat) (e : K × V) : Option (List (K × V)) :=
  if i ≤ l.length then some (l.insertIdx i e) else none

/-- `move_index` of the index map, of the entry `e` at `i`. -/
def moveIndex (l : List (K × V)) (i target : Nat) (e : K × V) : Option (List (K × V)) :=
  if target < l.length then some ((l.eraseIdx i).insertIdx target e) else none

/-- Subtraction that panics. -/
def sub1 (n : Nat) : Option Nat := if n = 0 then none else some (n - 1)

/-- consensus/src/utils/value_ordered_map.rs:44-81 `upsert`. -/
def upsert (m : Map K V) (k : K) (v : V) (updateIf : V → V → Bool) : Option (Map K V × Upsert K V) :=
  let wasFull := decide (m.maxLen ≤ m.inner.length)
  let p := pos m.inner (k, v)
  match m.inner.findIdx? (fun e => decide (e.1 = k)) with
  | some i =>
    match m.inner[i]? with
    | none => none
    | some old =>
      if !updateIf v old.2 then some (m, .rejected)
      else
        (if i < p then sub1 p else some p).bind fun target =>
          (moveIndex m.inner i target (k, v)).map fun l => ({ m with inner := l }, .updated old.2)
  | none =>
    if wasFull && p == 0 then some (m, .tooLow)
    else if wasFull then
      match m.inner with
      | [] => none
      | old :: rest =>
        (sub1 p).bind fun target =>
          (moveIndex ((k, v) :: rest) 0 target (k, v)).map fun l => ({ m with inner := l }, .evicted old.1 old.2)
    else (insertAt m.inner p (k, v)).map fun l => ({ m with inner := l }, .inserted)

/-- consensus/src/utils/value_ordered_map.rs:83-85 `get`. -/
def get (m : Map K V) (k : K) : Option V := (m.inner.find? fun e => decide (e.1 = k)).map (·.2)

/-- consensus/src/utils/value_ordered_map.rs:87-89 `remove`. -/
def remove (m : Map K V) (k : K) : Map K V × Option V :=
  ({ m with inner := m.inner.eraseP fun e => decide (e.1 = k) }, get m k)

/-- consensus/src/utils/value_ordered_map.rs:91-93 `max`. -/
def max (m : Map K V) : Option (K × V) := m.inner.getLast?

/-- `IndexMap::from_iter`: a later entry replaces the value of an earlier one of the same key. -/
def collect (l : List (K × V)) : List (K × V) :=
  l.foldl (fun a e => if a.any (fun x => decide (x.1 = e.1)) then a.map (fun x => if x.1 = e.1 then e else x)
    else a ++ [e]) []

/-- consensus/src/utils/value_ordered_map.rs:113-118 `from_iter`. -/
def fromIter (l : List (K × V)) : Map K V :=
  let inner := (collect l).insertionSort fun a b => ord a ≤ ord b
  ⟨inner, inner.length⟩

end Tycho.OrderedMap
