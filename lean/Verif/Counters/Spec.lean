import Verif.Counters.Model

/-!
What the counters are for: a map from row numbers to reference counts, zero for a row that does not exist.
-/
namespace Tycho.Counters

/-- The reference count of every row; 0: no such row. -/
abbrev Rc := Nat → Nat

/-- The counts after one transition. -/
def Rc.set (rc : Rc) (t : Transition) : Rc := fun i => if i = t.idx then t.newRaw else rc i

/-- The counts after a list of transitions. -/
def Rc.setAll (rc : Rc) (ts : List Transition) : Rc := ts.foldl Rc.set rc

/-- The number of existing rows below `n`. -/
def liveCount (rc : Rc) (n : Nat) : Nat := ((List.range n).filter (fun i => decide (0 < rc i))).length

/-- The caller contract of `apply_batch` (counters.rs:292-300): allocated rows, each at most once, with the counts before
the batch. -/
structure Contract (rc : Rc) (next : Nat) (ts : List Transition) : Prop where
  once : (ts.map (·.idx)).Nodup
  old : ∀ t ∈ ts, t.oldRaw = rc t.idx
  alloc : ∀ t ∈ ts, t.idx < next

/-- What a reader of the counters can ask for agrees with the map `rc`: the count of every existing row, the number of
existing rows, the next free number. -/
structure Agrees (c : Counters) (rc : Rc) : Prop where
  count : ∀ i, 0 < rc i → get c i = rc i
  live : c.liveCells = liveCount rc c.nextIdx
  fresh : ∀ i, c.nextIdx ≤ i → rc i = 0

/-- A history of the counters: allocate a row number, advance the counter of row numbers, apply a batch, save the counters and
load them back. -/
inductive Op
  | alloc
  | reserve (n : Nat)
  | batch (ts : List Transition)
  | reload

/-- The counters after an operation; `none` when reloading failed. -/
def step (F : BitmapFormat) (c : Counters) : Op → Option Counters
  | .alloc => some (allocIdx c).2
  | .reserve n => some { c with nextIdx := max c.nextIdx n }
  | .batch ts => some (runBatch c ts)
  | .reload => deserialize F (serialize F c)

/-- The map after an operation. -/
def specStep (rc : Rc) : Op → Rc
  | .batch ts => rc.setAll ts
  | _ => rc

/-- The first free number after an operation. -/
def specNext (n : Nat) : Op → Nat
  | .alloc => n + 1
  | .reserve m => max n m
  | _ => n

/-- The callers keep the contract; numbers and counts fit in 64 bits. -/
def Honest : Rc → Nat → List Op → Prop
  | _, n, [] => n < 2 ^ 64
  | rc, n, op :: ops =>
    n < 2 ^ 64 ∧ (∀ ts, op = .batch ts → Contract rc n ts ∧ ∀ t ∈ ts, t.newRaw < 2 ^ 64) ∧
      Honest (specStep rc op) (specNext n op) ops

/-- Runs a history. -/
def run (F : BitmapFormat) (c : Counters) : List Op → Option Counters
  | [] => some c
  | op :: ops => match step F c op with
    | some c' => run F c' ops
    | none => none

/-- The map after a history. -/
def specRun (rc : Rc) (ops : List Op) : Rc := ops.foldl specStep rc

end Tycho.Counters
