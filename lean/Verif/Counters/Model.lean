import Verif.Common.Bytes
import Verif.Common.Codec
import Verif.Common.Table
import Mathlib.Data.Finset.Basic
import Mathlib.Data.List.Sort

/-!
# Cell reference counters

Model of `core/src/storage/shard_state/counters.rs`: the in-memory store of cell reference counts. A count is not kept
per row: rows with count one have no entry at all, counts 2..=256 are spread over eight roaring bitmaps (bit `b` of
`count - 1` of row `i` is membership of `i` in bitmap `b`), larger counts sit in a hash map.

Simplifications: a `Bitmap64` is a finite set of naturals (its portable byte format is a parameter, `BitmapFormat`); the
hash map is a table in arbitrary order; the worker pool, metrics, the debug assertions and `shrink_if_needed` (which only
changes the memory layout of the bitmaps, counters.rs:242-289) are left out; `u64` sums are unbounded.
-/
namespace Tycho.Counters
open Tycho.Bytes Tycho.Codec Tycho.Table

/-- `CounterTransition` (counters.rs:509-514). -/
structure Transition where
  idx : Nat
  oldRaw : Nat
  newRaw : Nat
  deriving DecidableEq, Repr

/-- The fields of `Counters` that hold data (counters.rs:13-28). -/
structure Counters where
  /-- `next_idx` -/
  nextIdx : Nat
  /-- `live_cells` -/
  liveCells : Nat
  /-- `present_in_any_small_tier` -/
  present : Finset Nat
  /-- `small_rc_bits`, one set per bit number below 8 -/
  small : Nat → Finset Nat
  /-- `large_rc` -/
  large : Table Nat Nat

/-- `RefCount::BIG_MIN` (counters.rs:472). -/
def bigMin : Nat := 257

/-- `Counters::new` (counters.rs:31-42). -/
def new (nextIdx : Nat) : Counters :=
  { nextIdx, liveCells := 0, present := ∅, small := fun _ => ∅, large := [] }

/-- `Counters::alloc_idx` (counters.rs:44-49). -/
def allocIdx (c : Counters) : Nat × Counters := (c.nextIdx, { c with nextIdx := c.nextIdx + 1 })

/-- The loop of `get_allocated` that collects the bits of a small count (counters.rs:390-395): `code |= 1 << bit`. -/
def smallCode (c : Counters) (idx : Nat) : Nat → Nat
  | 0 => 0
  | n + 1 => smallCode c idx n + (if idx ∈ c.small n then 2 ^ n else 0)

/-- `Counters::get` / `get_allocated` (counters.rs:55-62, 380-398). -/
def get (c : Counters) (idx : Nat) : Nat :=
  if idx ∈ c.present then
    match Table.get c.large idx with
    | some count => count
    | none => smallCode c idx 8 + 1
  else 1

/-- `Counters::encode_small_raw` (counters.rs:410-419). -/
def encodeSmall (raw : Nat) : Nat := if 2 ≤ raw ∧ raw ≤ 256 then raw - 1 else 0

/-- `CounterBatchScratch`: the parts that matter between `push` and `apply` (counters.rs:574-585). -/
structure Scratch where
  transitions : List Transition
  added : Nat
  removed : Nat
  isSorted : Bool
  lastIdx : Option Nat
  deriving DecidableEq, Repr

/-- A cleared scratch (counters.rs:588-598, 651-665). -/
def Scratch.empty : Scratch := { transitions := [], added := 0, removed := 0, isSorted := true, lastIdx := none }

/-- `changes_counter_storage` (counters.rs:605-606). -/
def changesStorage (t : Transition) : Bool :=
  decide (t.oldRaw ≠ t.newRaw) && !(decide (t.oldRaw ≤ 1) && decide (t.newRaw ≤ 1))

/-- `changes_total_cells` (counters.rs:607). -/
def changesTotal (t : Transition) : Bool := decide (t.oldRaw = 0) != decide (t.newRaw = 0)

/-- Is `idx` not above the previously pushed one (counters.rs:620-624)? -/
def breaksOrder (last : Option Nat) (idx : Nat) : Bool := match last with
  | some prev => decide (idx ≤ prev)
  | none => false

/-- `CounterBatchScratch::push` (counters.rs:604-627), called by `CounterBatch::update_raw` (:436-445). -/
def Scratch.push (s : Scratch) (t : Transition) : Scratch :=
  if !changesStorage t && !changesTotal t then s
  else
    { transitions := s.transitions ++ [t]
      added := s.added + (if t.oldRaw = 0 ∧ t.newRaw ≠ 0 then 1 else 0)
      removed := s.removed + (if t.oldRaw ≠ 0 ∧ t.newRaw = 0 then 1 else 0)
      isSorted := s.isSorted && !breaksOrder s.lastIdx t.idx
      lastIdx := some t.idx }

/-- `prepare_order` (counters.rs:629-648): sorts by index unless the pushes came in order. -/
def prepareOrder (s : Scratch) : List Transition :=
  if s.isSorted then s.transitions else s.transitions.insertionSort (fun a b => a.idx ≤ b.idx)

/-- `large_rc` after one transition (counters.rs:333-337). -/
def applyLarge (m : Table Nat Nat) (t : Transition) : Table Nat Nat :=
  if bigMin ≤ t.newRaw then put m t.idx t.newRaw
  else if bigMin ≤ t.oldRaw then del m (fun j => decide (j = t.idx))
  else m

/-- `override_add` (counters.rs:339-344). -/
def overrideAdd (ts : List Transition) : List Nat :=
  (ts.filter (fun t => decide (¬ 1 < t.oldRaw) && decide (1 < t.newRaw))).map (·.idx)

/-- `override_remove` (counters.rs:339-344). -/
def overrideRemove (ts : List Transition) : List Nat :=
  (ts.filter (fun t => decide (1 < t.oldRaw) && decide (¬ 1 < t.newRaw))).map (·.idx)

/-- `deltas.add[bit]`: the rows whose code gains the bit (counters.rs:346-350, 683-691). The `trailing_zeros` loop over
`diff & new_code` visits exactly the bits set in the new code and not in the old one. -/
def deltaAdd (ts : List Transition) (bit : Nat) : List Nat :=
  (ts.filter (fun t => (encodeSmall t.oldRaw ^^^ encodeSmall t.newRaw).testBit bit &&
    (encodeSmall t.newRaw).testBit bit)).map (·.idx)

/-- `deltas.remove[bit]` (counters.rs:693-698). -/
def deltaRemove (ts : List Transition) (bit : Nat) : List Nat :=
  (ts.filter (fun t => (encodeSmall t.oldRaw ^^^ encodeSmall t.newRaw).testBit bit &&
    (encodeSmall t.oldRaw).testBit bit)).map (·.idx)

/-- `Bitmap64::remove_many` followed by `add_many` (counters.rs:400-408, 701-716). -/
def bulk (b : Finset Nat) (removes adds : List Nat) : Finset Nat := (b \ removes.toFinset) ∪ adds.toFinset

/-- `Counters::apply_batch` (counters.rs:301-378), with `CounterBatch::apply` (:447-451). -/
def applyBatch (c : Counters) (s : Scratch) : Counters :=
  let ts := prepareOrder s
  if ts.isEmpty then c
  else
    { nextIdx := c.nextIdx
      liveCells := c.liveCells + s.added - s.removed
      present := bulk c.present (overrideRemove ts) (overrideAdd ts)
      small := fun bit => bulk (c.small bit) (deltaRemove ts bit) (deltaAdd ts bit)
      large := ts.foldl applyLarge c.large }

/-- `begin`, a sequence of `update_raw` calls, `apply` (counters.rs:64-70, 436-451). -/
def runBatch (c : Counters) (ts : List Transition) : Counters :=
  applyBatch c (ts.foldl Scratch.push Scratch.empty)

/-! ## Snapshot -/

/-- The portable byte format of a roaring bitmap, a library this model does not look into. -/
structure BitmapFormat where
  ser : Finset Nat → List Nat
  de : List Nat → Option (Finset Nat)
  /-- What the library promises for bitmaps of `u64`. -/
  roundTrip : ∀ b : Finset Nat, (∀ x ∈ b, x < 2 ^ 64) → de (ser b) = some b
  lenBound : ∀ b : Finset Nat, (∀ x ∈ b, x < 2 ^ 64) → (ser b).length < 2 ^ 64

/-- `COUNTERS_SNAPSHOT_VERSION` (counters.rs:11). -/
def snapshotVersion : Nat := 1

/-- One bitmap payload with its length (counters.rs:98-108). -/
def serBitmap (F : BitmapFormat) (b : Finset Nat) : List Nat := leBytes 8 (F.ser b).length ++ F.ser b

/-- `Counters::serialize` (counters.rs:80-116). -/
def serialize (F : BitmapFormat) (c : Counters) : List Nat :=
  snapshotVersion :: (leBytes 8 c.nextIdx ++ (leBytes 8 c.liveCells ++
    ((List.range 8).flatMap (fun b => serBitmap F (c.small b)) ++
      c.large.flatMap (fun e => leBytes 8 e.1 ++ leBytes 8 e.2))))

/-- Reads one bitmap (counters.rs:180-195). -/
def rdBitmap (F : BitmapFormat) : Rd (Finset Nat) := do
  let len ← rdLe 8
  let payload ← rdBytes len
  match F.de payload with
  | some b => return b
  | none => Rd.fail

/-- Reads `n` bitmaps (counters.rs:178-196). -/
def rdBitmaps (F : BitmapFormat) : Nat → Rd (List (Finset Nat))
  | 0 => return []
  | n + 1 => do
    let b ← rdBitmap F
    let bs ← rdBitmaps F n
    return b :: bs

/-- The loop over the large entries (counters.rs:214-228); the length was checked to be a multiple of 16. -/
def rdLarge : List Nat → Table Nat Nat → Option (Table Nat Nat)
  | [], m => some m
  | a0 :: a1 :: a2 :: a3 :: a4 :: a5 :: a6 :: a7 :: b0 :: b1 :: b2 :: b3 :: b4 :: b5 :: b6 :: b7 :: rest, m =>
    let idx := ofLe [a0, a1, a2, a3, a4, a5, a6, a7]
    let count := ofLe [b0, b1, b2, b3, b4, b5, b6, b7]
    if count = 0 then none
    else if count < bigMin then none
    else rdLarge rest (put m idx count)
  | _, _ => none

/-- The union of the bitmaps and the large keys (counters.rs:198-201, 227). -/
def presentOf (bs : List (Finset Nat)) (m : Table Nat Nat) : Finset Nat :=
  bs.foldl (· ∪ ·) ∅ ∪ (m.map (·.1)).toFinset

/-- Everything after the bitmaps (counters.rs:198-239). -/
def finish (nextIdx liveCells : Nat) (bs : List (Finset Nat)) (rest : List Nat) : Option Counters :=
  if rest.length % 16 ≠ 0 then none
  else match rdLarge rest [] with
    | none => none
    | some m => some
        { nextIdx, liveCells, present := presentOf bs m, small := fun b => bs.getD b ∅, large := m }

/-- `Counters::deserialize_trusted` (counters.rs:148-240); `none` is `InvalidSnapshot`. -/
def deserialize (F : BitmapFormat) (data : List Nat) : Option Counters :=
  match data with
  | [] => none
  | v :: data =>
    if v ≠ snapshotVersion then none
    else match (do
        let nextIdx ← rdLe 8
        let liveCells ← rdLe 8
        let bs ← rdBitmaps F 8
        return (nextIdx, liveCells, bs) : Rd (Nat × Nat × List (Finset Nat))) data with
      | none => none
      | some ((nextIdx, liveCells, bs), rest) => finish nextIdx liveCells bs rest

end Tycho.Counters
