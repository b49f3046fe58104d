import Verif.Common.Table
import Verif.Merge.JournalPoint

/-!
# The journal of the mempool moderator (`consensus/src/moderator`)

Records of events refer to points; the points are kept, with a reference count, in a table of their own. All database calls are made
by one task, one after another (moderator/impl_.rs:370-411), and each ends with one atomic write batch. The kind, peer and message of
a record have no effect on any of this and are left out.
-/
namespace Tycho.Journal
open Tycho.Merge Tycho.Table

/-- `PointKey` (models/point_key.rs:8-12): stored big endian, round first. -/
structure PKey where
  round : Nat
  digest : Nat
  deriving DecidableEq, Repr

/-- `RecordKey` (journal/record_key.rs:35-39): stored big endian, time first. -/
structure RKey where
  created : Nat
  seq : Nat
  deriving DecidableEq, Repr

abbrev Bytes := List Nat

/-- `JournalItemFull` (journal/item.rs:10-13) with its `fill_points`. `store`: `action().store()`. -/
structure Item where
  key : RKey
  store : Bool
  points : List (PKey × Bytes)
  keys : List PKey

/-! ### `batch` (journal/batch.rs:23-100) -/

/-- The variables of the loop. -/
structure Build where
  points : Table PKey (Nat × Bytes)
  allKeys : Table PKey Nat
  records : List (RKey × List PKey)

/-- batch.rs:47-51 -/
def addPoint (t : Table PKey (Nat × Bytes)) (p : PKey × Bytes) : Table PKey (Nat × Bytes) :=
  match get t p.1 with
  | some (n, q) => put t p.1 (n + 1, q)
  | none => put t p.1 (1, p.2)

/-- `insert` into a set. -/
def addSet (u : List PKey) (k : PKey) : List PKey := if k ∈ u then u else u ++ [k]

/-- `*exist.get_mut() += 1` or `insert(1)` (batch.rs:59-62, db.rs:68-71). -/
def addKey (t : Table PKey Nat) (k : PKey) : Table PKey Nat := put t k ((get t k).getD 0 + 1)

/-- batch.rs:55-64 -/
def addRef (s : Table PKey Nat × List PKey) (k : PKey) : Table PKey Nat × List PKey :=
  if k ∈ s.2 then s else (addKey s.1 k, s.2 ++ [k])

/-- The points of an item: keys seen so far (batch.rs:52). -/
def pointSet (it : Item) : List PKey := it.points.foldl (fun u p => addSet u p.1) []

/-- One item (batch.rs:40-92). The references of a record are sorted there. -/
def addItem (b : Build) (it : Item) : Build :=
  if it.store then
    { points := it.points.foldl addPoint b.points
      allKeys := (it.keys.foldl addRef (b.allKeys, pointSet it)).1
      records := b.records ++ [(it.key, (it.keys.foldl addRef (b.allKeys, pointSet it)).2)] }
  else b

/-- `RecordBatch` (batch.rs:10-20). -/
structure Batch where
  records : List (RKey × List PKey)
  points : Table PKey (Nat × Bytes)
  keys : Table PKey Nat

def build (items : List Item) : Build := items.foldl addItem ⟨[], [], []⟩

/-- The end of `batch` (batch.rs:93-100): references by key to points at hand are moved. -/
def finish (b : Build) : Batch :=
  { records := b.records
    points := b.points.map (fun e => (e.1, (e.2.1 + (get b.allKeys e.1).getD 0, e.2.2)))
    keys := del b.allKeys (fun k => (get b.points k).isSome) }

def batch (items : List Item) : Batch := finish (build items)

/-! ### The store -/

/-- The two tables of the moderator. Each point has the merge operands written since it was last deleted. -/
structure Db where
  journal : Table RKey (List (PKey × Bool))
  points : Table PKey (List Bytes)
  deriving DecidableEq

/-- The write for a point known by its key (store.rs:169-203): taken from the journal or else from the main database; `some none`: not
found, `none`: an error. -/
def keyWrite (i : JIds) (main : PKey → Option Bytes) (db : Db) (e : PKey × Nat) : Option (Option (PKey × Bytes)) :=
  match get db.points e.1 with
  | some ops => match (mergeJ i ops).bind (decJ i) with
    | some (_, some raw) => some (some (e.1, encJ i e.2 (some raw)))
    | _ => none
  | none => some ((main e.1).map (fun raw => (e.1, encJ i e.2 (some raw))))

/-- The loop over keys. -/
def keyWrites (i : JIds) (main : PKey → Option Bytes) (db : Db) : List (PKey × Nat) → Option (List (PKey × Bytes))
  | [] => some []
  | e :: l => (keyWrite i main db e).bind (fun w => (keyWrites i main db l).map (fun ws => w.toList ++ ws))

/-- The writes for points at hand (store.rs:206-216). -/
def pointWrites (i : JIds) (points : Table PKey (Nat × Bytes)) : List (PKey × Bytes) :=
  points.map (fun e => (e.1, encJ i e.2.1 (some e.2.2)))

/-- `merge_cf` -/
def addOp (t : Table PKey (List Bytes)) (w : PKey × Bytes) : Table PKey (List Bytes) := put t w.1 ((get t w.1).getD [] ++ [w.2])

/-- `store_records` (store.rs:142-240). `main`: the points of the main database. -/
def storeRecords (i : JIds) (main : PKey → Option Bytes) (b : Batch) (db : Db) : Option Db :=
  if b.records = [] then some db
  else (keyWrites i main db b.keys).map (fun kw =>
    let ws := kw ++ pointWrites i b.points
    { points := ws.foldl addOp db.points
      journal := putAll db.journal (b.records.map (fun r => (r.1, r.2.map (fun k => (k, decide (k ∈ ws.map (·.1))))))) })

/-! ### `clean_events` (storage/db.rs:36-125) -/

def inTime (a b : Nat) (k : RKey) : Bool := decide (a ≤ k.created ∧ k.created < b)

/-- The stored references of the records to be deleted (db.rs:59-74). -/
def subRefs (a b : Nat) (db : Db) : List PKey :=
  ((db.journal.filter (fun r => inTime a b r.1)).flatMap (·.2)).filterMap (fun r => if r.2 then some r.1 else none)

/-- `point_refs_sub` -/
def subTable (l : List PKey) : Table PKey Nat := l.foldl addKey []

/-- `max_round`, exclusive (db.rs:57, 67, 75). -/
def maxRound (l : List PKey) : Nat := l.foldl (fun m k => max m k.round) 0 + 1

/-- `min_round` (db.rs:58, 66, 76). -/
def minRound (l : List PKey) : Nat := min (l.foldl (fun m k => min m k.round) (2 ^ 32 - 1)) (maxRound l)

/-- One point (db.rs:90-110): `some none`: deleted. -/
def cleanOps (i : JIds) (subs : Table PKey Nat) (k : PKey) (ops : List Bytes) : Option (Option (List Bytes)) :=
  ((mergeJ i ops).bind (decJ i)).map (fun v => match get subs k with
    | some n => if n = v.1 then none else some (ops ++ [encJ i n none])
    | none => if v.1 = 0 then none else some ops)

/-- The loop over points with rounds in range. -/
def cleanPoints (i : JIds) (subs : Table PKey Nat) (lo hi : Nat) : Table PKey (List Bytes) → Option (Table PKey (List Bytes))
  | [] => some []
  | e :: l =>
    if lo ≤ e.1.round ∧ e.1.round < hi then
      (cleanOps i subs e.1 e.2).bind (fun r => (cleanPoints i subs lo hi l).map (fun l' => (r.map (fun o => (e.1, o))).toList ++ l'))
    else (cleanPoints i subs lo hi l).map (fun l' => e :: l')

/-- `clean_events` for times in `a..b`. -/
def cleanEvents (i : JIds) (a b : Nat) (db : Db) : Option Db :=
  let l := subRefs a b db
  (cleanPoints i (subTable l) (minRound l) (maxRound l) db.points).map (fun pts =>
    { points := pts, journal := del db.journal (inTime a b) })

/-- `get_point` (store.rs:95-111): outer `none` is an error. -/
def getPoint (i : JIds) (db : Db) (k : PKey) : Option (Option Bytes) :=
  match get db.points k with
  | none => some none
  | some ops => ((mergeJ i ops).bind (decJ i)).map (fun v => v.2)

/-- What happens to the journal. -/
inductive Op
  /-- `store_records(batch(items))` -/
  | store (items : List Item) (main : PKey → Option Bytes)
  | clean (a b : Nat)
  /-- RocksDB merges operands of a point -/
  | compact (k : PKey) (ops : List Bytes)

/-- One operation; `none`: an error. -/
def step (i : JIds) (db : Db) : Op → Option Db
  | .store items main => storeRecords i main (batch items) db
  | .clean a b => cleanEvents i a b db
  | .compact k ops => some { db with points := put db.points k ops }

def run (i : JIds) (db : Db) : List Op → Option Db
  | [] => some db
  | op :: l => (step i db op).bind (fun db' => run i db' l)

end Tycho.Journal
