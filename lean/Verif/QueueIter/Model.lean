import Verif.Queue.Model

/-!
Model of the internal queue iterator: `collator/src/internal_queue/state/state_iterator.rs`,
`collator/src/internal_queue/state/shard_iterator.rs`, `collator/src/storage/iterator.rs`,
`collator/src/storage/snapshot.rs:69-98`, `collator/src/internal_queue/state/storage.rs:172-189`.

The receiver shard is an arbitrary predicate `recv` on the stored destination (`ShardIdent::contains_address` of a
library). A message is its stored key and value; that the key computed from the deserialised message equals the stored
key, and deserialisation errors, are not modelled.
-/
namespace Tycho.QueueIter
open Tycho.Table Tycho.Queue

/-- `MessageExt`: source shard, key and value. -/
structure Item where
  shard : Shard
  key : QKey
  msg : Msg
deriving DecidableEq

/-- models: `QueueShardRange`. -/
structure ShardRange where
  shard : Shard
  lo : QKey
  hi : QKey
deriving DecidableEq

/-- The entries of one partition and shard with `lo ≤ key < hi`. -/
def inRange (p : Part) (r : ShardRange) (e : (Part × Shard × QKey) × Msg) : Bool :=
  decide (e.1.1 = p) && decide (e.1.2.1 = r.shard) && decide (r.lo ≤ e.1.2.2) && decide (e.1.2.2 < r.hi)

/-- Insertion into a list ordered by key. -/
def ins (x : QKey × Msg) : List (QKey × Msg) → List (QKey × Msg)
  | [] => [x]
  | y :: l => if x.1 ≤ y.1 then x :: y :: l else y :: ins x l

/-- The entries in key order. -/
def sortKeys (l : List (QKey × Msg)) : List (QKey × Msg) := l.foldr ins []

/-- snapshot.rs:77-98 `iter_messages`: a RocksDB iterator over the snapshot with lower bound `from` and exclusive upper
bound `to`: the entries in ascending key order. -/
def stream (db : DB) (p : Part) (r : ShardRange) : List (QKey × Msg) :=
  sortKeys ((db.msgs.filter (inRange p r)).map (fun e => (e.1.2.2, e.2)))

/-- state_iterator.rs:77-83 `StateIteratorImpl`: the streams not yet exhausted, the heap, the shards with a message in
the heap, and the position. -/
structure It where
  iters : Table Shard (List (QKey × Msg))
  heap : List Item
  inQueue : List Shard
  pos : Table Shard QKey
deriving DecidableEq

/-- state_iterator.rs:86-113 `new` with storage.rs:172-189: `none` = a shard occurs twice. -/
def mkIters (db : DB) (p : Part) : Table Shard (List (QKey × Msg)) → List ShardRange → Option (Table Shard (List (QKey × Msg)))
  | acc, [] => some acc
  | acc, r :: rs => match get acc r.shard with
    | some _ => none
    | none => mkIters db p (put acc r.shard (stream db p r)) rs

def mkIt (db : DB) (p : Part) (rs : List ShardRange) : Option It :=
  match mkIters db p [] rs with
  | none => none
  | some iters => some ⟨iters, [], [], []⟩

/-- state_iterator.rs:123-141 with shard_iterator.rs:27-41: skip entries for other receivers, remembering the position;
the first addressed entry and the rest of the stream. -/
def pull (recv : Msg → Bool) (s : Shard) : List (QKey × Msg) → Table Shard QKey →
    Table Shard QKey × Option ((QKey × Msg) × List (QKey × Msg))
  | [], pos => (pos, none)
  | e :: l, pos => if recv e.2 then (pos, some (e, l)) else pull recv s l (put pos s e.1)

/-- state_iterator.rs:118-149: one shard of `refill_queue`; exhausted streams are dropped. -/
def refillOne (recv : Msg → Bool) (σ : It) (e : Shard × List (QKey × Msg)) : It :=
  if e.1 ∈ σ.inQueue then { σ with iters := σ.iters ++ [e] }
  else match pull recv e.1 e.2 σ.pos with
    | (pos, none) => { σ with pos := pos }
    | (pos, some (m, rest)) =>
      { iters := σ.iters ++ [(e.1, rest)], heap := ⟨e.1, m.1, m.2⟩ :: σ.heap, inQueue := e.1 :: σ.inQueue, pos := pos }

/-- state_iterator.rs:115-155 `refill_queue`. -/
def refill (recv : Msg → Bool) (σ : It) : It := σ.iters.foldl (refillOne recv) { σ with iters := [] }

/-- `BinaryHeap::pop` on reversed messages, which are compared by key: some least element. -/
structure PickOk (pick : List Item → Option Item) : Prop where
  nil : pick [] = none
  cons : ∀ h, h ≠ [] → ∃ m ∈ h, pick h = some m ∧ ∀ x ∈ h, m.key ≤ x.key

/-- state_iterator.rs:158-176 `next`. -/
def next (pick : List Item → Option Item) (recv : Msg → Bool) (σ : It) : Option Item × It :=
  match pick (refill recv σ).heap with
  | none => (none, refill recv σ)
  | some m => (some m, { refill recv σ with
      heap := (refill recv σ).heap.erase m
      inQueue := (refill recv σ).inQueue.erase m.shard
      pos := put (refill recv σ).pos m.shard m.key })

/-- `n` calls of `next`: the returned messages in order and the final state. -/
def calls (pick : List Item → Option Item) (recv : Msg → Bool) : Nat → It → List Item × It
  | 0, σ => ([], σ)
  | n + 1, σ => match next pick recv σ with
    | (none, σ') => calls pick recv n σ'
    | (some m, σ') => (m :: (calls pick recv n σ').1, (calls pick recv n σ').2)

end Tycho.QueueIter
