import Verif.Common.Table
import Verif.BlockMeta.Model

/-!
Removal of outdated blocks: core/src/storage/block/blobs/util.rs (`remove_blocks`). A shard is the number whose big-endian
bytes are the first twelve bytes of a key, so that the order of keys is the order of numbers. Seqnos are below `u32::MAX`. The
iterator reads the table as it was at the start; handles are read when they are needed. A crash or a cancellation may
happen after any effect on the disk; `trace` lists the databases there.
-/
namespace Tycho.BlocksGc
open Tycho.Table Tycho.BlockMeta

/-- core/src/storage/block/package_entry.rs:10-15 `PartialBlockId`, the key of `full_block_ids` -/
structure Key where
  shard : Nat
  seqno : Nat
  root : Nat
deriving DecidableEq, Repr

/-- package_entry.rs:87-92 `PackageEntryKey`; `ty`: block 0, proof 1, queue diff 2 -/
structure Entry where
  key : Key
  ty : Nat
deriving DecidableEq, Repr

/-- The tables `full_block_ids`, `block_connections` (by the block a key starts with), `block_handles` (flags) and the blob
storage. -/
structure Db where
  ids : List Key
  conns : List Key
  handles : Table Nat (BitVec 32)
  data : List Entry
deriving DecidableEq

/-- Arguments. `top sh n`: `contains_shard_seqno` (block-util/src/block/top_blocks.rs:33-58). -/
structure Params where
  isMc : Nat → Bool
  top : Nat → Nat → Bool
  mcSeqno : Nat
  maxBatch : Option Nat

/-- util.rs:40-49 `skip_blocks_gc` -/
def flagged (db : Db) (root : Nat) : Bool :=
  match get db.handles root with
  | some fl => retainDuringGc fl
  | none => false

/-- util.rs:140-146 -/
def keeps (p : Params) (db : Db) (k : Key) : Bool :=
  k.seqno == 0 || (p.isMc k.shard && decide (p.mcSeqno ≤ k.seqno)) || (!p.isMc k.shard && p.top k.shard k.seqno) ||
    flagged db k.root

/-- One entry of a write batch. Ranges are without their upper end. -/
inductive Op where
  | delIds (sh a b : Nat)
  | delConns (sh a b : Nat)
  | delHandle (root : Nat)
deriving DecidableEq, Repr

def inRange (sh a b : Nat) (k : Key) : Bool := k.shard == sh && decide (a ≤ k.seqno) && decide (k.seqno < b)

def Db.op (db : Db) : Op → Db
  | .delIds sh a b => { db with ids := db.ids.filter (fun k => !inRange sh a b k) }
  | .delConns sh a b => { db with conns := db.conns.filter (fun k => !inRange sh a b k) }
  | .delHandle r => { db with handles := del db.handles (fun x => decide (x = r)) }

/-- a write batch is atomic -/
def Db.write (db : Db) (batch : List Op) : Db := batch.foldl Db.op db

/-- package_entry.rs:143-166 the order of keys of the blob storage, `(sh, n, 0, ty) ≤ e` -/
def fromKey (sh n ty : Nat) (e : Entry) : Bool :=
  decide (sh < e.key.shard) || (sh == e.key.shard && (decide (n < e.key.seqno) ||
    (n == e.key.seqno && (decide (0 < e.key.root) || decide (ty ≤ e.ty)))))

/-- util.rs:84-99 `remove_range` for one type: keys from `(sh, a, 0, ty)` up to `(sh, b, 0, ty)` -/
def dataRange (sh a b ty : Nat) (e : Entry) : Bool := fromKey sh a ty e && !fromKey sh b ty e

def Db.dropData (db : Db) (sh a b ty : Nat) : Db := { db with data := db.data.filter (fun e => !dataRange sh a b ty e) }

/-- util.rs:116-117, 30-32 the loop variables; `range`: shard, first and last seqno -/
structure Loop where
  db : Db
  range : Option (Nat × Nat × Nat)
  batch : List Op
  len : Nat
  trace : List Db

/-- util.rs:52-114 `delete_range` -/
def Loop.deleteRange (l : Loop) (sh a b : Nat) : Loop :=
  let d0 := l.db.dropData sh a (b + 1) 0
  let d1 := d0.dropData sh a (b + 1) 1
  let d2 := d1.dropData sh a (b + 1) 2
  { l with
    db := d2
    batch := l.batch ++ [.delIds sh a (b + 1), .delConns sh a (b + 1)]
    trace := d2 :: d1 :: d0 :: l.trace }

/-- util.rs:185-187, 201-204 -/
def Loop.flush (l : Loop) : Loop :=
  { l with db := l.db.write l.batch, batch := [], len := 0, trace := l.db.write l.batch :: l.trace }

/-- util.rs:140-154 a block that is kept -/
def Loop.keep (l : Loop) : Loop :=
  match l.range with
  | some (sh, a, b) => { l.deleteRange sh a b with range := none, len := l.len + 1 }
  | none => l

/-- util.rs:156-167 the range after an outdated block -/
def Loop.extend (l : Loop) (k : Key) : Loop :=
  match l.range with
  | some (sh, a, b) =>
    if sh ≠ k.shard then { l.deleteRange sh a b with range := some (k.shard, k.seqno, k.seqno) }
    else { l with range := some (sh, a, k.seqno) }
  | none => { l with range := some (k.shard, k.seqno, k.seqno) }

/-- util.rs:169-190 -/
def Loop.drop (p : Params) (l : Loop) (k : Key) : Loop :=
  let l := l.extend k
  let l := { l with batch := l.batch ++ [.delHandle k.root], len := l.len + 1 }
  match p.maxBatch with
  | some m => if m ≤ l.len then l.flush else l
  | none => l

/-- util.rs:118-191 one block -/
def Loop.step (p : Params) (l : Loop) (k : Key) : Loop :=
  if keeps p l.db k then l.keep else l.drop p k

/-- util.rs:193-204 -/
def Loop.finish (l : Loop) : Loop :=
  let l := l.keep
  if 0 < l.len then l.flush else l

/-- util.rs:16-208 -/
def run (p : Params) (db : Db) : Loop :=
  (db.ids.foldl (Loop.step p) ⟨db, none, [], 0, [db]⟩).finish

end Tycho.BlocksGc
