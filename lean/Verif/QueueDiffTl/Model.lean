import Verif.QueueKey.Props

/-!
Model of the TL form of queue diffs: `block-util/src/queue/proto.rs`, `block-util/src/tl.rs`, and the byte
strings of `util/src/tl.rs`. Ordered maps and sets are ascending lists. `max_size_hint` (a capacity hint)
is not modelled.
-/
namespace Tycho.QueueDiffTl
open Tycho.Bytes Tycho.Codec Tycho.QueueKey

/-- External facts: which workchain/prefix pairs `ShardIdent::new` accepts, and the file hash. -/
structure Ext where
  validShard : Int → Nat → Bool
  fileHash : List Nat → List Nat
  /-- `tl_proto::id!("block.queueDiff")` -/
  tlId : Nat

/-- block-util/src/tl.rs:38-41 `shard_ident::write`. -/
def writeShard (s : Shard) : List Nat := leBytes 4 (u32OfI32 s.workchain) ++ leBytes 8 s.pfx

/-- block-util/src/tl.rs:43-48 `shard_ident::read`. -/
def readShard (ext : Ext) : Rd Shard := do
  let wc ← rdLe 4
  let pfx ← rdLe 8
  if ext.validShard (i32OfU32 wc) pfx then return ⟨i32OfU32 wc, pfx⟩ else Rd.fail

/-- `QueueKey` derives `TlWrite`/`TlRead`, proto.rs:158-164. -/
def writeKey (k : Key) : List Nat := leBytes 8 k.lt ++ k.hash
def readKey : Rd Key := do
  let lt ← rdLe 8
  let hash ← rdBytes 32
  return ⟨lt, hash⟩

/-- proto.rs:344-350. -/
def writeAddr (a : Addr) : List Nat := leBytes 4 (u32OfI32 a.workchain) ++ a.account
/-- proto.rs:356-363. -/
def readAddr : Rd Addr := do
  let wc ← rdLe 4
  if -128 ≤ i32OfU32 wc ∧ i32OfU32 wc < 128 then do
    let account ← rdBytes 32
    return ⟨i32OfU32 wc, account⟩
  else Rd.fail

/-- derived `Ord` of `ShardIdent`: workchain, then prefix. -/
def shardLt (a b : Shard) : Bool :=
  decide (a.workchain < b.workchain ∨ (a.workchain = b.workchain ∧ a.pfx < b.pfx))
/-- derived `Ord` of `RouterAddr`. -/
def addrLt (a b : Addr) : Bool :=
  decide (a.workchain < b.workchain ∨ (a.workchain = b.workchain ∧ a.account < b.account))

/-- One entry of `processed_to`. -/
def writeEntry (e : Shard × Key) : List Nat := writeShard e.1 ++ writeKey e.2
def readEntry (ext : Ext) : Rd (Shard × Key) := do
  let s ← readShard ext
  let k ← readKey
  return (s, k)

/-- proto.rs:513-520 `processed_to_map::write`. -/
def writeProcessedTo (m : List (Shard × Key)) : List Nat := leBytes 4 m.length ++ m.flatMap writeEntry
/-- proto.rs:522-546 `processed_to_map::read`. The code compares shards before reading the key; a failure
either way is an error. -/
def readProcessedTo (ext : Ext) : Rd (List (Shard × Key)) := do
  let len ← rdLe 4
  if len > 1000 then Rd.fail
  else rdAscending (fun a b => shardLt a.1 b.1) (readEntry ext) len none

/-- proto.rs:572-576, one partition. -/
def writePartition (p : Nat × List Addr) : List Nat :=
  leBytes 4 p.1 ++ (leBytes 4 p.2.length ++ p.2.flatMap writeAddr)
/-- proto.rs:589-622, one partition. -/
def readPartition : Rd (Nat × List Addr) := do
  let idx ← rdLe 4
  if 65536 ≤ idx then Rd.fail
  else do
    let count ← rdLe 4
    if count > 10000000 then Rd.fail
    else do
      let accounts ← rdAscending addrLt readAddr count none
      return (idx, accounts)

/-- proto.rs:566-578 `router_partitions_map::write`. -/
def writePartitions (m : List (Nat × List Addr)) : List Nat := leBytes 4 m.length ++ m.flatMap writePartition
/-- proto.rs:580-626 `router_partitions_map::read`. -/
def readPartitions : Rd (List (Nat × List Addr)) := do
  let count ← rdLe 4
  if count > 65536 then Rd.fail
  else rdAscending (fun a b => decide (a.1 < b.1)) readPartition count none

/-- proto.rs:718-733 `messages_list::write`. -/
def writeMessages (m : List (List Nat)) : List Nat := leBytes 4 m.length ++ m.flatMap id
/-- proto.rs:735-760 `messages_list::read`: the first is compared with the zero hash. -/
def readMessages : Rd (List (List Nat)) := do
  let len ← rdLe 4
  if len > 10000000 then Rd.fail
  else rdAscending (fun a b => decide (a < b)) (rdBytes 32) len (some (List.replicate 32 0))

/-- proto.rs:13-37 `QueueDiff`. -/
structure Diff where
  hash : List Nat
  prevHash : List Nat
  shard : Shard
  seqno : Nat
  processedTo : List (Shard × Key)
  minMessage : Key
  maxMessage : Key
  messages : List (List Nat)
  partitionsSrc : List (Nat × List Addr)
  partitionsDst : List (Nat × List Addr)
deriving DecidableEq

/-- proto.rs:71-85 `QueueDiff::write_to`: the hash field is not written. -/
def writeDiff (ext : Ext) (d : Diff) : List Nat :=
  leBytes 4 ext.tlId ++ (d.prevHash ++ (writeShard d.shard ++ (leBytes 4 d.seqno ++
    (writeProcessedTo d.processedTo ++ (writeKey d.minMessage ++ (writeKey d.maxMessage ++
      (writeMessages d.messages ++ (writePartitions d.partitionsSrc ++ writePartitions d.partitionsDst))))))))

/-- proto.rs:91-121 `QueueDiff::read_from`. -/
def readDiffBody (ext : Ext) : Rd Diff := do
  let id ← rdLe 4
  if id ≠ ext.tlId then Rd.fail
  else do
    let prevHash ← rdBytes 32
    let shard ← readShard ext
    let seqno ← rdLe 4
    let processedTo ← readProcessedTo ext
    let minMessage ← readKey
    let maxMessage ← readKey
    let messages ← readMessages
    let src ← readPartitions
    let dst ← readPartitions
    if maxMessage.Lt minMessage then Rd.fail
    else return ⟨List.replicate 32 0, prevHash, shard, seqno, processedTo, minMessage, maxMessage, messages, src, dst⟩

/-- proto.rs:116-120: the hash of the bytes consumed is stored in the result. -/
def readDiff (ext : Ext) : Rd Diff := fun s =>
  match readDiffBody ext s with
  | none => none
  | some (d, r) => some ({ d with hash := ext.fileHash (s.take (s.length - r.length)) }, r)

/-- proto.rs:43-48 `recompute_hash`. -/
def recomputeHash (ext : Ext) (d : Diff) : Diff := { d with hash := ext.fileHash (writeDiff ext d) }

/-- proto.rs:629-700 `queue_diffs_list`: newest first, seqnos descending, each the predecessor of the one
before it (by hash). -/
def writeDiffs (ext : Ext) (ds : List Diff) : List Nat := leBytes 4 ds.length ++ ds.flatMap (writeDiff ext)

/-- proto.rs:686-698, the loop. -/
def readDiffsLoop (ext : Ext) : Nat → Nat → List Nat → Rd (List Diff)
  | 0, _, _ => pure []
  | n + 1, latestSeqno, prevHash => do
    let d ← readDiff ext
    if latestSeqno ≤ d.seqno ∨ prevHash ≠ d.hash then Rd.fail
    else do
      let ds ← readDiffsLoop ext n d.seqno d.prevHash
      return d :: ds

/-- proto.rs:671-702 `queue_diffs_list::read`. -/
def readDiffs (ext : Ext) : Rd (List Diff) := do
  let len ← rdLe 4
  if len > 1000 ∨ len = 0 then Rd.fail
  else do
    let d ← readDiff ext
    let ds ← readDiffsLoop ext (len - 1) d.seqno d.prevHash
    return d :: ds

/-! ### Byte strings, util/src/tl.rs -/

/-- util/src/tl.rs:156-158 `big_bytes_padding`. -/
def padding (len : Nat) : Nat := (4 - len % 4) % 4

/-- util/src/tl.rs:126-135 `BigBytesRef::write`. -/
def writeBig (b : List Nat) : List Nat :=
  leBytes 4 b.length ++ (b ++ (if b.length % 4 ≠ 0 then List.replicate (4 - b.length % 4) 0 else []))

/-- util/src/tl.rs:137-153 `BigBytesRef::read`. -/
def readBig (maxSize : Nat) : Rd (List Nat) := do
  let len ← rdLe 4
  if len > maxSize then Rd.fail
  else do
    let all ← rdBytes (len + padding len)
    return all.take len

end Tycho.QueueDiffTl
