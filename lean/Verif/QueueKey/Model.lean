import Verif.Common.Codec

/-!
Model of the stored keys of the internal messages queue: `block-util/src/queue/proto.rs` (`QueueKey`,
`QueuePartitionIdx`, `RouterAddr`), `collator/src/storage/models.rs`, `storage-traits/src/stored_value.rs`,
`collator/src/internal_queue/types/ranges.rs`. A panic of `deserialize` is `none`.
-/
namespace Tycho.QueueKey
open Tycho.Bytes Tycho.Codec

/-- proto.rs:158-164 `QueueKey`; the hash is 32 bytes. -/
structure Key where
  lt : Nat
  hash : List Nat
deriving DecidableEq

/-- `u64` and `[u8; 32]`. -/
def Key.WF (k : Key) : Prop := k.lt < 256 ^ 8 ∧ k.hash.length = 32 ∧ IsBytes k.hash

/-- derived `Ord`: `lt`, then the hash bytes lexicographically. -/
def Key.Lt (a b : Key) : Prop := a.lt < b.lt ∨ (a.lt = b.lt ∧ a.hash < b.hash)

instance (a b : Key) : Decidable (a.Lt b) := by unfold Key.Lt; infer_instance

/-- proto.rs:169-172 `MIN`. -/
def Key.MIN : Key := ⟨0, List.replicate 32 0⟩
/-- proto.rs:174-177 `MAX`. -/
def Key.MAX : Key := ⟨18446744073709551615, List.replicate 32 255⟩
/-- proto.rs:179-184 `min_for_lt`. -/
def minForLt (lt : Nat) : Key := ⟨lt, List.replicate 32 0⟩
/-- proto.rs:186-191 `max_for_lt`. -/
def maxForLt (lt : Nat) : Key := ⟨lt, List.replicate 32 255⟩

/-- proto.rs:211-218: the loop over the bytes in reverse: `overflowing_add(1)`, stop when it did not
overflow. Argument and result are the reversed bytes. -/
def addCarry : List Nat → List Nat
  | [] => []
  | b :: bs => if b + 1 < 256 then (b + 1) :: bs else 0 :: addCarry bs

/-- proto.rs:194-225 `next_value`. -/
def nextValue (k : Key) : Key :=
  if k.hash = List.replicate 32 255 then
    if k.lt = 18446744073709551615 then ⟨18446744073709551615, List.replicate 32 255⟩
    else ⟨k.lt + 1, List.replicate 32 0⟩
  else ⟨k.lt, (addCarry k.hash.reverse).reverse⟩

/-- proto.rs:263-266 `QueueKey::serialize`. -/
def encKey (k : Key) : List Nat := beBytes 8 k.lt ++ k.hash

/-- proto.rs:268-284 `QueueKey::deserialize`. -/
def decKey : Rd Key := do
  let lt ← rdBe 8
  let hash ← rdBytes 32
  return ⟨lt, hash⟩

/-- `ShardIdent`: `i32` workchain, `u64` prefix. -/
structure Shard where
  workchain : Int
  pfx : Nat
deriving DecidableEq

def Shard.WF (s : Shard) : Prop := -2147483648 ≤ s.workchain ∧ s.workchain < 2147483648 ∧ s.pfx < 256 ^ 8

/-- `as u32` of an `i32`. -/
def u32OfI32 (x : Int) : Nat := (x % 4294967296).toNat
/-- `as i32` of a `u32`. -/
def i32OfU32 (x : Nat) : Int := if x < 2147483648 then x else x - 4294967296

/-- stored_value.rs:116-119 `ShardIdent::serialize`. -/
def encShard (s : Shard) : List Nat := beBytes 4 (u32OfI32 s.workchain) ++ beBytes 8 s.pfx

/-- stored_value.rs:121-130 `ShardIdent::deserialize` (`new_unchecked`). -/
def decShard : Rd Shard := do
  let wc ← rdBe 4
  let pfx ← rdBe 8
  return ⟨i32OfU32 wc, pfx⟩

/-- proto.rs:299-302 `RouterAddr`. -/
structure Addr where
  /-- `i8` -/
  workchain : Int
  account : List Nat
deriving DecidableEq

def Addr.WF (a : Addr) : Prop :=
  -128 ≤ a.workchain ∧ a.workchain < 128 ∧ a.account.length = 32 ∧ IsBytes a.account

def u8OfI8 (x : Int) : Nat := (x % 256).toNat
def i8OfU8 (x : Nat) : Int := if x < 128 then x else x - 256

/-- proto.rs:381-384. -/
def encAddr (a : Addr) : List Nat := beBytes 1 (u8OfI8 a.workchain) ++ a.account
/-- proto.rs:386-402. -/
def decAddr : Rd Addr := do
  let wc ← rdBe 1
  let account ← rdBytes 32
  return ⟨i8OfU8 wc, account⟩

/-- proto.rs:478-480, 482-494 `QueuePartitionIdx`: `u16` big-endian. -/
def encPart (p : Nat) : List Nat := beBytes 2 p
def decPart : Rd Nat := rdBe 2

/-- models.rs:21-26 `ShardsInternalMessagesKey`. -/
structure MsgKey where
  partition : Nat
  shard : Shard
  key : Key
deriving DecidableEq

def MsgKey.WF (k : MsgKey) : Prop := k.partition < 256 ^ 2 ∧ k.shard.WF ∧ k.key.WF

/-- models.rs:54-58. -/
def encMsgKey (k : MsgKey) : List Nat := encPart k.partition ++ (encShard k.shard ++ encKey k.key)
/-- models.rs:60-74. -/
def decMsgKey : Rd MsgKey := do
  let partition ← decPart
  let shard ← decShard
  let key ← decKey
  return ⟨partition, shard, key⟩

/-- models.rs:77-83 `StatKey`. -/
structure StatKey where
  shard : Shard
  partition : Nat
  maxMessage : Key
  dest : Addr
deriving DecidableEq

def StatKey.WF (k : StatKey) : Prop :=
  k.shard.WF ∧ k.partition < 256 ^ 2 ∧ k.maxMessage.WF ∧ k.dest.WF

/-- models.rs:140-145. -/
def encStatKey (k : StatKey) : List Nat :=
  encShard k.shard ++ (encPart k.partition ++ (encKey k.maxMessage ++ encAddr k.dest))
/-- models.rs:147-163. -/
def decStatKey : Rd StatKey := do
  let shard ← decShard
  let partition ← decPart
  let maxMessage ← decKey
  let dest ← decAddr
  return ⟨shard, partition, maxMessage, dest⟩

/-- models.rs:103-107 `DiffTailKey`. -/
structure TailKey where
  shard : Shard
  maxMessage : Key
deriving DecidableEq

def TailKey.WF (k : TailKey) : Prop := k.shard.WF ∧ k.maxMessage.WF

/-- models.rs:170-173. -/
def encTailKey (k : TailKey) : List Nat := encShard k.shard ++ encKey k.maxMessage
/-- models.rs:175-190. -/
def decTailKey : Rd TailKey := do
  let shard ← decShard
  let maxMessage ← decKey
  return ⟨shard, maxMessage⟩

/-- models.rs:118-122 `DiffInfoKey` and stored_value.rs `BlockIdShort`: shard and seqno. -/
structure InfoKey where
  shard : Shard
  seqno : Nat
deriving DecidableEq

def InfoKey.WF (k : InfoKey) : Prop := k.shard.WF ∧ k.seqno < 256 ^ 4

/-- models.rs:197-200; stored_value.rs:142-145. -/
def encInfoKey (k : InfoKey) : List Nat := encShard k.shard ++ beBytes 4 k.seqno
/-- models.rs:202-217; stored_value.rs:147-156. -/
def decInfoKey : Rd InfoKey := do
  let shard ← decShard
  let seqno ← rdBe 4
  return ⟨shard, seqno⟩

/-- models.rs:333-337 `CommitPointerValue`. -/
structure PtrValue where
  key : Key
  seqno : Nat
deriving DecidableEq

def PtrValue.WF (v : PtrValue) : Prop := v.key.WF ∧ v.seqno < 256 ^ 4

/-- models.rs:365-368. -/
def encPtr (v : PtrValue) : List Nat := encKey v.key ++ beBytes 4 v.seqno
/-- models.rs:370-381 (the seqno bytes are not consumed from the reader, the value is the last one). -/
def decPtr : Rd PtrValue := do
  let key ← decKey
  let seqno ← rdBe 4
  return ⟨key, seqno⟩

/-- `BlockId`. -/
structure BlockId where
  shard : Shard
  seqno : Nat
  rootHash : List Nat
  fileHash : List Nat
deriving DecidableEq

def BlockId.WF (b : BlockId) : Prop :=
  b.shard.WF ∧ b.seqno < 256 ^ 4 ∧ (b.rootHash.length = 32 ∧ IsBytes b.rootHash) ∧
  (b.fileHash.length = 32 ∧ IsBytes b.fileHash)

/-- stored_value.rs:77-82 `BlockId::serialize`. -/
def encBlockId (b : BlockId) : List Nat :=
  encShard b.shard ++ (beBytes 4 b.seqno ++ (b.rootHash ++ b.fileHash))

/-- stored_value.rs:93-96, the part of `BlockId::deserialize` after the seqno. -/
def decHashes (shard : Shard) (seqno : Nat) : Rd BlockId := fun s =>
  if 32 ≤ s.length ∧ (s.drop 32).length = 32 then
    some (⟨shard, seqno, s.take 32, s.drop 32⟩, s)
  else none

/-- stored_value.rs:84-105 `BlockId::deserialize`: `file_hash.0.copy_from_slice(&reader[32..])` takes all
that is left (and panics unless that is 32 bytes) and the reader is not moved past the hashes. -/
def decBlockId : Rd BlockId := do
  let shard ← decShard
  let seqno ← rdBe 4
  decHashes shard seqno

/-! ### Ranges, ranges.rs -/

/-- ranges.rs:8-12 -/
inductive Bound where
  | included (k : Key)
  | excluded (k : Key)

/-- ranges.rs:28-46 `From<QueueShardBoundedRange> for QueueShardRange`: the half-open `[from, to)`. -/
def halfOpen (lo hi : Bound) : Key × Key :=
  (match lo with
    | .included k => k
    | .excluded k => nextValue k,
   match hi with
    | .included k => nextValue k
    | .excluded k => k)

end Tycho.QueueKey
