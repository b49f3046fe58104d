import Verif.Common.Bytes

/-!
Model of `core/src/storage/block_handle/{meta,handle,mod}.rs` and of the merge operator of the
`block_handles` table (`core/src/storage/tables.rs`). Atomic operations on the flag word are single
steps. The concurrent part (`Sys`) models one in-memory handle and its stored value.
-/
namespace Tycho.BlockMeta
open Tycho.Bytes

/-- core/src/storage/block_handle/meta.rs:23-27 `struct BlockMeta`. -/
structure Meta where
  flags : BitVec 64
  genUtime : BitVec 32
deriving DecidableEq

/-! meta.rs:115-147 `BlockFlags`. -/
def HAS_DATA : BitVec 32 := 1#32 <<< 0
def HAS_PROOF : BitVec 32 := 1#32 <<< 1
def HAS_QUEUE_DIFF : BitVec 32 := 1#32 <<< 2
def HAS_STATE : BitVec 32 := 1#32 <<< 3
def HAS_PERSISTENT_SHARD_STATE : BitVec 32 := 1#32 <<< 4
def HAS_PERSISTENT_QUEUE_STATE : BitVec 32 := 1#32 <<< 5
def HAS_NEXT_1 : BitVec 32 := 1#32 <<< 6
def HAS_NEXT_2 : BitVec 32 := 1#32 <<< 7
def HAS_PREV_1 : BitVec 32 := 1#32 <<< 8
def HAS_PREV_2 : BitVec 32 := 1#32 <<< 9
def IS_COMMITTED : BitVec 32 := 1#32 <<< 10
def IS_KEY_BLOCK : BitVec 32 := 1#32 <<< 11
def IS_PERSISTENT : BitVec 32 := 1#32 <<< 12
def IS_REMOVED : BitVec 32 := 1#32 <<< 15
def IS_ZEROSTATE : BitVec 32 := 1#32 <<< 16
def HAS_VIRTUAL_STATE : BitVec 32 := 1#32 <<< 17
def SKIP_STATES_GC : BitVec 32 := 1#32 <<< 18
def SKIP_STATES_GC_FINISHED : BitVec 32 := 1#32 <<< 19
def SKIP_BLOCKS_GC : BitVec 32 := 1#32 <<< 20
def SKIP_BLOCKS_GC_FINISHED : BitVec 32 := 1#32 <<< 21
def HAS_ALL_BLOCK_PARTS : BitVec 32 := HAS_DATA ||| HAS_PROOF ||| HAS_QUEUE_DIFF

/-- bitflags `contains`. -/
def contains (fl f : BitVec 32) : Bool := fl &&& f == f
/-- bitflags `intersects`. -/
def intersects (fl f : BitVec 32) : Bool := fl &&& f != 0

/-- meta.rs:37-52 `with_data`. -/
def withData (isKeyBlock : Bool) (genUtime refByMcSeqno : BitVec 32) : Meta where
  flags := (if isKeyBlock then IS_KEY_BLOCK.setWidth 64 <<< 32 else 0) ||| refByMcSeqno.setWidth 64
  genUtime := genUtime

/-- meta.rs:63-66 `flags`. -/
def Meta.flagsOf (m : Meta) : BitVec 32 := (m.flags >>> 32).setWidth 32

/-- meta.rs:68-70 `ref_by_mc_seqno`. -/
def Meta.seqno (m : Meta) : BitVec 32 := m.flags.setWidth 32

/-- meta.rs:76-79 `add_flags`: new value and returned boolean. -/
def Meta.addFlags (m : Meta) (f : BitVec 32) : Meta × Bool :=
  let flags := f.setWidth 64 <<< 32
  ({ m with flags := m.flags ||| flags }, m.flags &&& flags != flags)

/-- meta.rs:81-84 `remove_flags`: new value and returned boolean. -/
def Meta.removeFlags (m : Meta) (f : BitVec 32) : Meta × Bool :=
  let flags := f.setWidth 64 <<< 32
  ({ m with flags := m.flags &&& ~~~flags }, m.flags &&& flags != 0)

/-- meta.rs:94-98 `serialize`. -/
def Meta.serialize (m : Meta) : List Nat := leBytes 8 m.flags.toNat ++ leBytes 4 m.genUtime.toNat

/-- meta.rs:100-113 `deserialize`; `none` is the length assertion. -/
def deserialize (bytes : List Nat) : Option Meta :=
  if bytes.length = 12 then
    some { flags := BitVec.ofNat 64 (ofLe (bytes.take 8))
           genUtime := BitVec.ofNat 32 (ofLe (bytes.drop 8)) }
  else none

/-- meta.rs:154-160 `is_important`. -/
def isImportant (fl : BitVec 32) : Bool := intersects fl (IS_KEY_BLOCK ||| IS_PERSISTENT ||| IS_ZEROSTATE)

/-- meta.rs:162-164 `skip_blocks_gc`. -/
def skipBlocksGc (fl : BitVec 32) : Bool := contains fl SKIP_BLOCKS_GC && !contains fl SKIP_BLOCKS_GC_FINISHED

/-- meta.rs:166-168 `skip_states_gc`. -/
def skipStatesGc (fl : BitVec 32) : Bool := contains fl SKIP_STATES_GC && !contains fl SKIP_STATES_GC_FINISHED

/-- meta.rs:150-152 `retain_during_gc`. -/
def retainDuringGc (fl : BitVec 32) : Bool := isImportant fl || skipBlocksGc fl || skipStatesGc fl

/-- handle.rs:91-95, 97-101, 103-107, 109-113 `has_data` and the like: `part` is the asked flag set. -/
def hasPart (fl part : BitVec 32) : Bool := fl &&& (part ||| IS_REMOVED) == part

/-- mod.rs:343-377 `gc_handles_cache`, the decision for one live handle: keep it? `shardTop` is the
answer of `shard_heights.contains_shard_seqno`. -/
def gcKeeps (fl : BitVec 32) (isMasterchain : Bool) (seqno mcSeqno : Nat) (shardTop : Bool) : Bool :=
  seqno == 0 || retainDuringGc fl || (isMasterchain && decide (mcSeqno ≤ seqno)) ||
    (!isMasterchain && shardTop)

/-- core/src/storage/tables.rs:368-386 `block_handle_merge`: `none` is an assertion failure on a
value of wrong length. -/
def mergeOp (current : Option (List Nat)) (operands : List (List Nat)) : Option (List Nat) :=
  if (∀ c ∈ current, c.length = 12) ∧ ∀ o ∈ operands, o.length = 12 then
    some (operands.foldl (fun v o => List.zipWith (· ||| ·) v o) (current.getD (List.replicate 12 0)))
  else none

/-! ### Concurrent use of one handle -/

/-- In-memory word, stored word, and the flags whose setter has not stored yet
(mod.rs:31-125 `set_*`: `add_flags` then, if it returned true, `store_handle`). -/
structure Sys where
  mem : Meta
  stored : Meta
  pending : List (BitVec 32)

/-- Steps of any number of threads. -/
inductive Step where
  /-- `add_flags(f)` of a `set_*` call -/
  | add (f : BitVec 32)
  /-- `store_handle` of the `i`-th pending call: reads the word now and merges it -/
  | store (i : Nat)
  /-- `add_flags(IS_REMOVED)` by the cache collector, never stored by it (mod.rs:371) -/
  | gcRemoved

/-- Merge of two stored words, as `mergeOp` does it on their bytes. -/
def Meta.or (a b : Meta) : Meta := { flags := a.flags ||| b.flags, genUtime := a.genUtime ||| b.genUtime }

def step (s : Sys) : Step → Sys
  | .add f =>
    let r := s.mem.addFlags f
    { s with mem := r.1, pending := if r.2 then f :: s.pending else s.pending }
  | .store i =>
    match s.pending[i]? with
    | some _ => { s with stored := s.stored.or s.mem, pending := s.pending.eraseIdx i }
    | none => s
  | .gcRemoved => { s with mem := (s.mem.addFlags IS_REMOVED).1 }

end Tycho.BlockMeta
