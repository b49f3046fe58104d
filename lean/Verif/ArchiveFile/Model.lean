import Verif.Common.Codec

/-! Archive packages: block-util/src/archive/proto.rs, reader.rs, mod.rs. Bytes are numbers below 256. -/
namespace Tycho.ArchiveFile
open Tycho.Bytes Tycho.Codec

/-- External facts: the TL constructor ids and the workchain/prefix pairs `ShardIdent::new` accepts. -/
structure Ext where
  header : Nat
  block : Nat
  proof : Nat
  diff : Nat
  shard : Nat → Nat → Bool

/-- the ids are different 32-bit numbers -/
structure Ext.Ok (x : Ext) : Prop where
  header : x.header < 256 ^ 4
  block : x.block < 256 ^ 4
  proof : x.proof < 256 ^ 4
  diff : x.diff < 256 ^ 4
  bp : x.block ≠ x.proof
  bd : x.block ≠ x.diff
  pd : x.proof ≠ x.diff

/-- proto.rs:23-31 `ArchiveEntryType` -/
inductive Ty where
  | block
  | proof
  | diff
deriving DecidableEq, Repr

def tyId (x : Ext) : Ty → Nat
  | .block => x.block
  | .proof => x.proof
  | .diff => x.diff

/-- `BlockId`; the workchain as its 32 bits -/
structure BlockId where
  wc : Nat
  prefix_ : Nat
  seqno : Nat
  root : List Nat
  file : List Nat
deriving DecidableEq, Repr

/-- reader.rs:58-63 -/
structure Entry where
  id : BlockId
  ty : Ty
  data : List Nat
deriving DecidableEq, Repr

/-- proto.rs:9-17 `ArchiveEntryHeader` -/
structure Header where
  id : BlockId
  ty : Ty
  len : Nat
deriving DecidableEq, Repr

/-- mod.rs:3 `ARCHIVE_PREFIX` -/
def pre : List Nat := [0x65, 0x8f, 0x14, 0x29]

/-- block-util/src/tl.rs:61-67 `block_id::write` -/
def encId (i : BlockId) : List Nat := leBytes 4 i.wc ++ leBytes 8 i.prefix_ ++ leBytes 4 i.seqno ++ i.root ++ i.file

/-- proto.rs:9-17 `TlWrite` of the header -/
def encHeader (x : Ext) (h : Header) : List Nat := leBytes 4 x.header ++ encId h.id ++ leBytes 4 (tyId x h.ty) ++ leBytes 4 h.len

def Entry.header (e : Entry) : Header := ⟨e.id, e.ty, e.data.length⟩

/-- core/src/storage/block/blobs/task.rs:119-131: header and data of an entry -/
def encEntry (x : Ext) (e : Entry) : List Nat := encHeader x e.header ++ e.data

/-- core/src/storage/block/blobs/task.rs:76-134: an archive -/
def encArchive (x : Ext) (es : List Entry) : List Nat := pre ++ es.flatMap (encEntry x)

/-- block-util/src/tl.rs:69-89 `block_id::read` -/
def rdId (x : Ext) : Rd BlockId := do
  let wc ← rdLe 4
  let p ← rdLe 8
  let seqno ← rdLe 4
  if x.shard wc p = true then do
    let root ← rdBytes 32
    let file ← rdBytes 32
    return ⟨wc, p, seqno, root, file⟩
  else Rd.fail

/-- proto.rs:23-31 `TlRead` of the type -/
def rdTy (x : Ext) : Rd Ty := do
  let n ← rdLe 4
  if n = x.block then pure .block else if n = x.proof then pure .proof else if n = x.diff then pure .diff else Rd.fail

/-- proto.rs:9-17 `TlRead` of the header -/
def rdHeader (x : Ext) : Rd Header := do
  let n ← rdLe 4
  if n = x.header then do
    let id ← rdId x
    let ty ← rdTy x
    let len ← rdLe 4
    return ⟨id, ty, len⟩
  else Rd.fail

/-- reader.rs:30-55 `read_next_entry`, when at least 8 bytes are left -/
def rdEntry (x : Ext) : Rd Entry := do
  let h ← rdHeader x
  let d ← rdBytes h.len
  return ⟨h.id, h.ty, d⟩

/-- reader.rs:20-27: the iterator, up to the first error (`mod.rs:47`); an entry has at least 92 bytes, so the fuel is enough -/
def readLoop (x : Ext) : Nat → List Nat → Option (List Entry)
  | 0, _ => some []
  | n + 1, s => if s.length < 8 then some [] else
    match rdEntry x s with
    | none => none
    | some (e, r) => (readLoop x n r).map (e :: ·)

/-- reader.rs:158-166 `read_archive_prefix` -/
def rdPrefix (s : List Nat) : Option (List Nat) := if s.take 4 = pre then some (s.drop 4) else none

/-- reader.rs:14-17 `ArchiveReader::new` and iteration -/
def read (x : Ext) (s : List Nat) : Option (List Entry) :=
  match rdPrefix s with
  | none => none
  | some r => readLoop x r.length r

/-! ### Verifier -/

/-- reader.rs:67-78 `ArchiveVerifier`; `buf` is the filled part of the buffer -/
inductive V where
  | start
  | header (buf : List Nat)
  | data (len : Nat)
deriving DecidableEq, Repr

/-- reader.rs:92-138: one iteration of the loop for a part which is not empty -/
def iter (x : Ext) (v : V) (part : List Nat) : Option (V × List Nat) :=
  match v with
  | .start => if 4 ≤ part.length then (rdPrefix part).map (fun r => (.header [], r)) else none
  | .header buf =>
    let k := min part.length (92 - buf.length)
    let buf' := buf ++ part.take k
    if buf'.length = 92 then
      match rdHeader x buf' with
      | none => none
      | some (h, _) => some (.data h.len, part.drop k)
    else some (.header buf', part.drop k)
  | .data len =>
    let k := min part.length len
    if len - k = 0 then some (.header [], part.drop k) else some (.data (len - k), part.drop k)

/-- reader.rs:82-141 `write_verify`; one iteration of two takes a byte at least, so the fuel is enough -/
def loop (x : Ext) : Nat → V → List Nat → Option V
  | 0, v, _ => some v
  | n + 1, v, part => if part = [] then some v else
    match iter x v part with
    | none => none
    | some (v', part') => loop x n v' part'

def writeVerify (x : Ext) (v : V) (part : List Nat) : Option V := loop x (2 * part.length + 1) v part

/-- reader.rs:144-150 `final_check` -/
def finalCheck : V → Bool
  | .header buf => buf.isEmpty
  | _ => false

/-- core/src/blockchain_rpc/client.rs:700-730, core/src/s3/client.rs:200-230: the chunks of a download -/
def verifyAll (x : Ext) (chunks : List (List Nat)) : Bool :=
  match chunks.foldlM (writeVerify x) V.start with
  | none => false
  | some v => finalCheck v

/-! ### `Archive` -/

/-- mod.rs:170-175 `ArchiveDataEntry` -/
structure Parts where
  block : Option (List Nat)
  proof : Option (List Nat)
  diff : Option (List Nat)
deriving DecidableEq, Repr

def Parts.get (p : Parts) : Ty → Option (List Nat)
  | .block => p.block
  | .proof => p.proof
  | .diff => p.diff

def Parts.set (p : Parts) (t : Ty) (d : List Nat) : Parts :=
  match t with
  | .block => { p with block := some d }
  | .proof => { p with proof := some d }
  | .diff => { p with diff := some d }

/-- mod.rs:27-30 -/
structure Archive where
  mc : Nat → Option BlockId
  blocks : BlockId → Option Parts

/-- `id.is_masterchain()`: workchain -1 -/
def BlockId.isMc (i : BlockId) : Bool := i.wc == 0xffffffff

/-- mod.rs:46-74: one entry -/
def Archive.add (a : Archive) (e : Entry) : Option Archive :=
  let p := (a.blocks e.id).getD ⟨none, none, none⟩
  if (p.get e.ty).isSome then none
  else some ⟨if e.id.isMc then fun n => if n = e.id.seqno then some e.id else a.mc n else a.mc,
    fun i => if i = e.id then some (p.set e.ty e.data) else a.blocks i⟩

/-- mod.rs:35-77 `Archive::new` -/
def Archive.new (x : Ext) (s : List Nat) : Option Archive :=
  match read x s with
  | none => none
  | some es => es.foldlM Archive.add ⟨fun _ => none, fun _ => none⟩

/-- mod.rs:79-97 `check_mc_blocks_range`: the keys of the map in order -/
def checkRange (keys : List Nat) : Bool :=
  match keys.head?, keys.getLast? with
  | some first, some last => last - first + 1 == keys.length
  | _, _ => false

end Tycho.ArchiveFile
