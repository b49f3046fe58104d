import Verif.Common.Codec
import Verif.Common.Table

/-!
# The write-ahead log of the cell nursery

Model of `core/src/storage/shard_state/nursery_persistence/{format,mod}.rs` and of `CellNursery::apply_commit`.

A crash ends the process at any point; what was written to files and to RocksDB stays, a file write may have stored any
prefix of its bytes, a RocksDB batch is written as a whole or not at all. A panic or a returned error ends the process too (the
callers `expect` success). Files are byte strings. BLAKE3 is any function to 32 bytes; nothing is assumed about collisions. The
stripes of the nursery are one table; the drain of the round index by promotions is in `CellStore`. The order in which a
snapshot lists the nursery is any order.
-/
namespace Tycho.NurseryWal
open Tycho.Bytes Tycho.Codec Tycho.Table

/-- `NurseryEntry` (cell_nursery.rs:449-453). -/
structure Entry where
  idx : Nat
  born : Nat
  data : List Nat
  deriving DecidableEq, Repr

/-- `NurseryEntryRecord` (cell_nursery.rs:142-148). -/
abbrev Rec := List Nat × Entry

/-- `NurseryDelta` (cell_nursery.rs:150-154). -/
structure Delta where
  inserts : List Rec
  removes : List (List Nat)
  deriving DecidableEq, Repr

/-- `NurseryDelta::is_empty` (cell_nursery.rs:156-160). -/
def Delta.isEmpty (d : Delta) : Bool := d.inserts.isEmpty && d.removes.isEmpty

/-- The entries and the round index of a `CellNursery`. -/
structure Nursery where
  entries : Table (List Nat) Entry
  rounds : List (Nat × List Nat)
  deriving DecidableEq, Repr

def Nursery.empty : Nursery := ⟨[], []⟩

/-- `insert_entries` (cell_nursery.rs:259-281); `none` is the failed assertion. -/
def insertAll : Table (List Nat) Entry → List Rec → Option (Table (List Nat) Entry)
  | n, [] => some n
  | n, e :: es => match get n e.1 with
    | some _ => none
    | none => insertAll (put n e.1 e.2) es

/-- `apply_commit` (cell_nursery.rs:51-60, 219-231, 315-372): inserts, then removes; the round index gets the inserts. -/
def applyCommit (n : Nursery) (d : Delta) : Option Nursery :=
  (insertAll n.entries d.inserts).map (fun es =>
    { entries := del es (fun h => d.removes.contains h)
      rounds := n.rounds ++ d.inserts.map (fun e => (e.2.born, e.1)) })

/-! ## Records (format.rs) -/

/-- One insert (format.rs:86-97). -/
def encRec (e : Rec) : List Nat :=
  e.1 ++ leBytes 8 e.2.idx ++ leBytes 4 e.2.born ++ leBytes 2 e.2.data.length ++ e.2.data

/-- `estimate_total_metadata_len` (format.rs:190-197). -/
def metaLen (inserts removes : Nat) : Nat := 16 + inserts * 46 + removes * 32

/-- `cell_bytes` (format.rs:58-62). -/
def cellBytes (d : Delta) : Nat := (d.inserts.map (fun e => e.2.data.length)).sum

/-- The payload (format.rs:72-101). -/
def encPayload (id : Nat) (d : Delta) : List Nat :=
  leBytes 8 id ++ leBytes 4 d.inserts.length ++ leBytes 4 d.removes.length ++ d.inserts.flatMap encRec ++ d.removes.flatten

/-- The part that is hashed: length and payload (format.rs:70-101). -/
def encHashed (id : Nat) (d : Delta) : List Nat :=
  leBytes 8 (metaLen d.inserts.length d.removes.length + cellBytes d) ++ encPayload id d

/-- `encode_record` (format.rs:55-122). Its `expect`s are the conditions `Fits`. -/
def encRecord (H : List Nat → List Nat) (id : Nat) (d : Delta) : List Nat := H (encHashed id d) ++ encHashed id d

/-- One insert (format.rs:156-170). -/
def rdRec : Rd Rec := do
  let hash ← rdBytes 32
  let idx ← rdLe 8
  let born ← rdLe 4
  let len ← rdLe 2
  let data ← rdBytes len
  return (hash, ⟨idx, born, data⟩)

/-- The payload (format.rs:149-177). Reading past its end is a panic. -/
def rdPayload : Rd (Nat × Delta) := do
  let id ← rdLe 8
  let ni ← rdLe 4
  let nr ← rdLe 4
  let inserts ← rdMany rdRec ni
  let removes ← rdMany (rdBytes 32) nr
  return (id, ⟨inserts, removes⟩)

/-- `DecodedRecord` (format.rs:124-129). -/
structure Decoded where
  id : Nat
  hash : List Nat
  delta : Delta
  deriving DecidableEq, Repr

/-- `decode_record` (format.rs:131-188). -/
def rdRecord (H : List Nat → List Nat) : Rd Decoded := do
  let hash ← rdBytes 32
  let n ← rdLe 8
  if 2 ^ 64 ≤ n + 8 then Rd.fail else do
    let payload ← rdBytes n
    if H (leBytes 8 n ++ payload) ≠ hash then Rd.fail else
      match rdPayload payload with
      | some ((id, d), _) => return ⟨id, hash, d⟩
      | none => Rd.fail

/-! ## The files and the state keys -/

/-- The keys of the `state` column (db_state.rs:21-24). -/
structure Db where
  version : Option Nat
  committed : Option Nat
  ckptId : Option Nat
  ckptHash : Option (List Nat)
  deriving DecidableEq, Repr

/-- What survives a crash. -/
structure Disk where
  db : Db
  /-- `cell_nursery.wal`, if it exists -/
  wal : Option (List Nat)
  /-- `cell_nursery.checkpoint.{id}` -/
  ckpt : Table Nat (List Nat)
  /-- `cell_nursery.checkpoint.tmp.{id}` -/
  tmp : Table Nat (List Nat)
  deriving DecidableEq, Repr

/-- `NurseryPersistence` (mod.rs:35-42) and the nursery. -/
structure Mem where
  nursery : Nursery
  committed : Nat
  checkpoint : Nat
  walSize : Nat
  deriving DecidableEq, Repr

/-- `STATE_VERSION` (mod.rs:51). -/
def stateVersion : Nat := 1

/-- `load_state` (mod.rs:377-435): committed id, checkpoint id, checkpoint hash. -/
def loadState (db : Db) : Option (Nat × Nat × Option (List Nat)) :=
  let committed := db.committed.getD 0
  let ckpt := db.ckptId.getD 0
  if committed < ckpt then none else
  match db.version with
  | none => if committed = 0 ∧ ckpt = 0 ∧ db.ckptHash = none then some (committed, ckpt, db.ckptHash) else none
  | some v => if v = stateVersion ∧ (decide (0 < ckpt) = db.ckptHash.isSome) then some (committed, ckpt, db.ckptHash) else none

/-- `load_checkpoint` (mod.rs:188-221). -/
def loadCheckpoint (H : List Nat → List Nat) (disk : Disk) (id : Nat) (hash : List Nat) : Option Nursery :=
  match get disk.ckpt id with
  | none => none
  | some bytes => match rdRecord H bytes with
    | none => none
    | some (r, _) =>
      if r.id = id ∧ r.hash = hash ∧ r.delta.removes = [] then applyCommit Nursery.empty r.delta else none

/-- The loop of `replay_wal` (mod.rs:326-361): the next id, what is left of the file behind the last accepted record, the
nursery; `none` is an error. -/
def replayLoop (H : List Nat → List Nat) (committed ckpt : Nat) :
    Nat → Nat → List Nat → Nursery → Option (Nat × List Nat × Nursery)
  | 0, next, bytes, n => some (next, bytes, n)
  | fuel + 1, next, bytes, n =>
    if committed < next then some (next, bytes, n) else
    match rdRecord H bytes with
    | none => some (next, bytes, n)
    | some (r, rest) =>
      if committed < r.id then some (next, bytes, n)
      else if r.id ≤ ckpt then replayLoop H committed ckpt fuel next rest n
      else if r.id ≠ next then none
      else match applyCommit n r.delta with
        | none => none
        | some n' => replayLoop H committed ckpt fuel (next + 1) rest n'

/-- `replay_wal` (mod.rs:307-375): the file and the nursery after it. -/
def replayWal (H : List Nat → List Nat) (committed ckpt : Nat) (wal : List Nat) (n : Nursery) :
    Option (List Nat × Nursery) :=
  if committed = ckpt then some ([], n) else
  match replayLoop H committed ckpt (wal.length + 1) (ckpt + 1) wal n with
  | none => none
  | some (next, rest, n') =>
    if next = committed + 1 then some (wal.take (wal.length - rest.length), n') else none

/-- The checkpoint part of `open` (mod.rs:62-71). -/
def openCheckpoint (H : List Nat → List Nat) (disk : Disk) (ckpt : Nat) (hash : Option (List Nat)) : Option Nursery :=
  if 0 < ckpt then
    match hash with
    | none => none
    | some h => loadCheckpoint H disk ckpt h
  else some Nursery.empty

/-- The check for a missing log (mod.rs:73-75). -/
def walMissing (disk : Disk) (committed ckpt : Nat) : Bool := disk.wal.isNone && decide (committed ≠ ckpt)

/-- `open` (mod.rs:54-99). -/
def openNursery (H : List Nat → List Nat) (disk : Disk) : Option (Disk × Mem) :=
  match loadState disk.db with
  | none => none
  | some (committed, ckpt, hash) => match openCheckpoint H disk ckpt hash with
    | none => none
    | some n =>
      if walMissing disk committed ckpt then none else
      match replayWal H committed ckpt (disk.wal.getD []) n with
      | none => none
      | some (wal, n') =>
        some ({ disk with wal := some wal }, { nursery := n', committed, checkpoint := ckpt, walSize := wal.length })

/-! ## The running process -/

/-- Where the process is: between operations; appending a record, with the bytes still to write; after the append, with the
batch not yet written; in a checkpoint. -/
inductive Phase
  | idle
  | appending (d : Delta) (rest : List Nat)
  | staged (d : Delta)
  | ckFile (record rest : List Nat)
  | ckNamed (record : List Nat)
  | ckStated
  | cleaning
  deriving DecidableEq, Repr

/-- The machine; `hist` (not part of the code) are the deltas whose batch is in RocksDB. -/
structure Sys where
  disk : Disk
  proc : Option (Mem × Phase)
  hist : List Delta

/-- What `encode_record` can encode (format.rs:56-97 `expect`s, field types). -/
structure Fits (d : Delta) : Prop where
  counts : d.inserts.length < 2 ^ 32 ∧ d.removes.length < 2 ^ 32
  recs : ∀ e ∈ d.inserts, e.1.length = 32 ∧ e.2.idx < 2 ^ 64 ∧ e.2.born < 2 ^ 32 ∧ e.2.data.length < 2 ^ 16
  hashes : ∀ h ∈ d.removes, h.length = 32
  total : metaLen d.inserts.length d.removes.length + cellBytes d + 8 < 2 ^ 64

inductive Action
  /-- `append_commit` begins (mod.rs:101-113) -/
  | commit (d : Delta)
  /-- `write_all` writes some more bytes (mod.rs:115) -/
  | append (k : Nat)
  /-- the rest of `append_commit` and `apply_commit` (mod.rs:117-145, cell_storage.rs:669-678) -/
  | stage
  /-- the batch of the caller is written (shard_state/mod.rs:778-781, 1121-1125; cell_storage.rs:148-151) -/
  | write
  /-- `checkpoint_if_needed` begins (mod.rs:147-164), with the order of the snapshot -/
  | ckBegin (snap : List Rec)
  | ckAppend (k : Nat)
  /-- rename of the temporary file (mod.rs:268) -/
  | ckRename
  /-- `update_checkpoint_state` (mod.rs:223-243) -/
  | ckState
  /-- `reset_wal` (mod.rs:245-251) -/
  | ckReset
  /-- `remove_stale_checkpoints` removes a file (mod.rs:272-284) -/
  | clean (id : Nat)
  | cleanTmp (id : Nat)
  | ckEnd
  /-- the process dies -/
  | crash
  /-- `open` creates the log and dies (mod.rs:77-83) -/
  | openCreates
  /-- `open` -/
  | openIt

/-- The state keys after the batch of commit `id` (mod.rs:121-132). -/
def dbCommit (db : Db) (id : Nat) : Db := { db with version := some stateVersion, committed := some id }

/-- The state keys after `update_checkpoint_state`. -/
def dbCheckpoint (db : Db) (id : Nat) (record : List Nat) : Db :=
  { db with version := some stateVersion, ckptId := some id, ckptHash := some (record.take 32) }

/-- The memory after `append_commit` and `apply_commit`. -/
def appended (H : List Nat → List Nat) (m : Mem) (d : Delta) (n : Nursery) : Mem :=
  { m with
    nursery := n
    committed := m.committed + 1
    walSize := m.walSize + (encRecord H (m.committed + 1) d).length }

/-- One step; `none`: the action is not possible here. `threshold` is `checkpoint_wal_threshold`. -/
def act (H : List Nat → List Nat) (threshold : Nat) (s : Sys) : Action → Option Sys
  | .commit d => match s.proc with
    | some (m, .idle) =>
      if d.isEmpty then none
      else some { s with proc := some (m, .appending d (encRecord H (m.committed + 1) d)) }
    | _ => none
  | .append k => match s.proc with
    | some (m, .appending d rest) =>
      some { s with
        disk := { s.disk with wal := some (s.disk.wal.getD [] ++ rest.take k) }
        proc := some (m, .appending d (rest.drop k)) }
    | _ => none
  | .stage => match s.proc with
    | some (m, .appending d []) =>
      match applyCommit m.nursery d with
      | none => none
      | some n => some { s with proc := some (appended H m d n, .staged d) }
    | _ => none
  | .write => match s.proc with
    | some (m, .staged d) =>
      some { disk := { s.disk with db := dbCommit s.disk.db m.committed }, proc := some (m, .idle), hist := s.hist ++ [d] }
    | _ => none
  | .ckBegin snap => match s.proc with
    | some (m, .idle) =>
      if m.walSize < threshold ∨ m.checkpoint = m.committed then none
      else
        some { s with
          disk := { s.disk with tmp := put s.disk.tmp m.committed [] }
          proc := some (m, .ckFile (encRecord H m.committed ⟨snap, []⟩) (encRecord H m.committed ⟨snap, []⟩)) }
    | _ => none
  | .ckAppend k => match s.proc with
    | some (m, .ckFile record rest) =>
      some { s with
        disk := { s.disk with tmp := put s.disk.tmp m.committed ((get s.disk.tmp m.committed).getD [] ++ rest.take k) }
        proc := some (m, .ckFile record (rest.drop k)) }
    | _ => none
  | .ckRename => match s.proc with
    | some (m, .ckFile record []) =>
      some { s with
        disk := { s.disk with
          ckpt := put s.disk.ckpt m.committed ((get s.disk.tmp m.committed).getD [])
          tmp := del s.disk.tmp (fun i => decide (i = m.committed)) }
        proc := some (m, .ckNamed record) }
    | _ => none
  | .ckState => match s.proc with
    | some (m, .ckNamed record) =>
      some { s with
        disk := { s.disk with db := dbCheckpoint s.disk.db m.committed record }
        proc := some ({ m with checkpoint := m.committed }, .ckStated) }
    | _ => none
  | .ckReset => match s.proc with
    | some (m, .ckStated) =>
      some { s with disk := { s.disk with wal := some [] }, proc := some ({ m with walSize := 0 }, .cleaning) }
    | _ => none
  | .clean id => match s.proc with
    | some (m, .cleaning) =>
      if id = m.checkpoint then none
      else some { s with disk := { s.disk with ckpt := del s.disk.ckpt (fun i => decide (i = id)) } }
    | _ => none
  | .cleanTmp id => match s.proc with
    | some (_, .cleaning) => some { s with disk := { s.disk with tmp := del s.disk.tmp (fun i => decide (i = id)) } }
    | _ => none
  | .ckEnd => match s.proc with
    | some (m, .cleaning) => some { s with proc := some (m, .idle) }
    | _ => none
  | .crash => match s.proc with
    | some _ => some { s with proc := none }
    | none => none
  | .openCreates => match s.proc with
    | none => some { s with disk := { s.disk with wal := some (s.disk.wal.getD []) } }
    | some _ => none
  | .openIt => match s.proc with
    | none => match openNursery H s.disk with
      | some (disk, m) => some { s with disk, proc := some (m, .idle) }
      | none => none
    | some _ => none

/-- A new node. -/
def Sys.init : Sys := { disk := ⟨⟨none, none, none, none⟩, none, [], []⟩, proc := none, hist := [] }

end Tycho.NurseryWal
