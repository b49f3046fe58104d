import Verif.Common.Codec
import Verif.Common.Table

/-!
# The file of a persistent shard state

Model of `core/src/storage/persistent_state/shard_state/writer.rs` (a stored state is written to a BOC file),
`.../reader.rs` and `core/src/storage/shard_state/store_state_raw.rs` (a BOC file is read and its cells are stored).

Bytes are natural numbers below 256, a hash is the natural number of its 32 bytes. `none` is an error or a panic. The `u32`
counters are unbounded; the encodings take their low bytes. Compression, progress bars, cancellation and I/O errors are left out.
What is left to the crate `tycho_types` (`CellDescriptor`) is written out here from its documentation.
-/
namespace Tycho.StateFile
open Tycho.Bytes Tycho.Codec Tycho.Table

/-! ## Cells -/

/-- `CellDescriptor` and the data of a cell. -/
structure Body where
  d1 : Nat
  d2 : Nat
  data : List Nat
  deriving DecidableEq, Repr

/-- `CellDescriptor::reference_count` -/
def refCount (d1 : Nat) : Nat := d1 % 8
/-- `CellDescriptor::byte_len` -/
def byteLen (d2 : Nat) : Nat := d2 / 2 + d2 % 2
/-- `CellDescriptor::store_hashes` -/
def storesHashes (d1 : Nat) : Bool := d1 / 16 % 2 == 1
/-- `CellDescriptor::is_absent` -/
def isAbsent (d1 : Nat) : Bool := d1 == 23
/-- `d1 & !STORE_HASHES_MASK` (writer.rs:440) -/
def clearStored (d1 : Nat) : Nat := if storesHashes d1 then d1 - 16 else d1
/-- The same of a cell. -/
def Body.clear (b : Body) : Body := { b with d1 := clearStored b.d1 }

/-- `u8::trailing_zeros` -/
def trailingZeros (n : Nat) : Nat :=
  if n % 2 = 1 then 0 else if n % 4 = 2 then 1 else if n % 8 = 4 then 2 else if n % 16 = 8 then 3 else
  if n % 32 = 16 then 4 else if n % 64 = 32 then 5 else if n % 128 = 64 then 6 else if n % 256 = 128 then 7 else 8

/-- store_state_raw.rs:519-526 the number of bits of the data. The subtraction wraps in Rust when the last byte is 0 in a single
byte of data; here it stops at 0 (both fail the check of `deserialize`). -/
def bitLen (b : Body) : Nat :=
  if b.d2 % 2 = 0 then byteLen b.d2 * 8
  else match b.data.getLast? with
    | some x => byteLen b.d2 * 8 - trailingZeros x - 1
    | none => 0

/-- What `finalize_cell` (store_state_raw.rs:278-445) computes from the content of a cell and the entries of its children: the
entry of the hashes file (level mask, type, hashes, depths, and the data of a pruned branch, which the code keeps in a map of
its own). `build` fails when the level mask, the depth or a pruned branch is wrong. See `Cell.lean` for the computation itself. -/
structure Hasher where
  Entry : Type
  build : Body → List Entry → Option Entry
  /-- the representation hash (store_state_raw.rs:429-437) -/
  repr : Entry → Nat
  /-- the hash that is read from the entry of the root (entries_buffer.rs:39-42) -/
  top : Entry → Nat
  /-- the bytes of the depth at the highest level -/
  depth : Entry → List Nat
  /-- the bytes of the hashes and depths at lower levels -/
  extra : Entry → List Nat
  /-- `CellDescriptor::hash_count` -/
  hashCount : Nat → Nat

variable (H : Hasher)

/-- store_state_raw.rs:396-427 the stored row of a cell. -/
def rowBytes (b : Body) (e : H.Entry) (refs : List Nat) : List Nat :=
  [b.d1, b.d2] ++ (leBytes 2 (bitLen b) ++ (H.depth e ++ (b.data ++ (H.extra e ++ refs.flatMap (beBytes 32)))))

/-! ## The writer -/

/-- Bytes that are skipped without looking at the end: `Index::advance` (writer.rs:484-487) and `std::io::copy` of a `take`
(reader.rs:113, 155-158). -/
def skip (n : Nat) : Rd Unit := fun s => some ((), s.drop n)

/-- writer.rs:429-462 `deserialize_cell`: descriptor, data and references of a stored row. The check of the bit length is an
assertion; skipping the hashes does not check the length. -/
def deserialize (value : List Nat) : Option (Body × List Nat) :=
  let rd : Rd (Body × List Nat) := do
    let d ← rdBytes 2
    let bits ← rdLe 2
    let _ ← rdBytes 2
    let d1 := clearStored (d.getD 0 0)
    let d2 := d.getD 1 0
    let data ← rdBytes (byteLen d2)
    if (bits + 7) / 8 = byteLen d2 then
      let _ ← skip (34 * (H.hashCount d1 - 1))
      let refs ← rdMany (rdBe 32) (refCount d1)
      return (⟨d1, d2, data⟩, refs)
    else Rd.fail
  (rd value).map (·.1)

/-- writer.rs:267-277 `StackItem`, with the number the item was pushed with. -/
inductive Item
  | new (idx h : Nat)
  | loaded (idx h : Nat) (b : Body) (refs : List Nat)
  deriving DecidableEq, Repr

/-- The variables of `write_rev` (writer.rs:287-300). `out` is the intermediate file, cell by cell. -/
structure WSt where
  stack : List Item
  indices : Table Nat (Nat × Bool)
  remap : Table Nat Nat
  iteration : Nat
  remapIndex : Nat
  out : List (List Nat)
  deriving DecidableEq, Repr

/-- What the loop over the references of a cell leaves: `indices`, `remap_index`, `reference_indices`, and the (index, hash)
pairs to be loaded. -/
structure Refs where
  indices : Table Nat (Nat × Bool)
  remapIndex : Nat
  ids : List Nat
  load : List (Nat × Nat)
  deriving DecidableEq, Repr

/-- writer.rs:332-358 one reference. -/
def addRef (r : Refs) (h : Nat) : Refs :=
  match get r.indices h with
  | none =>
    { indices := put r.indices h (r.remapIndex + 1, false), remapIndex := r.remapIndex + 1
      ids := r.ids ++ [r.remapIndex + 1], load := r.load ++ [(r.remapIndex + 1, h)] }
  | some (i, written) =>
    if written then { r with ids := r.ids ++ [i] }
    else { r with ids := r.ids ++ [i], load := r.load ++ [(i, h)] }

/-- writer.rs:328-358 the loop over the references. -/
def addRefs (indices : Table Nat (Nat × Bool)) (remapIndex : Nat) (hs : List Nat) : Refs :=
  hs.foldl addRef ⟨indices, remapIndex, [], []⟩

/-- writer.rs:311-384 a new cell is loaded from the database. -/
def stepNew (db : Nat → Option (List Nat)) (s : WSt) (rest : List Item) (idx h : Nat) : Option WSt :=
  match (db h).bind (deserialize H) with
  | none => none
  | some (b, hs) =>
    let r := addRefs s.indices s.remapIndex hs
    some { s with
      stack := (r.load.map (fun p => Item.new p.1 p.2)) ++ (.loaded idx h b r.ids :: rest)
      indices := r.indices, remapIndex := r.remapIndex }

/-- writer.rs:409-414 the positions of the children in the intermediate file. -/
def lookupAll (remap : Table Nat Nat) : List Nat → Option (List Nat)
  | [] => some []
  | i :: is => match get remap i, lookupAll remap is with
    | some k, some ks => some (k :: ks)
    | _, _ => none

/-- The bytes of a cell with references in 4 bytes. -/
def cellBytes (b : Body) (refs : List Nat) : List Nat := [b.d1, b.d2] ++ (b.data ++ refs.flatMap (beBytes 4))

/-- writer.rs:390-393 the cell is marked as written. -/
def markWritten (t : Table Nat (Nat × Bool)) (h : Nat) : Table Nat (Nat × Bool) :=
  match get t h with
  | some (i, _) => put t h (i, true)
  | none => t

/-- writer.rs:385-416 a loaded cell is written, if it is not written yet. -/
def stepLoaded (s : WSt) (rest : List Item) (idx h : Nat) (b : Body) (ids : List Nat) : Option WSt :=
  match get s.remap idx with
  | some _ => some { s with stack := rest }
  | none =>
    let remap := put s.remap idx s.iteration
    match lookupAll remap ids with
    | none => none
    | some refs =>
      some { s with
        stack := rest, remap := remap, indices := markWritten s.indices h
        iteration := s.iteration + 1, out := s.out ++ [cellBytes b refs] }

/-- writer.rs:303-418 one turn of the loop. -/
def wstep (db : Nat → Option (List Nat)) (s : WSt) : Option WSt :=
  match s.stack with
  | [] => some s
  | .new idx h :: rest => stepNew H db s rest idx h
  | .loaded idx h b ids :: rest => stepLoaded s rest idx h b ids

/-- The loop after a number of turns. -/
def wrun (db : Nat → Option (List Nat)) : Nat → WSt → Option WSt
  | 0, s => some s
  | n + 1, s => (wstep H db s).bind (wrun db n)

/-- writer.rs:287-300 -/
def wstart (root : Nat) : WSt :=
  { stack := [.new 0 root], indices := [(root, (0, false))], remap := [], iteration := 0, remapIndex := 0, out := [] }

/-- writer.rs:535-537 `number_of_bytes_to_fit` (`8 - leading_zeros / 8`). -/
def bytesToFit (l : Nat) : Nat := if l = 0 then 0 else Nat.log2 l / 8 + 1

/-- writer.rs:221-228 the references of a cell are counted from the other end. -/
def remapRefs (count : Nat) : Nat → List Nat → List Nat
  | 0, l => l
  | k + 1, l => beBytes 4 (count - ofBe (l.take 4) - 1) ++ remapRefs count k (l.drop 4)

/-- writer.rs:214-230 a cell of the intermediate file as it is in the final file. -/
def remapCell (count : Nat) (c : List Nat) : List Nat :=
  c.take (2 + byteLen (c.getD 1 0)) ++ remapRefs count (refCount (c.getD 0 0)) (c.drop (2 + byteLen (c.getD 1 0)))

/-- writer.rs:184-193 the index: the end of each cell. -/
def indexBytes (size : Nat) : Nat → List (List Nat) → List Nat
  | _, [] => []
  | off, c :: cs => beBytes size (off + c.length) ++ indexBytes size (off + c.length) cs

/-- writer.rs:141-233 the file, from the cells of the intermediate file. -/
def fileBytes (out : List (List Nat)) : List Nat :=
  let count := out.length
  let total := (out.map List.length).sum
  let size := min (bytesToFit total) 8
  [0xb5, 0xee, 0x9c, 0x72, 0x84, size] ++ (beBytes 4 count ++ (beBytes 4 1 ++ (beBytes 4 0 ++ (beBytes size total ++
    (beBytes 4 0 ++ (indexBytes size 0 out.reverse ++ (out.reverse.map (remapCell count)).flatten))))))

/-- writer.rs:117-258 `write_inner`; the loop gets `fuel` turns. -/
def writeState (db : Nat → Option (List Nat)) (root fuel : Nat) : Option (List Nat) :=
  match wrun H db fuel (wstart root) with
  | none => none
  | some s => if s.stack.isEmpty then some (fileBytes s.out) else none

/-! ## The reader -/

/-- reader.rs:185-195 `BriefBocHeader` -/
structure Header where
  crc : Bool
  refSize : Nat
  cellCount : Nat
  deriving DecidableEq, Repr

/-- reader.rs:29-47 what the magic and the next byte say: whether there is a root index, an index and a checksum, and the size
of a reference. -/
def bocFlags (magic : List Nat) (first : Nat) : Option (Bool × Bool × Bool × Nat) :=
  if magic = [0x68, 0xff, 0x65, 0xf3] then some (false, true, false, first)
  else if magic = [0xac, 0xc3, 0xa7, 0x28] then some (false, true, true, first)
  else if magic = [0xb5, 0xee, 0x9c, 0x72] then some (true, first / 128 % 2 == 1, first / 64 % 2 == 1, first % 8)
  else none

/-- reader.rs:56-133 the rest of the header and the index. -/
def readSizes (rootIndex index crc : Bool) (refSize : Nat) : Rd Header := do
  let off ← rdBe 1
  if off = 0 ∨ 8 < off then Rd.fail
  else do
    let cells ← rdBe refSize
    let roots ← rdBe refSize
    let _ ← rdBe refSize
    if roots ≠ 1 ∨ cells < roots then Rd.fail
    else do
      let total ← rdBe off
      if 100 * 2 ^ 30 < total then Rd.fail
      else do
        let _ ← rdBytes (if rootIndex then refSize else 0)
        if index ∧ 10 * 2 ^ 30 < cells * off then Rd.fail
        else do
          let _ ← skip (if index then cells * off else 0)
          return ⟨crc, refSize, cells⟩

/-- reader.rs:14-133 `begin`. -/
def readHeader : Rd Header := do
  let magic ← rdBytes 4
  let first ← rdBe 1
  match bocFlags magic first with
  | none => Rd.fail
  | some (rootIndex, index, crc, refSize) =>
    if refSize = 0 ∨ 4 < refSize then Rd.fail else readSizes rootIndex index crc refSize

/-- reader.rs:140-177 `read_next_cell`: the bytes of one cell without stored hashes. -/
def readCell (refSize : Nat) : Rd (List Nat) := do
  let d ← rdBytes 2
  if isAbsent (d.getD 0 0) then Rd.fail
  else if 4 < refCount (d.getD 0 0) then Rd.fail
  else do
    let _ ← skip (if storesHashes (d.getD 0 0) then H.hashCount (d.getD 0 0) * 34 else 0)
    let rest ← rdBytes (byteLen (d.getD 1 0) + refCount (d.getD 0 0) * refSize)
    return d ++ rest

/-! ## The import -/

/-- store_state_raw.rs:63-77 one chunk of the temporary file. -/
def chunkBytes (cs : List (List Nat)) : List Nat :=
  (cs.flatMap fun c => c ++ [c.length]) ++ leBytes 4 (cs.flatMap fun c => c ++ [c.length]).length

/-- store_state_raw.rs:59-82 the cells are read and put into the temporary file, `per` (10000) in a chunk. -/
def preprocessCells (refSize per : Nat) : Nat → Nat → Rd (List Nat)
  | 0, _ => Rd.fail
  | fuel + 1, left => do
    if left = 0 then return []
    else do
      let cs ← rdMany (readCell H refSize) (min left per)
      let rest ← preprocessCells refSize per fuel (left - min left per)
      return chunkBytes cs ++ rest

/-- store_state_raw.rs:42-96 `preprocess`: the header and the temporary file. `crcOk` is the verdict of the checksum in a file
that has one (see DESIGN.md on how it is computed). -/
def preprocess (crcOk : Bool) (per : Nat) (file : List Nat) : Option (Header × List Nat) :=
  match readHeader file with
  | none => none
  | some (hd, r) => match preprocessCells H hd.refSize per (hd.cellCount + 1) hd.cellCount r with
    | none => none
    | some (t, r2) =>
      if hd.crc then (if r2.length < 4 ∨ !crcOk then none else some (hd, t)) else some (hd, t)

/-- store_state_raw.rs:155-196 the cells of a chunk, the last one first. -/
def splitChunk : Nat → List Nat → Option (List (List Nat))
  | _, [] => some []
  | 0, _ :: _ => none
  | fuel + 1, x :: l =>
    let chunk := x :: l
    let size := chunk.getLast?.getD 0
    if chunk.length < size + 1 then none
    else
      let keep := chunk.length - (size + 1)
      (splitChunk fuel (chunk.take keep)).map (fun cs => (chunk.drop keep).take size :: cs)

/-- store_state_raw.rs:133-153 the chunks of the temporary file, the last one first. -/
def splitFile : Nat → List Nat → Option (List (List (List Nat)))
  | 0, _ => none
  | fuel + 1, file =>
    if file.length < 4 then some []
    else
      let pos := file.length - 4
      let size := ofLe (file.drop pos)
      if pos < size then none
      else match splitChunk size ((file.take pos).drop (pos - size)), splitFile fuel (file.take (pos - size)) with
        | some cs, some rest => some (cs :: rest)
        | _, _ => none

/-- The variables of `finalize` (store_state_raw.rs:108-131, 262-276): the hashes file, the usages, the rows of `temp_cells`, the
current entry, the index of the last cell, the length of the batch. -/
structure FSt where
  entries : Table Nat H.Entry
  usages : Table Nat Int
  rows : Table Nat (List Nat)
  cur : Option H.Entry
  index : Nat
  batch : Nat

/-- store_state_raw.rs:505-517 the references of a cell: behind the cell itself and within the file. -/
def checkRefs (count index : Nat) (refs : List Nat) : Bool := refs.all (fun r => decide (index < r) && decide (r < count))

/-- store_state_raw.rs:480-536 `RawCell::from_stored_data`. -/
def parseCell (refSize count index : Nat) (bytes : List Nat) : Option (Body × List Nat) :=
  let rd : Rd (Body × List Nat) := do
    let d ← rdBytes 2
    if isAbsent (d.getD 0 0) ∨ 4 < refCount (d.getD 0 0) then Rd.fail
    else do
      let data ← rdBytes (byteLen (d.getD 1 0))
      let refs ← rdMany (rdBe refSize) (refCount (d.getD 0 0))
      if checkRefs count index refs then return (⟨d.getD 0 0, d.getD 1 0, data⟩, refs) else Rd.fail
  (rd bytes).map (·.1)

/-- The entries of the children. -/
def childEntries {E : Type} (entries : Table Nat E) : List Nat → Option (List E)
  | [] => some []
  | i :: is => match get entries i, childEntries entries is with
    | some e, some es => some (e :: es)
    | _, _ => none

/-- store_state_raw.rs:424 one more use of a cell. -/
def addUse (u : Table Nat Int) (h : Nat) : Table Nat Int := put u h ((get u h).getD 0 + 1)

/-- store_state_raw.rs:155-196, 278-445 one cell. -/
def finalizeCell (refSize count : Nat) (s : FSt H) (bytes : List Nat) : Option (FSt H) :=
  if s.index = 0 then none
  else match parseCell refSize count (s.index - 1) bytes with
    | none => none
    | some (b, refs) => match childEntries s.entries refs with
      | none => none
      | some es => match H.build b es with
        | none => none
        | some e =>
          some {
            entries := put s.entries (s.index - 1) e
            usages := put ((es.map H.repr).foldl addUse s.usages) (H.repr e) (-1)
            rows := put s.rows (H.repr e) (rowBytes H b e (es.map H.repr))
            cur := some e, index := s.index - 1, batch := s.batch + 1 }

/-- store_state_raw.rs:447-449 `finalize_cell_usages`. -/
def retainUnused (u : Table Nat Int) : Table Nat Int := u.filter (fun p => decide (p.2 < 0))

/-- The cells of a chunk. -/
def finalizeCells (refSize count : Nat) : List (List Nat) → FSt H → Option (FSt H)
  | [], s => some s
  | c :: cs, s => (finalizeCell H refSize count s c).bind (finalizeCells refSize count cs)

/-- store_state_raw.rs:198-202, 207-210 the end of a batch. -/
def endBatch (s : FSt H) : FSt H := { s with usages := retainUnused s.usages, batch := 0 }

/-- store_state_raw.rs:133-205 the chunks; `per` is `CELLS_PER_BATCH`. -/
def finalizeChunks (per refSize count : Nat) : List (List (List Nat)) → FSt H → Option (FSt H)
  | [], s => some s
  | ch :: chs, s => match finalizeCells H refSize count ch s with
    | none => none
    | some s2 => finalizeChunks per refSize count chs (if per < s2.batch then endBatch H s2 else s2)

/-- store_state_raw.rs:451-460 `final_check`. -/
def finalCheck (u : Table Nat Int) (root : Nat) : Bool := decide (u.length = 1) && (get u root).isSome

/-- store_state_raw.rs:98-222 `finalize` up to the final check: the hash of the root and the rows of `temp_cells`. -/
def finalize (perBatch : Nat) (expected : Option Nat) (hd : Header) (tmp : List Nat) : Option (Nat × Table Nat (List Nat)) :=
  match splitFile (tmp.length + 1) tmp with
  | none => none
  | some chunks =>
    match finalizeChunks H perBatch hd.refSize hd.cellCount chunks ⟨[], [], [], none, hd.cellCount, 0⟩ with
    | none => none
    | some s =>
      let s2 := if 0 < s.batch then endBatch H s else s
      match s2.cur with
      | none => none
      | some e =>
        if expected ≠ none ∧ expected ≠ some (H.top e) then none
        else if finalCheck s2.usages (H.top e) then some (H.top e, s2.rows) else none

/-- store_state_raw.rs:33-40 `store` up to `apply_temp_cell`; `per` is `CELLS_PER_CHUNK`. -/
def importState (crcOk : Bool) (per perBatch : Nat) (expected : Option Nat) (file : List Nat) : Option (Nat × Table Nat (List Nat)) :=
  match preprocess H crcOk per file with
  | none => none
  | some (hd, tmp) => finalize H perBatch expected hd tmp

/-- cell_storage.rs:238-262 `load_temp` of `apply_temp_cell`: the content of a row of `temp_cells`. -/
def loadTemp (value : List Nat) : Option (Body × List Nat) :=
  let rd : Rd (Body × List Nat) := do
    let d ← rdBytes 2
    let _ ← rdBytes 4
    let data ← rdBytes (byteLen (d.getD 1 0))
    let _ ← rdBytes (34 * (H.hashCount (d.getD 0 0) - 1))
    let refs ← rdMany (rdBe 32) (refCount (d.getD 0 0))
    return (⟨d.getD 0 0, d.getD 1 0, data⟩, refs)
  (rd value).map (·.1)

end Tycho.StateFile
