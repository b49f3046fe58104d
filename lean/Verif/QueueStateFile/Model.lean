import Verif.QueueDiffTl.Props

/-!
Model of persistent queue state files: `core/src/storage/persistent_state/queue_state/{writer,reader}.rs`,
the tail collection of `core/src/storage/persistent_state/mod.rs:478-535`,
`block-util/src/queue/queue_diff.rs:193-279` (the message iterator) and the TL list of chunks
`block-util/src/queue/proto.rs:762-822`.

Not modelled: zstd compression, buffering, cancellation, the temporary file and its rename. Bags of cells
are an interface (`Ext.encodeBoc`, `Ext.bocSize`, `Ext.decodeBoc`); the laws the proofs use are in `Spec.lean`.
-/
namespace Tycho.QueueStateFile
open Tycho.Bytes Tycho.Codec Tycho.QueueKey Tycho.QueueDiffTl

variable {Cell : Type}

/-- What the code takes from outside: the TL ids, the hash of a cell, and bags of cells. -/
structure Ext (Cell : Type) where
  q : QueueDiffTl.Ext
  /-- `tl_proto::id!("block.queueState")` -/
  stateId : Nat
  /-- `tl_proto::id!("block.queueStateHeader")` -/
  headerId : Nat
  /-- `cell.repr_hash()` -/
  reprHash : Cell → List Nat
  /-- `BocHeader::encode_to_writer` after `add_root` of each cell in order -/
  encodeBoc : List Cell → List Nat
  /-- `compute_stats().total_size` -/
  bocSize : List Cell → Nat
  /-- `BocHeader::decode` with `max_roots` and `finalize`: the root cells in order. Roots with an index
  outside the bag are an error of `decode`. -/
  decodeBoc : Nat → List Nat → Option (List Cell)

/-- writer.rs:90 -/
def maxRootsPerChunk : Nat := 10000
/-- writer.rs:91, `10 << 20` -/
def maxChunkSize : Nat := 10485760
/-- reader.rs:105 -/
def maxAllowedRoots : Nat := 10000
/-- proto.rs:766 `MAX_CHUNKS` -/
def maxChunks : Nat := 10000000
/-- proto.rs:768 `MAX_CHUNK_SIZE`, `100 << 20` -/
def maxReadChunk : Nat := 104857600

/-- proto.rs:148-157 `QueueStateHeader`. -/
structure Header where
  shard : Shard
  seqno : Nat
  diffs : List Diff

/-! ### Collecting the tail -/

/-- An entry of the out messages description: a new message with the references of its envelope, or
something else. -/
inductive OutMsg (Cell : Type) where
  | fresh (envelopeRefs : List Cell)
  | other

/-- A stored block with its queue diff, as far as the writer reads it. `prev` is the handle and data of
the previous block (`none` if not found or after a merge). -/
inductive Block (Cell : Type) where
  | mk (tailLen : Nat) (diff : Diff) (outMsgs : List Nat → Option (OutMsg Cell)) (prev : Option (Block Cell))

def Block.tailLen : Block Cell → Nat
  | .mk t _ _ _ => t
def Block.diff : Block Cell → Diff
  | .mk _ d _ _ => d
def Block.outMsgs : Block Cell → List Nat → Option (OutMsg Cell)
  | .mk _ _ o _ => o
def Block.prev : Block Cell → Option (Block Cell)
  | .mk _ _ _ p => p

/-- queue_diff.rs:243-272 `QueueDiffMessagesIter::next` for one hash; `none` is an error. -/
def entryOf (outMsgs : List Nat → Option (OutMsg Cell)) (hash : List Nat) : Option Cell :=
  match outMsgs hash with
  | some (.fresh refs) => refs.getLast?
  | some .other => none
  | none => none

/-- queue_diff.rs:193-199 `zip`: all results of the iterator. -/
def zipEntries (b : Block Cell) : List (Option Cell) := b.diff.messages.map (entryOf b.outMsgs)

/-- mod.rs:501-530: the diffs and message iterators of the tail, newest first. -/
def collectTail : Nat → Block Cell → Option (List (Diff × List (Option Cell)))
  | 0, _ => some []
  | 1, b => some [(b.diff, zipEntries b)]
  | n + 2, b =>
    match b.prev with
    | none => none
    | some p =>
      match collectTail (n + 1) p with
      | none => none
      | some rest => some ((b.diff, zipEntries b) :: rest)

/-! ### Writer -/

/-- writer.rs:155-176: one chunk, with `left` items still allowed by `take`. -/
def takeChunk (ext : Ext Cell) : Nat → List Cell → List (Option Cell) →
    Option (List Cell × List (Option Cell))
  | 0, acc, rest => some (acc, rest)
  | _ + 1, acc, [] => some (acc, [])
  | _ + 1, _, none :: _ => none
  | left + 1, acc, some m :: rest =>
    if maxChunkSize ≤ ext.bocSize (acc ++ [m]) then some (acc ++ [m], rest)
    else takeChunk ext left (acc ++ [m]) rest

/-- writer.rs:148-196: the chunk loop. The first argument bounds the number of rounds; each round but the
last consumes an entry, so `entries.length + 1` rounds are enough (proved). -/
def writeChunks (ext : Ext Cell) : Nat → List (Option Cell) → Option (List (List Cell))
  | 0, _ => none
  | fuel + 1, entries =>
    match takeChunk ext maxRootsPerChunk [] entries with
    | none => none
    | some ([], _) => some []
    | some (c :: cs, rest) =>
      match writeChunks ext fuel rest with
      | none => none
      | some chunks => some ((c :: cs) :: chunks)

/-- writer.rs:182-194: size, bag, padding. -/
def writeChunk (ext : Ext Cell) (c : List Cell) : List Nat :=
  leBytes 4 (ext.bocSize c) ++ (ext.encodeBoc c ++
    (if ext.bocSize c % 4 ≠ 0 then List.replicate (4 - ext.bocSize c % 4) 0 else []))

/-- `QueueStateHeader::write_to` (derived, boxed). -/
def writeHeader (ext : Ext Cell) (h : Header) : List Nat :=
  leBytes 4 ext.headerId ++ (writeShard h.shard ++ (leBytes 4 h.seqno ++ writeDiffs ext.q h.diffs))

/-- writer.rs:136-142: the number of chunks announced. -/
def declaredChunks (h : Header) : Nat :=
  ((h.diffs.map (fun d => d.messages.length)).sum + (maxRootsPerChunk - 1)) / maxRootsPerChunk

/-- writer.rs:88-208 `write`: the bytes of the (uncompressed) file; `none` is an error or, for an empty
list of diffs, the panic of proto.rs:658. -/
def writeState (ext : Ext Cell) (h : Header) (entries : List (List (Option Cell))) : Option (List Nat) :=
  if h.diffs = [] then none
  else
    match writeChunks ext (entries.flatten.length + 1) entries.flatten with
    | none => none
    | some chunks =>
      some (leBytes 4 ext.stateId ++ (writeHeader ext h ++
        (leBytes 4 (declaredChunks h) ++ chunks.flatMap (writeChunk ext))))

/-- mod.rs:478-535 `store_queue_state` up to the write. -/
def storeQueueState (ext : Ext Cell) (shard : Shard) (seqno : Nat) (b : Block Cell) : Option (List Nat) :=
  match collectTail b.tailLen b with
  | none => none
  | some tail => writeState ext ⟨shard, seqno, tail.map Prod.fst⟩ (tail.map Prod.snd)

/-! ### Reader -/

/-- `QueueStateHeader::read_from` (derived, boxed). -/
def readHeader (ext : Ext Cell) : Rd Header := do
  let id ← rdLe 4
  if id ≠ ext.headerId then Rd.fail
  else do
    let shard ← readShard ext.q
    let seqno ← rdLe 4
    let diffs ← readDiffs ext.q
    return ⟨shard, seqno, diffs⟩

/-- proto.rs:807-820 `state_messages_list_ref::read`. -/
def readChunkList : Rd (List (List Nat)) := do
  let len ← rdLe 4
  if len > maxChunks then Rd.fail
  else rdMany (readBig maxReadChunk) len

/-- `QueueStateRef::read_from` (derived, boxed). -/
def readState (ext : Ext Cell) : Rd (Header × List (List Nat)) := do
  let id ← rdLe 4
  if id ≠ ext.stateId then Rd.fail
  else do
    let header ← readHeader ext
    let chunks ← readChunkList
    return (header, chunks)

/-- reader.rs:8-14 `QueueStateReader`. `parsed` holds the remaining root cells in the order of the
reversed `roots` vector (`roots.pop()` takes the last). -/
structure Reader (Cell : Type) where
  diffs : List Diff
  chunks : List (List Nat)
  diffIdx : Nat
  msgIdx : Nat
  bocIdx : Nat
  parsed : Option (List Cell)

/-- `OutMsgQueueUpdates` of the block. -/
structure TopUpdate where
  diffHash : List Nat
  tailLen : Nat

/-- reader.rs:17-46 `begin_from_mapped`. -/
def beginRead (ext : Ext Cell) (data : List Nat) (top : TopUpdate) : Option (Reader Cell) :=
  match readState ext data with
  | none => none
  | some ((header, chunks), rest) =>
    if rest ≠ [] then none
    else
      match header.diffs with
      | [] => none
      | d :: _ =>
        if d.hash ≠ top.diffHash then none
        else if header.diffs.length ≠ top.tailLen then none
        else some ⟨header.diffs, chunks, 0, 0, 0, none⟩

/-- Result of a call: a value, an error, or a loop that never ends. -/
inductive Res (α : Type) where
  | ok (a : α)
  | err
  | hang

/-- reader.rs:56-71 `read_next_queue_diff`. -/
def readNextDiff (r : Reader Cell) : Res (Option Diff) :=
  match r.diffs[r.diffIdx]? with
  | none => if r.parsed.isSome then .err else .ok none
  | some d => .ok (some d)

/-- reader.rs:76-84 `finish`. -/
def finishRead (r : Reader Cell) : Bool :=
  (decide (r.diffIdx = r.diffs.length) || decide (r.msgIdx ≠ 0)) && r.parsed.isNone

/-- reader.rs:147-153 `ParsedBoc::next`. -/
def popRoot : Option (List Cell) → Option (Cell × List Cell)
  | none => none
  | some roots =>
    match roots.getLast? with
    | none => none
    | some c => some (c, roots.dropLast)

/-- reader.rs:117-128: a cell was taken, `left` roots remain. -/
def deliver (ext : Ext Cell) (expected : List Nat) (c : Cell) (left : List Cell) (r : Reader Cell) :
    Res (Option Cell) × Reader Cell :=
  let r1 : Reader Cell :=
    if left.isEmpty then { r with parsed := none, bocIdx := r.bocIdx + 1 } else { r with parsed := some left }
  let r2 : Reader Cell := { r1 with msgIdx := r1.msgIdx + 1 }
  if ext.reprHash c ≠ expected then (.err, r2) else (.ok (some c), r2)

/-- reader.rs:100-144 `read_next_message` of the reader for diff `d` at `diffIdx`. If a chunk decodes to
no roots at all the loop decodes it again without end. -/
def readNextMessage (ext : Ext Cell) (d : Diff) (r : Reader Cell) : Res (Option Cell) × Reader Cell :=
  match d.messages[r.msgIdx]? with
  | none => (.ok none, { r with diffIdx := r.diffIdx + 1, msgIdx := 0 })
  | some expected =>
    match popRoot r.parsed with
    | some (c, left) => deliver ext expected c left r
    | none =>
      match r.chunks[r.bocIdx]? with
      | none => (.err, r)
      | some data =>
        match ext.decodeBoc maxAllowedRoots data with
        | none => (.err, r)
        | some cells =>
          match popRoot (some cells.reverse) with
          | none => (.hang, r)
          | some (c, left) => deliver ext expected c left r

/-! ### Reading a whole file, as `import_from_file` does (collator/src/storage/mod.rs:119-255) -/

/-- storage/mod.rs:122: `while let Some(cell) = part.read_next_message()?`. The first argument bounds the
number of calls; a diff with `n` messages needs `n + 1`. -/
def drainDiff (ext : Ext Cell) (d : Diff) : Nat → Reader Cell → Res (List Cell) × Reader Cell
  | 0, r => (.hang, r)
  | fuel + 1, r =>
    match readNextMessage ext d r with
    | (.ok none, r') => (.ok [], r')
    | (.ok (some c), r') =>
      match drainDiff ext d fuel r' with
      | (.ok cs, r'') => (.ok (c :: cs), r'')
      | (.err, r'') => (.err, r'')
      | (.hang, r'') => (.hang, r'')
    | (.err, r') => (.err, r')
    | (.hang, r') => (.hang, r')

/-- storage/mod.rs:119: `while let Some(mut part) = reader.read_next_queue_diff()?`. -/
def drainAll (ext : Ext Cell) : Nat → Reader Cell → Res (List (Diff × List Cell)) × Reader Cell
  | 0, r => (.hang, r)
  | fuel + 1, r =>
    match readNextDiff r with
    | .err => (.err, r)
    | .hang => (.hang, r)
    | .ok none => (.ok [], r)
    | .ok (some d) =>
      match drainDiff ext d (d.messages.length + 1) r with
      | (.ok cells, r') =>
        match drainAll ext fuel r' with
        | (.ok rest, r'') => (.ok ((d, cells) :: rest), r'')
        | (.err, r'') => (.err, r'')
        | (.hang, r'') => (.hang, r'')
      | (.err, r') => (.err, r')
      | (.hang, r') => (.hang, r')

/-- storage/mod.rs:102-255: begin, drain, finish. -/
def readFile (ext : Ext Cell) (data : List Nat) (top : TopUpdate) : Res (List (Diff × List Cell)) :=
  match beginRead ext data top with
  | none => .err
  | some r =>
    match drainAll ext (r.diffs.length + 1) r with
    | (.ok out, r') => if finishRead r' then .ok out else .err
    | (.err, _) => .err
    | (.hang, _) => .hang

end Tycho.QueueStateFile
