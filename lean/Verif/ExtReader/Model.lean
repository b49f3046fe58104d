/-!
Model of the reader of external messages of the collator:
`collator/src/collator/messages_reader/externals_reader.rs` with its state in `messages_reader/state/ext/*.rs`, the parts of
`messages_reader/mod.rs` that drive it, and the reload of anchors in `collator/src/collator/mod.rs`.

Simplifications. A message is its destination and a tag. The buffers of a range (one per partition) are one value of an abstract
type with the operations that the code uses: add, count, the two fill checks and the collection; they are arbitrary functions.
The current offset is one number: all partitions count the same groups, and offsets are dropped in all partitions at once
(mod.rs:1003-1014, 1090-1101). Metrics and logs are left out. A partition that the router names always exists.
-/
namespace Tycho.ExtReader

/-- state/ext/mod.rs:66-70 `ExternalKey`: anchor id and number of messages read in the anchor. -/
structure Key where
  a : Nat
  o : Nat
deriving DecidableEq, Repr

/-- The derived order of `ExternalKey`. -/
instance : LT Key := ⟨fun p q => p.a < q.a ∨ (p.a = q.a ∧ p.o < q.o)⟩
instance : LE Key := ⟨fun p q => p.a < q.a ∨ (p.a = q.a ∧ p.o ≤ q.o)⟩
instance (p q : Key) : Decidable (p < q) := inferInstanceAs (Decidable (p.a < q.a ∨ (p.a = q.a ∧ p.o < q.o)))
instance (p q : Key) : Decidable (p ≤ q) := inferInstanceAs (Decidable (p.a < q.a ∨ (p.a = q.a ∧ p.o ≤ q.o)))

/-- `ExternalMessage`. -/
structure Ext where
  dst : Nat
  tag : Nat
deriving DecidableEq, Repr

/-- `MempoolAnchor`. -/
structure Anchor where
  id : Nat
  ct : Nat
  exts : List Ext
deriving DecidableEq, Repr

/-- A message in a buffer with the position behind it and the chain time of its anchor. -/
structure Item where
  key : Key
  msg : Ext
  ct : Nat
deriving DecidableEq, Repr

/-- What the code uses of the buffers of a range, messages_buffer.rs: `add_message`, `msgs_count`, `check_is_filled`. -/
structure Ops (B : Type) where
  empty : B
  /-- adds to the buffer of the given partition -/
  add : B → Nat → Item → B
  count : B → Nat
  isFull : B → Bool
  canFill : B → Bool

/-- externals_reader.rs:1010-1013, 1193-1196 `has_filled_buffer`. -/
def Ops.full {B : Type} (o : Ops B) (b : B) : Bool := o.isFull b || o.canFill b

/-- What is fixed during a call. `ours`: `for_shard_id.contains_address`; `timeout` in ms; `router`: `get_partition(None, dst)`. -/
structure Env (B : Type) where
  ours : Nat → Bool
  timeout : Nat
  router : Nat → Nat
  ops : Ops B
  limit : Nat
  newParams : Bool

/-- externals_reader.rs:637-641 `ReadNextExternalsMode`. -/
inductive RMode where
  | toTheEnd
  | toPrev
deriving DecidableEq, Repr

/-- state/ext/range_reader.rs:14-25, partition_range_reader.rs:10-27, ext/mod.rs:29-36. -/
structure Range (B : Type) where
  seqno : Nat
  lo : Key
  to : Key
  cur : Key
  ct : Nat
  skip : Nat
  proc : Nat
  buf : B
  fully : Bool

/-- The larger position (externals_reader.rs:1107-1109, 1136-1138). -/
def maxKey (p q : Key) : Key := if p < q then q else p

/-- externals_reader.rs:1070-1072, 1141-1143 `prev_to_reached`. -/
def reachedAt (prevTo : Key) (aid off : Nat) : Bool :=
  decide (aid > prevTo.a) || (decide (aid = prevTo.a) && decide (off = prevTo.o))

/-- Variables of the loops of `read_externals_into_buffers`; `put` is what was added to buffers. -/
structure Rd (B : Type) where
  cur : Key
  to : Key
  buf : B
  reached : Bool
  filled : Bool
  put : List (Nat × Item)

/-- externals_reader.rs:1128-1198 one message is read at the position `key`. -/
def takeMsg {B : Type} (e : Env B) (procTo : Nat → Key) (prevTo key : Key) (act : Nat) (m : Ext) (s : Rd B) : Rd B :=
  let s1 : Rd B := { s with cur := key, to := maxKey s.to key, reached := reachedAt prevTo key.a key.o }
  if e.ours m.dst then
    if procTo (e.router m.dst) < key then
      { s1 with
        buf := e.ops.add s.buf (e.router m.dst) ⟨key, m, act⟩, put := s.put ++ [(e.router m.dst, ⟨key, m, act⟩)]
        filled := e.ops.full (e.ops.add s.buf (e.router m.dst) ⟨key, m, act⟩) }
    else { s1 with filled := e.ops.full s.buf }
  else s1

/-- externals_reader.rs:1117-1206 the loop over the messages of one anchor from offset `off`. -/
def importMsgs {B : Type} (e : Env B) (mode : RMode) (procTo : Nat → Key) (prevTo : Key) (aid act : Nat) :
    List Ext → Nat → Rd B → Nat × Rd B
  | [], off, s => (off, s)
  | m :: ms, off, s =>
    if s.filled || (decide (mode = .toPrev) && s.reached) then
      if e.ours m.dst then (off, s) else importMsgs e mode procTo prevTo aid act ms off s
    else importMsgs e mode procTo prevTo aid act ms (off + 1) (takeMsg e procTo prevTo ⟨aid, off + 1⟩ act m s)

/-- What one call leaves: the rest of the cache, the variables, `fully_read`, and whether it would never end. -/
structure Out (B : Type) where
  cache : List Anchor
  rd : Rd B
  fully : Bool
  stuck : Bool

/-- externals_reader.rs:1075 an anchor whose messages are expired for a range with this chain time. -/
def expiredAt (timeout ct act : Nat) : Bool := decide (ct - act > timeout)

/-- externals_reader.rs:1026-1236 the loop over the anchors of the cache; `was` is `was_read_to`. -/
def readLoop {B : Type} (e : Env B) (mode : RMode) (procTo : Nat → Key) (was prevTo : Key) (ct : Nat) :
    List Anchor → Rd B → Out B
  | [], s => ⟨[], s, true, false⟩
  | a :: rest, s =>
    if a.id < was.a then readLoop e mode procTo was prevTo ct rest s
    else
      let off := if a.id = was.a then was.o else 0
      let s1 : Rd B := { s with reached := reachedAt prevTo a.id off }
      if expiredAt e.timeout ct a.ct then
        readLoop e mode procTo was prevTo ct rest { s1 with cur := ⟨a.id, off⟩, to := maxKey s1.to ⟨a.id, off⟩ }
      else
        let r := importMsgs e mode procTo prevTo a.id a.ct (a.exts.drop off) off s1
        let whole : Bool := decide (a.exts.length = r.1)
        if decide (mode = .toPrev) && r.2.reached then ⟨if whole then rest else a :: rest, r.2, true, false⟩
        else if r.2.filled then ⟨if whole then rest else a :: rest, r.2, false, false⟩
        else if whole then readLoop e mode procTo was prevTo ct rest r.2
        else ⟨a :: rest, r.2, false, true⟩

/-- externals_reader.rs:946-1296 `read_externals_into_buffers`. -/
def readRange {B : Type} (e : Env B) (mode : RMode) (procTo : Nat → Key) (cache : List Anchor) (r : Range B) : Out B :=
  readLoop e mode procTo r.cur r.to r.ct cache ⟨r.cur, r.to, r.buf, false, e.ops.full r.buf, []⟩

/-- The range after the call. -/
def Range.after {B : Type} (r : Range B) (o : Out B) : Range B :=
  { r with cur := o.rd.cur, to := o.rd.to, buf := o.rd.buf, fully := o.fully }

/-- mod.rs:60-63 `GetNextMessageGroupMode`. -/
inductive GMode where
  | continue_
  | refill
deriving DecidableEq, Repr

/-- State of the reader and of the anchors cache. `last`: id and number of messages of the last imported anchor. -/
structure St (B : Type) where
  cache : List Anchor
  last : Option (Nat × Nat)
  ranges : List (Range B)
  procTo : Nat → Key
  off : Nat
  block : Nat
  ct : Nat
  allFully : Bool

/-- What `pass` leaves: the ranges, the rest of the cache, what was put into buffers, the local `all_ranges_fully_read`,
whether the main loop was left, and whether some call never ends. -/
structure Pass (B : Type) where
  ranges : List (Range B)
  cache : List Anchor
  put : List (Nat × Item)
  allFully : Bool
  broke : Bool
  stuck : Bool

/-- externals_reader.rs:519-525 the mode for a range. -/
def modeOf (gm : GMode) (seqno block : Nat) : RMode := if seqno = block ∧ gm ≠ .refill then .toTheEnd else .toPrev

/-- externals_reader.rs:548-558 after a call: the end of a fully read range of this block is the end of the last anchor. -/
def settle {B : Type} (last : Option (Nat × Nat)) (block : Nat) (r : Range B) : Range B :=
  if r.fully ∧ r.seqno = block then
    match last with
    | some (id, n) => { r with cur := ⟨id, n⟩, to := ⟨id, n⟩ }
    | none => r
  else r

/-- externals_reader.rs:437-555 one pass of the inner loop over ranges. -/
def pass {B : Type} (e : Env B) (gm : GMode) (procTo : Nat → Key) (last : Option (Nat × Nat)) (off block : Nat) :
    List (Range B) → List Anchor → Bool → Pass B
  | [], cache, all => ⟨[], cache, [], all, false, false⟩
  | r :: rs, cache, all =>
    if r.fully then
      let p := pass e gm procTo last off block rs cache all
      { p with ranges := r :: p.ranges }
    else if (gm = .refill ∧ r.seqno = block) ∨ off < r.skip then
      let p := pass e gm procTo last off block rs cache false
      { p with ranges := r :: p.ranges }
    else
      let o := readRange e (modeOf gm r.seqno block) procTo cache r
      let r' := settle last block (r.after o)
      let all' := all && o.fully
      if e.ops.canFill o.rd.buf || (e.ops.isFull o.rd.buf && !o.fully) then
        ⟨r' :: rs, o.cache, o.rd.put, all', true, o.stuck⟩
      else
        let p := pass e gm procTo last off block rs o.cache all'
        { p with ranges := r' :: p.ranges, put := o.rd.put ++ p.put, stuck := o.stuck || p.stuck }

/-- The position where the next range starts, externals_reader.rs:381-387. -/
def endOf {B : Type} (rs : List (Range B)) : Key := match rs.getLast? with
  | some r => r.to
  | none => ⟨0, 0⟩

/-- The seqno of the last range, externals_reader.rs:434, 460. -/
def lastSeqno {B : Type} (rs : List (Range B)) : Nat := match rs.getLast? with
  | some r => r.seqno
  | none => 0

/-- externals_reader.rs:364-399 `create_next_externals_range_state`. -/
def nextRange {B : Type} (o : Ops B) (s : St B) : Range B :=
  ⟨s.block, endOf s.ranges, endOf s.ranges, endOf s.ranges, s.ct, s.off, s.off, o.empty, false⟩

/-- What `readAll` returns: the state, what was put into buffers, whether a call never ends. -/
structure Res (B : Type) where
  st : St B
  put : List (Nat × Item)
  stuck : Bool

/-- externals_reader.rs:408-620 `read_into_buffers`. -/
def readAll {B : Type} (e : Env B) (gm : GMode) (s : St B) : Res B :=
  if s.allFully then ⟨s, [], false⟩
  else
    let p := pass e gm s.procTo s.last s.off s.block s.ranges s.cache true
    let s1 : St B := { s with ranges := p.ranges, cache := p.cache }
    if p.broke || !p.allFully then ⟨s1, p.put, p.stuck⟩
    else if lastSeqno s.ranges < s.block ∧ s.ranges.length < e.limit ∧ gm = .continue_ ∧ !e.newParams then
      let r := nextRange e.ops s1
      let q := pass e gm s.procTo s.last s.off s.block [r] p.cache true
      let s2 : St B := { s1 with ranges := p.ranges ++ q.ranges, cache := q.cache, allFully := !q.broke && q.allFully }
      ⟨s2, p.put ++ q.put, p.stuck || q.stuck⟩
    else ⟨{ s1 with allFully := true }, p.put, p.stuck⟩

/-- What `collect_messages` (externals_reader.rs:639-774) does with the buffers of the ranges it looks at: any function of the
offset, and of seqno, chain time and buffer of these ranges. -/
abbrev Collect (B : Type) := Nat → List (Nat × Nat × B) → List B

/-- externals_reader.rs:688-694, 747-760 the ranges that the collection looks at: from the first one to the first whose
processed offset is not below the current one. -/
def looked {B : Type} (off : Nat) : List (Range B) → List (Range B)
  | [] => []
  | r :: rs => if off ≤ r.proc then [r] else r :: looked off rs

/-- The same ranges, those past their skip offset, as the collection sees them. -/
def seen {B : Type} (off : Nat) (rs : List (Range B)) : List (Nat × Nat × B) :=
  ((looked off rs).filter (fun r => decide (r.skip < off))).map (fun r => (r.seqno, r.ct, r.buf))

/-- Put new buffers into the first ranges that are past their skip offset. -/
def putBufs {B : Type} (off : Nat) : List (Range B) → List B → List (Range B)
  | r :: rs, b :: bs => if r.skip < off then { r with buf := b } :: putBufs off rs bs else r :: putBufs off rs (b :: bs)
  | rs, [] => rs
  | [], _ => []

/-- externals_reader.rs:226-240 `all_read_externals_collected`. -/
def allCollected {B : Type} (o : Ops B) (off : Nat) (rs : List (Range B)) : Bool :=
  rs.all (fun r => decide (o.count r.buf = 0) && decide (r.skip ≤ off))

/-- mod.rs:1386-1411: `retain_only_last_range_state`, `set_processed_to_current_position`,
`set_skip_processed_offset_to_current`, `set_from_to_current_position_in_last_range_state`. With no range the code returns an error,
the model leaves the state. -/
def finishCollected {B : Type} (s : St B) : St B := match s.ranges.getLast? with
  | none => s
  | some r =>
    let r' : Range B := if r.proc < s.off then { r with proc := s.off, skip := s.off } else r
    { s with
      ranges := [{ r' with lo := r.cur }], procTo := fun _ => r.cur,
      allFully := if r.seqno < s.block then false else s.allFully }

/-- externals_reader.rs:178-193 `last_range_offsets_reached_in_all_partitions`. -/
def offsetReached {B : Type} (s : St B) : Bool := match s.ranges.getLast? with
  | some r => decide (r.proc ≤ s.off)
  | none => true

/-- mod.rs:1336-1412 the part of `collect_messages_for_partition` for externals, for all partitions. -/
def collectStep {B : Type} (e : Env B) (f : Collect B) (s : St B) : St B :=
  let s1 : St B := { s with off := s.off + 1 }
  let s2 : St B := { s1 with ranges := putBufs s1.off s1.ranges (f s1.off (seen s1.off s1.ranges)) }
  if allCollected e.ops s2.off s2.ranges then finishCollected s2 else s2

/-- mod.rs:842-1016 `get_next_message_group` for externals. `reading`: no partition is at a finish stage. -/
def group {B : Type} (e : Env B) (gm : GMode) (reading : Bool) (f : Collect B) (s : St B) : Res B :=
  let r : Res B := if !reading || (decide (gm = .refill) && offsetReached s) then ⟨s, [], false⟩ else readAll e gm s
  if decide (gm = .refill) && offsetReached r.st then r else { r with st := collectStep e f r.st }

/-- externals_reader.rs:305-326 `drop_processing_offset` with the skip offset, called for all partitions. -/
def dropOffset {B : Type} (s : St B) : St B := match s.ranges.getLast? with
  | none => s
  | some r => { s with off := 0, ranges := s.ranges.dropLast ++ [{ r with proc := 0, skip := 0 }] }

/-- externals_reader.rs:91-133 `finalize`. -/
def finalize {B : Type} (s : St B) : St B := match s.ranges.getLast? with
  | none => s
  | some r =>
    if s.ranges.all (fun q => decide (q.proc < s.off)) then { s with ranges := s.ranges.dropLast ++ [{ r with proc := s.off }] }
    else s

/-- externals_reader.rs:62-88 `new` for the next block. -/
def newBlock {B : Type} (block ct : Nat) (s : St B) : St B :=
  { s with block := block, ct := ct, allFully := false, ranges := s.ranges.map (fun r => { r with fully := decide (r.cur = r.to) }) }

/-- anchors_cache.rs:88-98 `add`, with collator/mod.rs:1163-1164: only an anchor with messages for the shard is cached. -/
def importAnchor {B : Type} (ours : Nat → Bool) (a : Anchor) (s : St B) : St B :=
  { s with last := some (a.id, a.exts.length), cache := if a.exts.any (fun m => ours m.dst) then s.cache ++ [a] else s.cache }

/-- state/ext/mod.rs:38-56 `from_range_info` with partition_range_reader.rs:49-59 and externals_reader.rs:74-76. -/
def restoreRange {B : Type} (o : Ops B) (procTo : Key) (r : Range B) : Range B :=
  let cur := if procTo < r.lo then r.lo else if procTo < r.to then procTo else r.to
  { r with cur := cur, buf := o.empty, fully := decide (cur = r.to) }

/-- collator/mod.rs:1198-1353 the anchors cache after `import_init_anchors` with an empty cache: all anchors from the processed
one, which is left out if it is fully read; only anchors with messages for the shard. -/
def reload (ours : Nat → Bool) (procTo : Key) (anchors : List Anchor) : List Anchor :=
  anchors.filter (fun a => decide (procTo.a ≤ a.id) && a.exts.any (fun m => ours m.dst) &&
    !(decide (a.id = procTo.a) && decide (a.exts.length = procTo.o)))

/-- state/mod.rs:26-66 `ReaderState::new` from the stored positions, with the anchors reloaded, for the next block. -/
def restart {B : Type} (e : Env B) (anchors : List Anchor) (block ct : Nat) (s : St B) : St B :=
  { cache := reload e.ours (s.procTo 0) anchors
    last := anchors.getLast?.map (fun a => (a.id, a.exts.length))
    ranges := s.ranges.map (restoreRange e.ops (s.procTo 0))
    procTo := s.procTo
    off := 0
    block := block
    ct := ct
    allFully := false }

/-- mod.rs:741-794 `refill_buffers_upto_offsets`: the groups until the offset of the last range is reached, at most `n`. -/
def refill {B : Type} (e : Env B) (f : Collect B) : Nat → St B → St B
  | 0, s => s
  | n + 1, s => if offsetReached s then s else refill e f n (group e .refill true f s).st

end Tycho.ExtReader
