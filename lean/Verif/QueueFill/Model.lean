import Verif.Common.Table
import Verif.QueueDiffTl.Model

/-!
Model of the three ways messages of a block get into the internal messages queue:

* the collator of the block writes its own diff (`collator/src/collator/do_collate/mod.rs:1575-1652`,
  `collator/src/internal_queue/state/storage.rs:323-495`);
* another node writes the diff it received with the block
  (`collator/src/internal_queue/types/diff.rs:40-75`, then the same `prepare_diff`);
* a node imports a persistent queue state (`collator/src/storage/mod.rs:76-260`);

with `collator/src/internal_queue/types/router.rs`, `types/stats.rs:300-370`, and the reset of the router
by statistics `collator/src/collator/messages_reader/mod.rs:564-682`.

Not modelled: metrics, bytes of keys (`Verif/QueueKey`) and of the diff (`Verif/QueueDiffTl`), the file
format (`Verif/QueueStateFile`), the iterator over out messages (`Verif/QueueStateFile`). A hash map is an
association list; where the code iterates over one, the order is given by an `Order`.
-/
namespace Tycho.QueueFill
open Tycho.Bytes Tycho.Table Tycho.QueueKey Tycho.QueueDiffTl

variable {Cell : Type}

/-- `IntAddr` of tycho-types. -/
inductive IAddr where
  | std (anycast : Option (List Bool)) (a : Addr)
  | var (workchain : Int) (bits : List Bool)
deriving DecidableEq

/-- block-util/src/queue/proto.rs:340-345, 348-355 `RouterAddr::from_int_addr`. -/
def routerAddr : IAddr → Option Addr
  | .std _ a => some a
  | .var _ _ => none

/-- `IntAddr::workchain`. -/
def IAddr.workchain : IAddr → Int
  | .std _ a => a.workchain
  | .var w _ => w

/-- The fields of `IntMsgInfo` the code reads. -/
structure IntMsg where
  src : IAddr
  dst : IAddr
  /-- `created_lt` -/
  lt : Nat
deriving DecidableEq

/-- Result of parsing a message cell. -/
inductive Parsed where
  | int (m : IntMsg)
  /-- an external message -/
  | notInt
  | bad

/-- What the code takes from outside. -/
structure Ext (Cell : Type) where
  /-- `cell.repr_hash()` -/
  hash : Cell → List Nat
  /-- bag of cells with this root -/
  boc : Cell → List Nat
  /-- `MsgInfo::load_from`, `cell.parse::<Message>()`. The second also parses the rest of the message; here
  both give the same result. -/
  parse : Cell → Parsed
  /-- `IntAddr::prefix`, `StdAddr::prefix` -/
  pfx : IAddr → Nat

/-- Iteration orders of the hash maps. -/
structure Order where
  /-- entries of the routing tables -/
  routes : Table Addr Nat → List (Addr × Nat)
  /-- `DiffStatistics`, partitions and addresses -/
  stats : Table (Nat × IAddr) Nat → List ((Nat × IAddr) × Nat)
  /-- the statistics of `import_from_file` -/
  importStats : Table (Nat × Addr) Nat → List ((Nat × Addr) × Nat)

/-! ### Router -/

/-- router.rs:7-12 `PartitionRouter`. -/
structure Router where
  src : Table Addr Nat
  dst : Table Addr Nat
  /-- `partitions_stats` -/
  sizes : Table Nat Nat

/-- `PartitionRouter::default()` -/
def Router.empty : Router := ⟨[], [], []⟩

/-- router.rs:27 `result.extend(...)`. -/
def extend (m : Table Addr Nat) (p : Nat × List Addr) : Table Addr Nat :=
  p.2.foldl (fun m a => Table.put m a p.1) m

/-- router.rs:17-31 the closure `convert`, the map of addresses. -/
def convert (ps : List (Nat × List Addr)) : Table Addr Nat := ps.foldl extend []

/-- router.rs:23-26 -/
def addSize (t : Table Nat Nat) (p : Nat × List Addr) : Table Nat Nat :=
  Table.put t p.1 ((Table.get t p.1).getD 0 + p.2.length)

/-- router.rs:15-38 `with_partitions`. -/
def withPartitions (src dst : List (Nat × List Addr)) : Router :=
  ⟨convert src, convert dst, dst.foldl addSize (src.foldl addSize [])⟩

/-- router.rs:42-55 `get_partition`. -/
def getPartition (r : Router) (src : Option IAddr) (dst : IAddr) : Nat :=
  (((routerAddr dst).bind (Table.get r.dst)).or
    ((src.bind routerAddr).bind (Table.get r.src))).getD 0

/-- router.rs:58-76 `insert_src`. -/
def insertSrc (r : Router) (addr : IAddr) (p : Nat) : Option Router :=
  if p = 0 then none
  else match routerAddr addr with
    | none => none
    | some a => some { r with
        src := Table.put r.src a p
        sizes := if Table.get r.src a = none
          then Table.put r.sizes p ((Table.get r.sizes p).getD 0 + 1) else r.sizes }

/-- router.rs:79-97 `insert_dst`. -/
def insertDst (r : Router) (addr : IAddr) (p : Nat) : Option Router :=
  if p = 0 then none
  else match routerAddr addr with
    | none => none
    | some a => some { r with
        dst := Table.put r.dst a p
        sizes := if Table.get r.dst a = none
          then Table.put r.sizes p ((Table.get r.sizes p).getD 0 + 1) else r.sizes }

/-- `BTreeSet::insert`. -/
def insAddr (a : Addr) : List Addr → List Addr
  | [] => [a]
  | b :: l => if addrLt a b then a :: b :: l else if a = b then b :: l else b :: insAddr a l

/-- router.rs:106-109 `result.entry(partition).or_insert(BTreeSet::new()).insert(addr)`. -/
def insPart (p : Nat) (a : Addr) : List (Nat × List Addr) → List (Nat × List Addr)
  | [] => [(p, [a])]
  | q :: l =>
    if p < q.1 then (p, [a]) :: q :: l
    else if p = q.1 then (q.1, insAddr a q.2) :: l
    else q :: insPart p a l

/-- router.rs:103-112, 114-123 `to_router_partitions_{src,dst}`, given the entries in iteration order. -/
def toPartitions (m : List (Addr × Nat)) : List (Nat × List Addr) :=
  m.foldl (fun acc e => insPart e.2 e.1 acc) []

/-! ### Diffs with messages -/

/-- internal_queue/types/message.rs:9-12 `EnqueuedMessage`. -/
structure Enq (Cell : Type) where
  info : IntMsg
  cell : Cell

/-- internal_queue/types/diff.rs:17-28 `QueueDiffWithMessages`; the ordered map of messages is a list in
the order of keys. -/
structure DiffMsgs (Cell : Type) where
  messages : List (Key × Enq Cell)
  processedTo : List (Shard × Key)
  router : Router

/-- `BTreeMap::insert`. -/
def insMsg (k : Key) (v : Enq Cell) : List (Key × Enq Cell) → List (Key × Enq Cell)
  | [] => [(k, v)]
  | e :: l => if k.Lt e.1 then (k, v) :: e :: l else if k = e.1 then (k, v) :: l else e :: insMsg k v l

/-- diff.rs:54-66 the loop over the messages of the diff. `lookup` is the out messages description of the
block, by hash of a message; a hash not found is an error. -/
def collectMsgs (ext : Ext Cell) (lookup : List Nat → Option Cell) :
    List (List Nat) → List (Key × Enq Cell) → Option (List (Key × Enq Cell))
  | [], acc => some acc
  | h :: hs, acc =>
    match lookup h with
    | none => none
    | some c =>
      match ext.parse c with
      | .bad => none
      | .notInt => collectMsgs ext lookup hs acc
      | .int m => collectMsgs ext lookup hs (insMsg ⟨m.lt, ext.hash c⟩ ⟨m, c⟩ acc)

/-- diff.rs:40-75 `from_queue_diff`. -/
def fromQueueDiff (ext : Ext Cell) (d : Diff) (lookup : List Nat → Option Cell) : Option (DiffMsgs Cell) :=
  match collectMsgs ext lookup d.messages [] with
  | none => none
  | some ms => some ⟨ms, d.processedTo, withPartitions d.partitionsSrc d.partitionsDst⟩

/-! ### Statistics -/

/-- `*map.entry(k).or_insert(0) += 1` -/
def bump {κ : Type} [DecidableEq κ] (t : Table κ Nat) (k : κ) : Table κ Nat :=
  Table.put t k ((Table.get t k).getD 0 + 1)

/-- `ShardIdent::new_full`. -/
def newFull (wc : Int) : Shard := ⟨wc, 9223372036854775808⟩

/-- stats.rs `DiffStatisticsInner`; the nested map is flat here. -/
structure DiffStats where
  shard : Shard
  min : Key
  max : Key
  stats : Table (Nat × IAddr) Nat
  counts : Table Shard Nat

/-- stats.rs:335-358 the loop of `from_diff`. -/
def statsLoop (r : Router) : List (Key × Enq Cell) → Table (Nat × IAddr) Nat → Table Shard Nat →
    Table (Nat × IAddr) Nat × Table Shard Nat
  | [], s, c => (s, c)
  | e :: es, s, c =>
    statsLoop r es
      (bump s (getPartition r (some e.2.info.src) e.2.info.dst, e.2.info.dst))
      (bump c (newFull e.2.info.dst.workchain))

/-- stats.rs:327-370 `DiffStatistics::from_diff`. -/
def statsOfDiff (dm : DiffMsgs Cell) (shard : Shard) (min max : Key) : DiffStats :=
  ⟨shard, min, max, (statsLoop dm.router dm.messages [] []).1, (statsLoop dm.router dm.messages [] []).2⟩

/-! ### Storage -/

/-- collator/src/storage/models.rs:220-252 `DiffInfo`. -/
structure Info where
  min : Key
  max : Key
  counts : Table Shard Nat
  hash : List Nat
  processedTo : List (Shard × Key)
  src : List (Nat × List Addr)
  dst : List (Nat × List Addr)
  seqno : Nat

/-- A batch of writes, by column family. -/
structure Batch where
  msgs : List (MsgKey × List Nat)
  stats : List (StatKey × Nat)
  tails : List (TailKey × Nat)
  infos : List (InfoKey × Info)
  pointers : List (Shard × PtrValue)

def Batch.empty : Batch := ⟨[], [], [], [], []⟩

/-- The column families. -/
structure Db where
  msgs : Table MsgKey (List Nat)
  stats : Table StatKey Nat
  tails : Table TailKey Nat
  infos : Table InfoKey Info
  pointers : Table Shard PtrValue

/-- storage/transaction.rs `write`, storage/mod.rs:256 `write(batch)`: all puts in order. -/
def Db.write (db : Db) (b : Batch) : Db :=
  { msgs := Table.putAll db.msgs b.msgs
    stats := Table.putAll db.stats b.stats
    tails := Table.putAll db.tails b.tails
    infos := Table.putAll db.infos b.infos
    pointers := Table.putAll db.pointers b.pointers }

/-- storage/transaction.rs:55-71 `insert_message`, the value: `dest.workchain() as i8 as u8`, the prefix, the
message. -/
def msgValue (ext : Ext Cell) (dst : IAddr) (c : Cell) : List Nat :=
  beBytes 1 (u8OfI8 dst.workchain) ++ (leBytes 8 (ext.pfx dst) ++ ext.boc c)

/-- state/storage.rs:391-416 `add_messages`. -/
def addMessages (ext : Ext Cell) (shard : Shard) (r : Router) (ms : List (Key × Enq Cell)) :
    List (MsgKey × List Nat) :=
  ms.map (fun e =>
    (⟨getPartition r (some e.2.info.src) e.2.info.dst, shard, e.1⟩, msgValue ext e.2.info.dst e.2.cell))

/-- state/storage.rs:419-453 `add_statistics`, over the statistics in iteration order. -/
def addStatistics (shard : Shard) (max : Key) : List ((Nat × IAddr) × Nat) → Option (List (StatKey × Nat))
  | [] => some []
  | e :: es =>
    match routerAddr e.1.2 with
    | none => none
    | some dest =>
      match addStatistics shard max es with
      | none => none
      | some l => some ((⟨shard, e.1.1, max, dest⟩, e.2) :: l)

/-- state/storage.rs:323-364 `prepare_diff`, 455-495 `add_diff_tail`, `add_diff_info`. -/
def prepareDiff (ext : Ext Cell) (o : Order) (shard : Shard) (seqno : Nat) (st : DiffStats)
    (hash : List Nat) (dm : DiffMsgs Cell) : Option Batch :=
  match addStatistics st.shard st.max (o.stats st.stats) with
  | none => none
  | some stats => some
    { msgs := addMessages ext shard dm.router dm.messages
      stats := stats
      tails := [(⟨shard, st.max⟩, seqno)]
      infos := [(⟨shard, seqno⟩,
        { min := st.min, max := st.max, counts := st.counts, hash := hash, processedTo := dm.processedTo
          src := toPartitions (o.routes dm.router.src), dst := toPartitions (o.routes dm.router.dst)
          seqno := seqno })]
      pointers := [] }

/-! ### The collator of the block -/

/-- What the collator has after it collated a block: new messages, the router, `processed_to`
(`get_min_processed_to_by_shards`, the same value in the diff and in the queue), the id of the block,
`start_lt` and `next_lt`. -/
structure Collated (Cell : Type) where
  dm : DiffMsgs Cell
  shard : Shard
  seqno : Nat
  prevHash : List Nat
  startLt : Nat
  nextLt : Nat

/-- do_collate/mod.rs:589-598 `min_message`. -/
def Collated.minMsg (b : Collated Cell) : Key :=
  match b.dm.messages.head? with
  | some e => e.1
  | none => minForLt b.startLt

/-- do_collate/mod.rs:589-598 `max_message`. -/
def Collated.maxMsg (b : Collated Cell) : Key :=
  match b.dm.messages.getLast? with
  | some e => e.1
  | none => maxForLt b.nextLt

/-- `Ord` of hashes, `a ≤ b`. -/
def hashLe (a b : List Nat) : Bool := !decide (b < a)

/-- do_collate/mod.rs:1575-1599 `serialize_diff`, block-util/src/queue/queue_diff.rs:32-61 the builder with
the sort of hashes; the hash of the bytes is put in the diff (queue_diff.rs:22-30). -/
def ownDiff (qext : QueueDiffTl.Ext) (o : Order) (b : Collated Cell) : Diff :=
  let d : Diff :=
    { hash := List.replicate 32 0
      prevHash := b.prevHash
      shard := b.shard
      seqno := b.seqno
      processedTo := b.dm.processedTo
      minMessage := b.minMsg
      maxMessage := b.maxMsg
      messages := (b.dm.messages.map (fun e => e.1.hash)).mergeSort hashLe
      partitionsSrc := toPartitions (o.routes b.dm.router.src)
      partitionsDst := toPartitions (o.routes b.dm.router.dst) }
  { d with hash := qext.fileHash (writeDiff qext d) }

/-- do_collate/mod.rs:1607-1652 `create_prepare_diff_task`. -/
def ownBatch (ext : Ext Cell) (qext : QueueDiffTl.Ext) (o : Order) (b : Collated Cell) : Option Batch :=
  prepareDiff ext o b.shard b.seqno (statsOfDiff b.dm b.shard b.minMsg b.maxMsg)
    (ownDiff qext o b).hash b.dm

/-! ### Another node -/

/-- manager/msgs_queue.rs:757-788 (and 570-607): the diff of a received block is prepared with the shard and
seqno of the block. -/
def otherBatch (ext : Ext Cell) (o : Order) (d : Diff) (lookup : List Nat → Option Cell) : Option Batch :=
  match fromQueueDiff ext d lookup with
  | none => none
  | some dm =>
    prepareDiff ext o d.shard d.seqno (statsOfDiff dm d.shard d.minMessage d.maxMessage) d.hash dm

/-! ### Import from a persistent state -/

/-- storage/mod.rs:92-99 the closure `get_partition`. -/
def firstPartition (ps : List (Nat × List Addr)) (a : Addr) : Option Nat :=
  match ps with
  | [] => none
  | p :: ps => if a ∈ p.2 then some p.1 else firstPartition ps a

/-- The variables of the import loop. -/
structure Import where
  batch : Batch
  /-- `statistics` -/
  stats : Table (Nat × Addr) Nat
  /-- `first_diff_read` -/
  first : Bool

/-- storage/mod.rs:121-182 one message: an error unless it is internal with standard addresses. -/
def importMsg (ext : Ext Cell) (blockShard : Shard) (d : Diff)
    (st : Import) (counts : Table Shard Nat) (c : Cell) : Option (Import × Table Shard Nat) :=
  match ext.parse c with
  | .int ⟨.std _ src, .std any dest, lt⟩ =>
    let partition := ((firstPartition d.partitionsDst dest).or (firstPartition d.partitionsSrc src)).getD 0
    some
      ({ st with
          batch := { st.batch with
            msgs := st.batch.msgs ++ [(⟨partition, blockShard, ⟨lt, ext.hash c⟩⟩,
              beBytes 1 (u8OfI8 dest.workchain) ++ (leBytes 8 (ext.pfx (.std any dest)) ++ ext.boc c))] }
          stats := bump st.stats (partition, dest) },
        bump counts (newFull dest.workchain))
  | _ => none

/-- storage/mod.rs:121-182 the loop over messages of a diff. -/
def importMsgs (ext : Ext Cell) (blockShard : Shard) (d : Diff) :
    List Cell → Import → Table Shard Nat → Option (Import × Table Shard Nat)
  | [], st, counts => some (st, counts)
  | c :: cs, st, counts =>
    match importMsg ext blockShard d st counts c with
    | none => none
    | some r => importMsgs ext blockShard d cs r.1 r.2

/-- storage/mod.rs:118-241 one diff with its messages. -/
def importDiff (ext : Ext Cell) (o : Order) (blockShard : Shard) (st : Import) (e : Diff × List Cell) :
    Option Import :=
  match importMsgs ext blockShard e.1 e.2 st [] with
  | none => none
  | some (st, counts) =>
    let d := e.1
    some
      { batch :=
          { msgs := st.batch.msgs
            stats := st.batch.stats ++
              (o.importStats st.stats).map (fun x => (⟨d.shard, x.1.1, d.maxMessage, x.1.2⟩, x.2))
            tails := st.batch.tails ++ [(⟨d.shard, d.maxMessage⟩, d.seqno)]
            infos := st.batch.infos ++ [(⟨d.shard, d.seqno⟩,
              { min := d.minMessage, max := d.maxMessage, counts := counts, hash := d.hash
                processedTo := d.processedTo, src := d.partitionsSrc, dst := d.partitionsDst
                seqno := d.seqno })]
            pointers := if st.first then st.batch.pointers
              else st.batch.pointers ++ [(d.shard, ⟨d.maxMessage, d.seqno⟩)] }
        stats := []
        first := true }

/-- storage/mod.rs:118-241 the loop over diffs, newest first. -/
def importDiffs (ext : Ext Cell) (o : Order) (blockShard : Shard) :
    List (Diff × List Cell) → Import → Option Import
  | [], st => some st
  | e :: es, st =>
    match importDiff ext o blockShard st e with
    | none => none
    | some st => importDiffs ext o blockShard es st

/-- storage/mod.rs:76-260 `import_from_file`, given the diffs and messages that the reader of the file
returns. The id of the last committed masterchain block is not modelled. -/
def importBatch (ext : Ext Cell) (o : Order) (blockShard : Shard) (ds : List (Diff × List Cell)) :
    Option Batch :=
  (importDiffs ext o blockShard ds ⟨Batch.empty, [], false⟩).map (·.batch)

/-! ### Reset of the router by statistics -/

/-- `ShardIdent::contains_address`: an interface (`Verif/CumulStats` likewise). -/
abbrev Contains := Shard → IAddr → Bool

/-- The top diff of another shard: its router and its statistics of partition 0, `none` if there are none. -/
structure Remote where
  router : Router
  par0 : Option (Table IAddr Nat)

/-- messages_reader/mod.rs:601-668 `total_msgs` or the partition of the remote shard. -/
inductive Verdict where
  | remote (p : Nat)
  | total (n : Nat)

/-- messages_reader/mod.rs:602-668: the first shard in iteration order that contains the address. -/
def remoteVerdict (contains : Contains) (others : List (Shard × Remote)) (a : IAddr) (n : Nat) : Verdict :=
  match others.find? (fun x => contains x.1 a) with
  | none => .total n
  | some x =>
    if getPartition x.2.router none a ≠ 0 then .remote (getPartition x.2.router none a)
    else match x.2.par0 with
      | none => .total (n + 0)
      | some t => .total (n + (Table.get t a).getD 0)

/-- messages_reader/mod.rs:576-679 one account with its number of messages. -/
def resetOne (contains : Contains) (limit : Nat) (me : Shard) (others : List (Shard × Remote))
    (st : Router × List IAddr) (e : IAddr × Nat) : Option (Router × List IAddr) :=
  if getPartition st.1 none e.1 ≠ 0 then some st
  else if contains me e.1 then
    if e.2 > limit then (insertDst st.1 e.1 1).map (fun r => (r, st.2 ++ [e.1]))
    else some st
  else match remoteVerdict contains others e.1 e.2 with
    | .remote p => (insertDst st.1 e.1 p).map (fun r => (r, st.2))
    | .total n =>
      if n > limit then (insertDst st.1 e.1 1).map (fun r => (r, st.2 ++ [e.1]))
      else some st

/-- messages_reader/mod.rs:564-682 `reset_partition_router_by_stats`: the statistics in iteration order. The
second result lists the accounts moved from partition 0 (the code keeps the account id only). -/
def resetRouter (contains : Contains) (limit : Nat) (me : Shard) (others : List (Shard × Remote)) :
    List (IAddr × Nat) → Router × List IAddr → Option (Router × List IAddr)
  | [], st => some st
  | e :: es, st =>
    match resetOne contains limit me others st e with
    | none => none
    | some st => resetRouter contains limit me others es st

end Tycho.QueueFill
