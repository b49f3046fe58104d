import Verif.Common.Table
import Verif.QueueKey.Model

/-!
Model of the internal messages queue: `collator/src/internal_queue/queue.rs` (`QueueImpl`),
`collator/src/internal_queue/state/storage.rs` (`QueueStateStdImpl`), `collator/src/storage/transaction.rs`,
`collator/src/storage/snapshot.rs`, `collator/src/internal_queue/gc.rs`, `collator/src/internal_queue/types/router.rs`
(`get_partition`), `collator/src/internal_queue/types/stats.rs` (`DiffStatistics::from_diff`).

A `QueueKey` is its rank, a `Nat` (`Tycho.QueueKey.lt_iff_val`, `val_inj`: the rank is an order isomorphism, and the
stored bytes are ordered like the keys). Each RocksDB column family is a `Table`; a write batch is applied atomically.
Storage errors of RocksDB itself are not modelled. `RouterAddr` is stored as one byte `workchain as u8` and 32 bytes, so
inside one (shard, partition, key) prefix statistics are ordered by `Dest.rank`.
-/
namespace Tycho.Queue
open Tycho.Table

/-- Rank of a `QueueKey`. -/
scoped notation "QKey" => Nat
abbrev Part := Nat
abbrev Shard := Tycho.QueueKey.Shard

/-- Rank of `QueueKey::MAX` (proto.rs:174-177): 8 + 32 bytes of ones. -/
def keyMax : QKey := 2 ^ 320 - 1

/-- proto.rs:194-225 `next_value`, which stays at `MAX` (`Tycho.QueueKey.nextValue_spec`). -/
def nextValue (k : QKey) : QKey := if k = keyMax then keyMax else k + 1

/-- `RouterAddr`: `i8` workchain and the account as a 256-bit number. -/
structure Dest where
  workchain : Int
  account : Nat
deriving DecidableEq

/-- proto.rs:397-400 stored order of a `RouterAddr`: `workchain as u8`, then the account bytes. -/
def Dest.rank (d : Dest) : Nat := (d.workchain % 256).toNat * 2 ^ 256 + d.account

/-- proto.rs:319-322 `RouterAddr::MIN`. -/
def Dest.MIN : Dest := ⟨-128, 0⟩
/-- proto.rs:324-327 `RouterAddr::MAX`. -/
def Dest.MAX : Dest := ⟨127, 2 ^ 256 - 1⟩

/-- `IntAddr`. -/
inductive IntAddr
  | std (d : Dest)
  | var (workchain : Int) (id : Nat)
deriving DecidableEq

/-- proto.rs:340-345 `RouterAddr::from_int_addr` (anycast is dropped by `From<&StdAddr>`). -/
def IntAddr.router : IntAddr → Option Dest
  | .std d => some d
  | .var _ _ => none

/-- A stored message: source, destination and the rest of the cell. -/
structure Msg where
  src : IntAddr
  dst : IntAddr
  body : Nat
deriving DecidableEq

/-- router.rs:9-13 `PartitionRouter` (the partition counters are not used here). -/
structure Router where
  src : Table Dest Part
  dst : Table Dest Part
deriving DecidableEq

/-- router.rs:40-56 `get_partition`: by destination, else by source, else the default partition 0. -/
def Router.partition (r : Router) (src dst : IntAddr) : Part :=
  match dst.router.bind (get r.dst) with
  | some p => p
  | none => match src.router.bind (get r.src) with
    | some p => p
    | none => 0

/-- diff.rs:15-19 `QueueDiffWithMessages` together with the bounds passed to `DiffStatistics`. `msgs` is a `BTreeMap`:
ascending distinct keys (`Diff.Ordered`). -/
structure Diff where
  msgs : List (QKey × Msg)
  processedTo : Table Shard QKey
  router : Router
deriving DecidableEq

/-- Entries of a `BTreeMap` in iteration order. -/
def Diff.Ordered (d : Diff) : Prop := d.msgs.Pairwise (fun a b => a.1 < b.1)

/-- diff.rs:30-32 `min_message`. -/
def Diff.minMessage (d : Diff) : Option QKey := d.msgs.head?.map (·.1)

/-- stats.rs:390-396 `DiffStatisticsInner`; the counts of one (partition, address). -/
structure Stats where
  shard : Shard
  minMessage : QKey
  maxMessage : QKey
  counts : Table (Part × IntAddr) Nat
deriving DecidableEq

/-- `*entry.or_insert(0) += 1`. -/
def bump {κ : Type} [DecidableEq κ] (t : Table κ Nat) (k : κ) : Table κ Nat :=
  put t k ((match get t k with | some n => n | none => 0) + 1)

/-- stats.rs:340-387 `DiffStatistics::from_diff` (the per-shard totals are not used here). -/
def statsOf (d : Diff) (shard : Shard) (minM maxM : QKey) : Stats :=
  { shard, minMessage := minM, maxMessage := maxM,
    counts := d.msgs.foldl (fun t m => bump t (d.router.partition m.2.src m.2.dst, m.2.dst)) [] }

/-- models.rs:227-237 `DiffInfo` (the per-shard message counts are left out). -/
structure Info where
  minMessage : QKey
  maxMessage : QKey
  hash : Nat
  processedTo : Table Shard QKey
  router : Router
  seqno : Nat
deriving DecidableEq

/-- The column families of the queue database: tables.rs; `lastMc` is the seqno under `last_committed_mc_block_id`. -/
structure DB where
  msgs : Table (Part × Shard × QKey) Msg
  stats : Table (Shard × Part × QKey × Dest) Nat
  tails : Table (Shard × QKey) Nat
  infos : Table (Shard × Nat) Info
  ptrs : Table Shard (QKey × Nat)
  lastMc : Option Nat
deriving DecidableEq

/-- The empty database. -/
def DB.empty : DB := ⟨[], [], [], [], [], none⟩

/-- diff.rs:82-87 `DiffZone`. -/
inductive Zone
  | committed | uncommitted | both
deriving DecidableEq

/-- storage.rs:267-315 `get_diff_info`. -/
def getInfo (db : DB) (s : Shard) (seqno : Nat) (z : Zone) : Option Info :=
  match get db.infos (s, seqno) with
  | none => none
  | some i => match z with
    | .both => some i
    | .committed => match get db.ptrs s with
      | some p => if p.1 < i.maxMessage then none else some i
      | none => none
    | .uncommitted => match get db.ptrs s with
      | some p => if i.maxMessage ≤ p.1 then none else some i
      | none => some i

/-- `u32::MAX` -/
def u32Max : Nat := 4294967295

/-- The greater of two seqnos. -/
def maxSeq (acc : Option Nat) (n : Nat) : Option Nat := match acc with
  | none => some n
  | some m => some (max m n)

/-- snapshot.rs:37-68 `get_last_applied_diff_seqno`: the greatest stored seqno of the shard below `u32::MAX`
(the upper bound of the iterator is exclusive). -/
def lastApplied (db : DB) (s : Shard) : Option Nat :=
  (db.infos.filter (fun e => decide (e.1.1 = s) && decide (e.1.2 < u32Max))).foldl (fun acc e => maxSeq acc e.1.2) none

/-- A prepared write batch (`InternalQueueTransaction`) of one diff. -/
structure Tx where
  shard : Shard
  msgs : List ((Part × Shard × QKey) × Msg)
  stats : List ((Shard × Part × QKey × Dest) × Nat)
  tail : (Shard × QKey) × Nat
  info : (Shard × Nat) × Info
deriving DecidableEq

/-- storage.rs:425-435: the entry of one count; `none` for an address that is not a standard one. -/
def statPut (st : Stats) (e : (Part × IntAddr) × Nat) : Option ((Shard × Part × QKey × Dest) × Nat) :=
  match e.1.2.router with
  | some d => some ((st.shard, e.1.1, st.maxMessage, d), e.2)
  | none => none

/-- storage.rs:414-448 `add_statistics`: an error if some counted address is not a standard one. -/
def statPuts (st : Stats) : Option (List ((Shard × Part × QKey × Dest) × Nat)) := st.counts.mapM (statPut st)

/-- storage.rs:320-362 `QueueStateStdImpl::prepare_diff`, 389-411 `add_messages`, 450-496. -/
def buildTx (s : Shard) (seqno : Nat) (st : Stats) (hash : Nat) (d : Diff) : Option Tx :=
  match statPuts st with
  | none => none
  | some stats => some
    { shard := s
      msgs := d.msgs.map (fun m => ((d.router.partition m.2.src m.2.dst, s, m.1), m.2))
      stats := stats
      tail := ((s, st.maxMessage), seqno)
      info := ((s, seqno), { minMessage := st.minMessage, maxMessage := st.maxMessage, hash := hash,
                             processedTo := d.processedTo, router := d.router, seqno := seqno }) }

/-- transaction.rs:29-34 `write`: the batch is written atomically. -/
def DB.write (db : DB) (tx : Tx) : DB :=
  { db with
    msgs := putAll db.msgs tx.msgs
    stats := putAll db.stats tx.stats
    tails := put db.tails tx.tail.1 tx.tail.2
    infos := put db.infos tx.info.1 tx.info.2 }

/-- What `prepare_diff` answers. -/
inductive Prepared
  | error
  | already
  | ready (tx : Tx)
deriving DecidableEq

/-- queue.rs:257-289: the sequence check; `none` = passed. -/
def seqCheck (db : DB) (s : Shard) (seqno : Nat) (check : Option Zone) : Option Prepared :=
  match check with
  | none => none
  | some z => match lastApplied db s with
    | none => none
    | some last => match getInfo db s last z with
      | none => none
      | some li =>
        if seqno ≤ li.seqno then some .already
        else if seqno ≠ li.seqno + 1 then some .error
        else none

/-- queue.rs:291-304: messages at or below the commit pointer. -/
def belowPointer (db : DB) (s : Shard) (d : Diff) : Bool :=
  match get db.ptrs s with
  | none => false
  | some p => match d.minMessage with
    | none => false
    | some m => decide (m ≤ p.1)

/-- queue.rs:221-316 `prepare_diff` (the locks are in `Sys`). -/
def prepare (db : DB) (d : Diff) (s : Shard) (seqno : Nat) (hash : Nat) (st : Stats) (check : Option Zone) :
    Prepared :=
  match getInfo db s seqno .both with
  | some i => if i.hash ≠ hash then .error else .already
  | none => match seqCheck db s seqno check with
    | some r => r
    | none =>
      if belowPointer db s d then .error
      else match buildTx s seqno st hash d with
        | none => .error
        | some tx => .ready tx

/-- queue.rs:318-334 `apply_diff`: `none` = an error was returned. -/
def apply (db : DB) (d : Diff) (s : Shard) (seqno : Nat) (hash : Nat) (st : Stats) (check : Option Zone) : Option DB :=
  match prepare db d s seqno hash st check with
  | .error => none
  | .already => some db
  | .ready tx => some (db.write tx)

/-- types: `TopBlockIdUpdated`: the block, whether it changed since the previous masterchain block, and the masterchain
block that references it. -/
structure Top where
  shard : Shard
  seqno : Nat
  updated : Bool
  refByMc : Nat
deriving DecidableEq

/-- `ShardIdent::is_masterchain`. -/
def isMc (s : Shard) : Bool := decide (s.workchain = -1)

/-- Accumulator of the loop queue.rs:368-416: new commit pointers and GC end keys. -/
structure CommitAcc where
  ptrs : Table Shard (QKey × Nat)
  gc : Table Shard QKey
deriving DecidableEq

/-- queue.rs:401-415: take the smaller `processed_to`. -/
def gcMin (gc : Table Shard QKey) (e : Shard × QKey) : Table Shard QKey :=
  match get gc e.1 with
  | some old => if e.2 < old then put gc e.1 e.2 else gc
  | none => put gc e.1 e.2

/-- queue.rs:368-416: one top block; `none` = error. -/
def commitTop (zs : Nat) (db : DB) (acc : CommitAcc) (b : Top) : Option CommitAcc :=
  match getInfo db b.shard b.seqno .both with
  | none => if b.updated && decide (zs < b.refByMc) then none else some acc
  | some i => match get acc.ptrs b.shard with
    | some _ => none
    | none => some { ptrs := put acc.ptrs b.shard (i.maxMessage, i.seqno), gc := i.processedTo.foldl gcMin acc.gc }

/-- The loop over the top blocks. -/
def commitTops (zs : Nat) (db : DB) : CommitAcc → List Top → Option CommitAcc
  | acc, [] => some acc
  | acc, b :: bs => match commitTop zs db acc b with
    | none => none
    | some acc => commitTops zs db acc bs

/-- gc.rs: `delete_until`: end key per (partition, shard). -/
abbrev Until := Table (Part × Shard) QKey

/-- queue.rs:428-433 with gc.rs:58-70 `update_delete_until`. -/
def updateUntil (u : Until) (gc : Table Shard QKey) (parts : List Part) : Until :=
  gc.foldl (fun u e => parts.foldl (fun u p => put u (p, e.1) e.2) u) u

/-- queue.rs:356-367: the masterchain pointer is already at or past this masterchain block. -/
def committedBy (db : DB) (mc : Top) : Bool :=
  match get db.ptrs mc.shard with
  | some p => decide (mc.seqno ≤ p.2)
  | none => false

/-- queue.rs:336-437 `commit_diff`: `none` = error, nothing changed. -/
def commit (zs : Nat) (db : DB) (u : Until) (tops : List Top) (parts : List Part) : Option (DB × Until) :=
  match tops.find? (fun b => isMc b.shard) with
  | none => none
  | some mc =>
    if committedBy db mc then some (db, u)
    else match commitTops zs db ⟨[], []⟩ tops with
      | none => none
      | some acc => some ({ db with ptrs := putAll db.ptrs acc.ptrs, lastMc := some mc.seqno },
                          updateUntil u acc.gc parts)

/-- models.rs:215-221 `QueueRange`. -/
structure Range where
  shard : Shard
  part : Part
  lo : QKey
  hi : QKey
deriving DecidableEq

/-- `delete_range_cf(lo, hi)` (half-open) and `delete_cf(hi)`, transaction.rs:376-388. -/
def inDel (lo hi k : Nat) : Bool := (decide (lo ≤ k) && decide (k < hi)) || decide (k = hi)

/-- transaction.rs:376-388 on statistics keys, with the least and the greatest `RouterAddr` in the bounds (185-197):
lexicographic order of (max message, stored address). -/
def inDelStat (lo hi : QKey) (k : QKey) (d : Dest) : Bool :=
  ((decide (lo < k) || (decide (k = lo) && decide (Dest.MIN.rank ≤ d.rank))) &&
   (decide (k < hi) || (decide (k = hi) && decide (d.rank < Dest.MAX.rank))))
  || (decide (k = hi) && decide (d = Dest.MAX))

/-- transaction.rs:357-363. -/
def minMaxSeq (acc : Nat × Nat) (n : Nat) : Nat × Nat :=
  (if n < acc.1 then n else acc.1, if acc.2 < n then n else acc.2)

/-- transaction.rs:309-374 `delete_diff_tails_and_collect_seqno`: least and greatest seqno of the tails in the range,
read from the snapshot. -/
def tailSeqnos (db : DB) (r : Range) : Nat × Nat :=
  (db.tails.filter (fun e => decide (e.1.1 = r.shard) && decide (r.lo ≤ e.1.2) && decide (e.1.2 ≤ r.hi))).foldl
    (fun acc e => minMaxSeq acc e.2) (u32Max, 0)

/-- One range of `delete` with the seqno bounds found in the snapshot: transaction.rs:156-277. -/
structure Del where
  range : Range
  seqnos : Option (Nat × Nat)
deriving DecidableEq

/-- transaction.rs:156-277: the batch is built from one snapshot. -/
def planDel (db : DB) (r : Range) : Del :=
  let mm := tailSeqnos db r
  { range := r, seqnos := if mm.1 ≠ u32Max ∧ mm.2 ≠ 0 then some mm else none }

/-- transaction.rs:279-280: writing the deletions of one range. -/
def execDel (db : DB) (d : Del) : DB :=
  let r := d.range
  { db with
    msgs := del db.msgs (fun k => decide (k.1 = r.part) && decide (k.2.1 = r.shard) && inDel r.lo r.hi k.2.2)
    stats := del db.stats (fun k => decide (k.1 = r.shard) && decide (k.2.1 = r.part) && inDelStat r.lo r.hi k.2.2.1 k.2.2.2)
    tails := del db.tails (fun k => decide (k.1 = r.shard) && inDel r.lo r.hi k.2)
    infos := match d.seqnos with
      | none => db.infos
      | some mm => del db.infos (fun k => decide (k.1 = r.shard) && inDel mm.1 mm.2 k.2) }

/-- transaction.rs:156-298 `delete` without interruption. -/
def delete (db : DB) (rs : List Range) : DB := (rs.map (planDel db)).foldl execDel db

/-- transaction.rs:113-154 `clear_uncommitted`: the ranges. -/
def clearRanges (db : DB) (parts : List Part) (topShards : List Shard) : List Range :=
  db.ptrs.flatMap (fun p => parts.map (fun q => ⟨p.1, q, nextValue p.2.1, keyMax⟩)) ++
  (topShards.filter (fun s => (get db.ptrs s).isNone)).flatMap (fun s => parts.map (fun q => ⟨s, q, 0, keyMax⟩))

/-- queue.rs:439-447 `clear_uncommitted_state`, storage.rs:364-375. -/
def clear (db : DB) (parts : List Part) (topShards : List Shard) : DB := delete db (clearRanges db parts topShards)

/-- snapshot.rs:107-131 `calc_diffs_tail`: the tails of the shard in `[from, MAX)`. -/
def tailLen (db : DB) (s : Shard) (lo : QKey) : Nat :=
  (db.tails.filter (fun e => decide (e.1.1 = s) && decide (lo ≤ e.1.2) && decide (e.1.2 < keyMax))).length

/-- snapshot.rs:150-201 `collect_stats_in_range`: the sum over the statistics with `lo ≤ max_message < hi` (the bounds
are prefixes without the address) of one destination. -/
def statsIn (db : DB) (s : Shard) (p : Part) (lo hi : QKey) (d : Dest) : Nat :=
  ((db.stats.filter (fun e => decide (e.1.1 = s) && decide (e.1.2.1 = p) && decide (lo ≤ e.1.2.2.1) &&
      decide (e.1.2.2.1 < hi) && decide (e.1.2.2.2 = d))).map (·.2)).sum

/-- `QueueImpl` with its locks and the GC worker. `pend`: prepared diffs not yet written (each holds the global lock
shared and the lock of its shard, queue.rs:230-240); `work`/`exec`/`flight`: the GC task (gc.rs:80-131) with the rest of
its copy of `until`, the keys already executed and a batch built but not written. -/
structure Sys where
  db : DB
  until_ : Until
  pend : List Tx
  work : Until
  exec : Until
  flight : Option Del
deriving DecidableEq

def Sys.init : Sys := ⟨.empty, [], [], [], [], none⟩

/-- Calls and background steps. -/
inductive Op
  /-- `prepare_diff` -/
  | prepare (d : Diff) (s : Shard) (seqno hash : Nat) (st : Stats) (check : Option Zone)
  /-- `PendingQueueDiff::write` -/
  | write (s : Shard)
  /-- the pending diff is dropped unwritten -/
  | drop (s : Shard)
  | commit (tops : List Top) (parts : List Part)
  | clear (parts : List Part) (topShards : List Shard)
  /-- gc.rs:38: the worker copies `delete_until` -/
  | gcTick
  /-- gc.rs:90-114: the next entry is examined and its batch built -/
  | gcPlan
  /-- gc.rs:114: the batch is written -/
  | gcWrite
  /-- gc.rs:115: the deletion failed; the key is recorded as executed anyway -/
  | gcFail
  /-- the process stops at this point and starts again with the database as it is -/
  | restart

/-- queue.rs:230-316 under the locks: waits (no change) while another diff of the shard is prepared. -/
def doPrepare (σ : Sys) (d : Diff) (s : Shard) (seqno hash : Nat) (st : Stats) (check : Option Zone) : Sys :=
  if σ.pend.any (fun t => decide (t.shard = s)) then σ
  else match prepare σ.db d s seqno hash st check with
    | .ready tx => { σ with pend := tx :: σ.pend }
    | _ => σ

/-- queue.rs:33-50 `PendingQueueDiff::write`: the batch is written and the locks are released. -/
def doWrite (σ : Sys) (s : Shard) : Sys :=
  match σ.pend.find? (fun t => decide (t.shard = s)) with
  | none => σ
  | some tx => { σ with db := σ.db.write tx, pend := σ.pend.filter (fun t => !decide (t.shard = s)) }

/-- queue.rs:336-437; the global write lock waits for all prepared diffs. -/
def doCommit (zs : Nat) (σ : Sys) (tops : List Top) (parts : List Part) : Sys :=
  if σ.pend ≠ [] then σ
  else match commit zs σ.db σ.until_ tops parts with
    | none => σ
    | some r => { σ with db := r.1, until_ := r.2 }

/-- queue.rs:439-447; the global write lock waits for all prepared diffs. -/
def doClear (σ : Sys) (parts : List Part) (tops : List Shard) : Sys :=
  if σ.pend ≠ [] then σ else { σ with db := clear σ.db parts tops }

/-- gc.rs:92-97 `can_delete`. -/
def canDelete (exec : Until) (e : (Part × Shard) × QKey) : Bool :=
  match get exec e.1 with
  | none => true
  | some last => decide (last < e.2)

/-- gc.rs:90-128: the next entry of the worker's copy. -/
def doGcPlan (σ : Sys) : Sys :=
  match σ.work with
  | [] => σ
  | e :: rest =>
    if σ.flight ≠ none then σ
    else if canDelete σ.exec e then
      { σ with work := rest, exec := put σ.exec e.1 e.2, flight := some (planDel σ.db ⟨e.1.2, e.1.1, 0, e.2⟩) }
    else { σ with work := rest }

/-- gc.rs:114 with transaction.rs:279-280. -/
def doGcWrite (σ : Sys) : Sys :=
  match σ.flight with
  | none => σ
  | some d => { σ with db := execDel σ.db d, flight := none }

/-- gc.rs:35-50: the next tick, after the previous task has ended. -/
def doGcTick (σ : Sys) : Sys :=
  if σ.work = [] ∧ σ.flight = none then { σ with work := σ.until_ } else σ

/-- One step under the locks. An operation that has to wait for a lock leaves the state as it is; so does one that
returns an error. -/
def step (zs : Nat) (σ : Sys) : Op → Sys
  | .prepare d s seqno hash st check => doPrepare σ d s seqno hash st check
  | .write s => doWrite σ s
  | .drop s => { σ with pend := σ.pend.filter (fun t => !decide (t.shard = s)) }
  | .commit tops parts => doCommit zs σ tops parts
  | .clear parts tops => doClear σ parts tops
  | .gcTick => doGcTick σ
  | .gcPlan => doGcPlan σ
  | .gcWrite => doGcWrite σ
  | .gcFail => { σ with flight := none }
  | .restart => { Sys.init with db := σ.db }

/-- A history. -/
def run (zs : Nat) (σ : Sys) (ops : List Op) : Sys := ops.foldl (step zs) σ

end Tycho.Queue
