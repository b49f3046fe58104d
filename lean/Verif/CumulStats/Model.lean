import Verif.Common.Table

/-!
Model of the statistics of the internal messages queue kept by a collator:
`collator/src/internal_queue/types/stats.rs` (`QueueStatistics`), `collator/src/collator/statistics/queue.rs`
(`TrackedQueueStatistics`) and `collator/src/collator/statistics/cumulative.rs` (`CumulativeStatistics`).

Simplifications: addresses, shards, partitions and queue keys are numbers (a queue key stands for its position in the order of
keys); `ShardIdent::contains_address` is a parameter; counters are unbounded; a panic (a failed assertion, an `expect`, a
subtraction below zero) is `none`. The nested maps of diffs are a flat list of diffs (an inner map that is empty has no effect),
`ProcessedToByPartitions` is a table with the key (partition, source shard). A hash map is iterated in the order of the list that
stands for it, the theorems hold for any order. The handle of the remaining statistics that is shared with the readers is the
operation `read`.
-/
namespace Tycho.CumulStats
open Tycho.Table

/-- What the statistics depend on: which addresses a shard contains and the shard of the collator (`for_shard`). -/
structure Env where
  contains : Nat → Nat → Bool
  own : Nat

/-- stats.rs:12 `AccountStatistics`. -/
abbrev Accounts := Table Nat Nat

/-! ### `QueueStatistics` -/

/-- stats.rs:17-21 `QueueStatistics`. -/
structure QStats where
  base : Accounts
  tx : Option Accounts
deriving DecidableEq, Repr

/-- `QueueStatistics::default`. -/
def QStats.empty : QStats := ⟨[], none⟩

/-- stats.rs:24-30 `begin`. -/
def QStats.begin (q : QStats) : Option QStats := match q.tx with
  | some _ => none
  | none => some { q with tx := some [] }

/-- stats.rs:38-44 the body of the loop of `commit`. -/
def commitEntry (base : Accounts) (e : Nat × Nat) : Accounts :=
  if e.2 = 0 then del base (fun k => decide (k = e.1)) else put base e.1 e.2

/-- stats.rs:32-45 `commit`. -/
def QStats.commit (q : QStats) : Option QStats := match q.tx with
  | none => none
  | some t => some ⟨t.foldl commitEntry q.base, none⟩

/-- stats.rs:47-51 `rollback`. -/
def QStats.rollback (q : QStats) : Option QStats := match q.tx with
  | none => none
  | some _ => some ⟨q.base, none⟩

/-- stats.rs:53-55 `in_tx`. -/
def QStats.inTx (q : QStats) : Bool := q.tx.isSome

/-- stats.rs:81-127 `decrement_for_account`. -/
def QStats.decrement (q : QStats) (a n : Nat) : Option QStats := match q.tx with
  | some t => match get t a with
    | some cur => if cur < n then none else some { q with tx := some (put t a (cur - n)) }
    | none => match get q.base a with
      | none => none
      | some cur => if cur < n then none else some { q with tx := some (put t a (cur - n)) }
  | none => match get q.base a with
    | none => none
    | some cur =>
      if cur < n then none
      else if cur - n = 0 then some { q with base := del q.base (fun k => decide (k = a)) }
      else some { q with base := put q.base a (cur - n) }

/-- stats.rs:129-148 `increment_for_account`. -/
def QStats.increment (q : QStats) (a n : Nat) : QStats := match q.tx with
  | some t => match get t a with
    | some cur => { q with tx := some (put t a (cur + n)) }
    | none => { q with tx := some (put t a ((get q.base a).getD 0 + n)) }
  | none => match get q.base a with
    | some cur => { q with base := put q.base a (cur + n) }
    | none => { q with base := put q.base a n }

/-- stats.rs:150-154 `append`. -/
def QStats.append (q : QStats) (l : Accounts) : QStats := l.foldl (fun q e => q.increment e.1 e.2) q

/-- stats.rs:163-171 `StatisticsView::get`. -/
def QStats.get (q : QStats) (a : Nat) : Option Nat := match q.tx.bind (Table.get · a) with
  | some v => if v > 0 then some v else none
  | none => match Table.get q.base a with
    | some v => if v > 0 then some v else none
    | none => none

/-- stats.rs:197-225 `StatisticsViewIter`: what it gives, in order. -/
def QStats.iter (q : QStats) : List (Nat × Nat) := match q.tx with
  | some t => t.filter (fun e => decide (e.2 > 0)) ++
      q.base.filter (fun e => (Table.get t e.1).isNone && decide (e.2 > 0))
  | none => q.base.filter (fun e => decide (e.2 > 0))

/-! ### `TrackedQueueStatistics` -/

/-- queue.rs:9-20 `TrackedQueueStatistics`. -/
structure Tracked where
  q : QStats
  total : Nat
  snapshot : Nat
deriving DecidableEq, Repr

/-- queue.rs:23-28 `new`. -/
def Tracked.new : Tracked := ⟨.empty, 0, 0⟩

/-- queue.rs:54-63 `append`. -/
def Tracked.append (env : Env) (t : Tracked) (l : Accounts) : Tracked :=
  { t with total := l.foldl (fun n e => if env.contains env.own e.1 then n + e.2 else n) t.total, q := t.q.append l }

/-- queue.rs:67-71 `begin`. -/
def Tracked.begin (t : Tracked) : Option Tracked := t.q.begin.map fun q => { t with q := q, snapshot := t.total }

/-- queue.rs:73-75 `commit`. -/
def Tracked.commit (t : Tracked) : Option Tracked := t.q.commit.map fun q => { t with q := q }

/-- queue.rs:77-81 `rollback`. -/
def Tracked.rollback (t : Tracked) : Option Tracked := t.q.rollback.map fun q => { t with q := q, total := t.snapshot }

/-- queue.rs:103-111 `decrement_for_account` of the write guard. -/
def Tracked.decrement (env : Env) (t : Tracked) (a n : Nat) : Option Tracked := match t.q.decrement a n with
  | none => none
  | some q => if env.contains env.own a then
      if t.total < n then none else some { t with q := q, total := t.total - n }
    else some { t with q := q }

/-! ### `CumulativeStatistics` -/

/-- `ProcessedToByPartitions`: (partition, source shard) to queue key. -/
abbrev ProcTo := Table (Nat × Nat) Nat

/-- cumulative.rs:29-33 `QueueStatisticsWithRemaning`. -/
structure Entry where
  initial : QStats
  remaining : Tracked
deriving DecidableEq, Repr

/-- cumulative.rs:336-339 a new entry. -/
def Entry.new : Entry := ⟨.empty, .new⟩

/-- What identifies a diff: source shard, partition, max message. -/
structure DiffId where
  src : Nat
  part : Nat
  key : Nat
deriving DecidableEq, Repr

/-- One entry of the maps of cumulative.rs:63-66 `shards_stats_by_partitions`. -/
structure Diff where
  id : DiffId
  stats : Accounts
deriving DecidableEq, Repr

/-- cumulative.rs:35-51 `CumulativeStatisticsTx`. -/
structure Tx where
  added : List DiffId
  newParts : List Nat
  proc : Table Nat (Bool × ProcTo)
  updates : Table Nat ProcTo
  staged : List (Nat × DiffId)
deriving DecidableEq, Repr

/-- cumulative.rs:53-73 `CumulativeStatistics`, without `for_shard`. -/
structure Cum where
  proc : Table Nat (Bool × ProcTo)
  diffs : List Diff
  result : Table Nat Entry
  tx : Option Tx
deriving DecidableEq, Repr

/-- cumulative.rs:161-176 `new`. -/
def Cum.new (proc : Table Nat (Bool × ProcTo)) : Cum := ⟨proc, [], [], none⟩

/-- A change of the value of an existing key in place. -/
def modify (t : Table Nat Entry) (p : Nat) (f : Entry → Option Entry) : Option (Table Nat Entry) := match t with
  | [] => some []
  | x :: t => if x.1 = p then (f x.2).map (fun e => (p, e) :: t) else (modify t p f).map (x :: ·)

/-- `result.entry(partition).or_insert_with(..)`: the table with the entry. -/
def ensure (t : Table Nat Entry) (p : Nat) : Table Nat Entry := if (get t p).isSome then t else t ++ [(p, .new)]

/-- A function that may panic for all values of a table. -/
def mapAll (f : Entry → Option Entry) : Table Nat Entry → Option (Table Nat Entry)
  | [] => some []
  | x :: t => match f x.2 with
    | none => none
    | some e => (mapAll f t).map ((x.1, e) :: ·)

/-- cumulative.rs:88-91 `begin` of an entry. -/
def Entry.begin (e : Entry) : Option Entry := match e.initial.begin with
  | none => none
  | some i => e.remaining.begin.map fun r => ⟨i, r⟩

/-- cumulative.rs:76-92 `begin`. -/
def Cum.begin (c : Cum) : Option Cum := match c.tx with
  | some _ => none
  | none => (mapAll Entry.begin c.result).map fun r => { c with result := r, tx := some ⟨[], [], c.proc, [], []⟩ }

/-- cumulative.rs:100-107 `commit` of an entry. -/
def Entry.commit (e : Entry) : Option Entry :=
  match if e.initial.inTx then e.initial.commit else some e.initial with
  | none => none
  | some i => (if e.remaining.q.inTx then e.remaining.commit else some e.remaining).map fun r => ⟨i, r⟩

/-- cumulative.rs:127-134 `rollback` of an entry. -/
def Entry.rollback (e : Entry) : Option Entry :=
  match if e.initial.inTx then e.initial.rollback else some e.initial with
  | none => none
  | some i => (if e.remaining.q.inTx then e.remaining.rollback else some e.remaining).map fun r => ⟨i, r⟩

/-- cumulative.rs:15-23 `ProcessMode`. -/
inductive Mode where
  | staged
  | immediate
  | commitRetainOnly
deriving DecidableEq, Repr

/-- cumulative.rs:405-416 the loop over the accounts of a diff. -/
def decAll (env : Env) (dst : Nat) (e : Entry) : Accounts → Option Entry
  | [] => some e
  | x :: l => if env.contains dst x.1 then
      match e.initial.decrement x.1 x.2 with
      | none => none
      | some i => if env.own = dst then decAll env dst { e with initial := i } l
        else match e.remaining.decrement env x.1 x.2 with
          | none => none
          | some r => decAll env dst ⟨i, r⟩ l
    else decAll env dst e l

/-- cumulative.rs:373-420 the body of the loops over diffs. -/
def processOne (env : Env) (dst : Nat) (pt : ProcTo) (mode : Mode) (st : Table Nat Entry × List (Nat × DiffId)) (d : Diff) :
    Option ((Table Nat Entry × List (Nat × DiffId)) × Diff) := match get pt (d.id.part, d.id.src) with
  | none => some (st, d)
  | some toKey =>
    if d.id.key ≤ toKey then
      if mode = .staged ∧ (dst, d.id) ∈ st.2 then some (st, d)
      else
        let staged := if mode = .staged then (dst, d.id) :: st.2 else st.2
        let result := if mode = .commitRetainOnly then some st.1
          else modify (ensure st.1 d.id.part) d.id.part (fun e => decAll env dst e d.stats)
        result.map fun r =>
          ((r, staged), if mode = .staged then d else { d with stats := d.stats.filter (fun x => !env.contains dst x.1) })
    else some (st, d)

/-- cumulative.rs:371-421 the loops over diffs. -/
def processLoop (env : Env) (dst : Nat) (pt : ProcTo) (mode : Mode) (st : Table Nat Entry × List (Nat × DiffId)) :
    List Diff → Option ((Table Nat Entry × List (Nat × DiffId)) × List Diff)
  | [] => some (st, [])
  | d :: ds => match processOne env dst pt mode st d with
    | none => none
    | some (st, d) => (processLoop env dst pt mode st ds).map fun r => (r.1, d :: r.2)

/-- cumulative.rs:421-432 removal of empty diffs: only for partitions and sources that are in `processed_to`. -/
def dropEmpty (pt : ProcTo) (ds : List Diff) : List Diff :=
  ds.filter (fun d => (get pt (d.id.part, d.id.src)).isNone || !d.stats.isEmpty)

/-- cumulative.rs:358-433 `process_processed_to_update`. -/
def process (env : Env) (dst : Nat) (pt : ProcTo) (mode : Mode) (result : Table Nat Entry) (staged : List (Nat × DiffId))
    (ds : List Diff) : Option ((Table Nat Entry × List (Nat × DiffId)) × List Diff) :=
  (processLoop env dst pt mode (result, staged) ds).map fun r =>
    (r.1, if mode = .staged then r.2 else dropEmpty pt r.2)

/-- cumulative.rs:227-259 `handle_processed_to_update`. -/
def Cum.handleUpdate (env : Env) (c : Cum) (dst : Nat) (pt : ProcTo) : Option Cum :=
  match c.tx with
  | some t => (process env dst pt .staged c.result t.staged c.diffs).map fun r =>
      ⟨put c.proc dst (true, pt), r.2, r.1.1, some { t with staged := r.1.2, updates := put t.updates dst pt }⟩
  | none => (process env dst pt .immediate c.result [] c.diffs).map fun r =>
      ⟨put c.proc dst (true, pt), r.2, r.1.1, none⟩

/-- cumulative.rs:214-218 the position of a shard is new. -/
def posChanged (proc : Table Nat (Bool × ProcTo)) (dst : Nat) (pt : ProcTo) : Bool := match get proc dst with
  | some old => decide (old.2 ≠ pt)
  | none => true

/-- cumulative.rs:213-222 the loop of `update_processed_to_by_partitions`. -/
def Cum.updateLoop (env : Env) (c : Cum) : Table Nat (Bool × ProcTo) → Option Cum
  | [] => some c
  | x :: l =>
    if posChanged c.proc x.1 x.2.2 then
      match c.handleUpdate env x.1 x.2.2 with
      | none => none
      | some c => c.updateLoop env l
    else c.updateLoop env l

/-- cumulative.rs:203-225 `update_processed_to_by_partitions`. -/
def Cum.updateAll (env : Env) (c : Cum) (new : Table Nat (Bool × ProcTo)) : Option Cum :=
  if c.proc = new then some c else (c.updateLoop env new).map fun c => { c with proc := new }

/-- cumulative.rs:318-325 the accounts of a diff that are not processed yet. -/
def retainUnprocessed (env : Env) (proc : Table Nat (Bool × ProcTo)) (id : DiffId) (stats : Accounts) : Accounts :=
  proc.foldl (fun stats x => match get x.2.2 (id.part, id.src) with
    | some toKey => if id.key ≤ toKey then stats.filter (fun e => !env.contains x.1 e.1) else stats
    | none => stats) stats

/-- cumulative.rs:308-356 `apply_diff`. -/
def Cum.apply (env : Env) (c : Cum) (id : DiffId) (stats : Accounts) : Option Cum :=
  let stats := retainUnprocessed env c.proc id stats
  let isNew := (get c.result id.part).isNone
  match modify (ensure c.result id.part) id.part
      (fun e => some ⟨e.initial.append stats, e.remaining.append env stats⟩) with
  | none => none
  | some result =>
    if c.diffs.any (fun d => decide (d.id = id)) then none
    else some {
      c with
      result := result
      diffs := c.diffs ++ [⟨id, stats⟩]
      tx := c.tx.map fun t => { t with added := t.added ++ [id], newParts := if isNew then id.part :: t.newParts else t.newParts }
    }

/-- queue.rs:103-111 a reader takes `n` messages for account `a` from the remaining statistics of a partition. -/
def Cum.read (env : Env) (c : Cum) (part a n : Nat) : Option Cum :=
  (modify c.result part (fun e => (e.remaining.decrement env a n).map fun r => { e with remaining := r })).map
    fun r => { c with result := r }

/-- cumulative.rs:109-119 the loop over `processed_updates`. -/
def commitLoop (env : Env) (ds : List Diff) : Table Nat ProcTo → List Diff
  | [] => ds
  | x :: l =>
    let ds' := match process env x.1 x.2 .commitRetainOnly [] [] ds with
      | some r => r.2
      | none => ds
    commitLoop env ds' l

/-- cumulative.rs:94-120 `commit`. -/
def Cum.commit (env : Env) (c : Cum) : Option Cum := match c.tx with
  | none => none
  | some t => (mapAll Entry.commit c.result).map fun r => ⟨c.proc, commitLoop env c.diffs t.updates, r, none⟩

/-- cumulative.rs:122-156 `rollback`. -/
def Cum.rollback (c : Cum) : Option Cum := match c.tx with
  | none => none
  | some t => (mapAll Entry.rollback c.result).map fun r =>
      ⟨t.proc, c.diffs.filter (fun d => !decide (d.id ∈ t.added)), r.filter (fun x => !decide (x.1 ∈ t.newParts)), none⟩

/-- cumulative.rs:280-295 `get_aggregated_result`. -/
def aggregate : List Entry → Option QStats → QStats
  | [], none => .empty
  | [], some q => q
  | e :: l, none => aggregate l (some e.initial)
  | e :: l, some q => aggregate l (some (e.initial.iter.foldl (fun q x => q.increment x.1 x.2) q))

/-- cumulative.rs:280-295 `get_aggregated_result`. -/
def Cum.aggregated (c : Cum) : QStats := aggregate (c.result.map (·.2)) none

/-- cumulative.rs:297-302 `remaining_total_for_own_shard`. -/
def Cum.remainingTotal (c : Cum) : Nat := (c.result.map (fun x => x.2.remaining.total)).sum

end Tycho.CumulStats
