import Verif.QueueFill.Model

/-!
What the queue must hold after the messages of given diffs were put into it, from the diffs and the message
cells alone. No function of the model of the code is used here except the shape of values.
-/
namespace Tycho.QueueFill
open Tycho.Bytes Tycho.Table Tycho.QueueKey Tycho.QueueDiffTl

variable {Cell : Type}

/-- The table `ps` of a diff lists the address `a` in partition `p`. -/
def Listed (ps : List (Nat × List Addr)) (a : Addr) (p : Nat) : Prop := ∃ l, (p, l) ∈ ps ∧ a ∈ l

/-- Partition `p` for a message: where the destination is listed, otherwise where the source is, otherwise 0. -/
def RouteTo (d : Diff) (src dst : Addr) (p : Nat) : Prop :=
  Listed d.partitionsDst dst p ∨
  ((∀ q, ¬ Listed d.partitionsDst dst q) ∧
    (Listed d.partitionsSrc src p ∨ ((∀ q, ¬ Listed d.partitionsSrc src q) ∧ p = 0)))

/-- No address is in two partitions. -/
def OnePartition (ps : List (Nat × List Addr)) : Prop := ∀ a p q, Listed ps a p → Listed ps a q → p = q

/-- Cell `c` is an internal message from `src` to `dst` (any anycast `s`, `t`) created at `lt`. -/
def IsMsg (ext : Ext Cell) (c : Cell) (src dst : Addr) (t : Option (List Bool)) (lt : Nat) : Prop :=
  ∃ s, ext.parse c = .int ⟨.std s src, .std t dst, lt⟩

/-- Entry of the table of messages for a message of the diff. -/
def MsgEntry (ext : Ext Cell) (e : Diff × List Cell) (k : MsgKey) (v : List Nat) : Prop :=
  ∃ c ∈ e.2, ∃ src dst t lt, IsMsg ext c src dst t lt ∧ RouteTo e.1 src dst k.partition ∧
    k.shard = e.1.shard ∧ k.key = ⟨lt, ext.hash c⟩ ∧
    v = beBytes 1 (u8OfI8 dst.workchain) ++ (leBytes 8 (ext.pfx (.std t dst)) ++ ext.boc c)

/-- The message goes to partition `p` and account `dest`. -/
def GoesTo (ext : Ext Cell) (d : Diff) (p : Nat) (dest : Addr) (c : Cell) : Prop :=
  ∃ src t lt, IsMsg ext c src dest t lt ∧ RouteTo d src dest p

open Classical in
/-- Number of messages of the diff to partition `p` and account `dest`. -/
noncomputable def countTo (ext : Ext Cell) (e : Diff × List Cell) (p : Nat) (dest : Addr) : Nat :=
  e.2.countP (fun c => decide (GoesTo ext e.1 p dest c))

/-- Entry of the table of statistics. -/
def StatEntry (ext : Ext Cell) (e : Diff × List Cell) (k : StatKey) (n : Nat) : Prop :=
  k.shard = e.1.shard ∧ k.maxMessage = e.1.maxMessage ∧ n = countTo ext e k.partition k.dest ∧ 0 < n

open Classical in
/-- Number of messages of the diff to a workchain. -/
noncomputable def countWc (ext : Ext Cell) (e : Diff × List Cell) (wc : Int) : Nat :=
  e.2.countP (fun c => decide (∃ src dst t lt, IsMsg ext c src dst t lt ∧ dst.workchain = wc))

/-- The record about a diff. -/
structure InfoOf (ext : Ext Cell) (e : Diff × List Cell) (i : Info) : Prop where
  min : i.min = e.1.minMessage
  max : i.max = e.1.maxMessage
  hash : i.hash = e.1.hash
  processedTo : i.processedTo = e.1.processedTo
  src : i.src = e.1.partitionsSrc
  dst : i.dst = e.1.partitionsDst
  seqno : i.seqno = e.1.seqno
  /-- the count of each full shard that gets a message -/
  counts : ∀ s n, Table.get i.counts s = some n ↔ (s.pfx = 9223372036854775808 ∧ n = countWc ext e s.workchain ∧ 0 < n)

/-- `after` is `before` with the diffs `ds` put into the queue: exactly the entries for these diffs are
written, all the rest is as before. -/
structure Filled (ext : Ext Cell) (ds : List (Diff × List Cell)) (before after : Db) : Prop where
  msg : ∀ e ∈ ds, ∀ k v, MsgEntry ext e k v → Table.get after.msgs k = some v
  msgRest : ∀ k, (∀ e ∈ ds, ∀ v, ¬ MsgEntry ext e k v) → Table.get after.msgs k = Table.get before.msgs k
  stat : ∀ e ∈ ds, ∀ k n, StatEntry ext e k n → Table.get after.stats k = some n
  statRest : ∀ k, (∀ e ∈ ds, ∀ n, ¬ StatEntry ext e k n) → Table.get after.stats k = Table.get before.stats k
  tail : ∀ e ∈ ds, Table.get after.tails ⟨e.1.shard, e.1.maxMessage⟩ = some e.1.seqno
  tailRest : ∀ k, (∀ e ∈ ds, k ≠ ⟨e.1.shard, e.1.maxMessage⟩) → Table.get after.tails k = Table.get before.tails k
  info : ∀ e ∈ ds, ∃ i, Table.get after.infos ⟨e.1.shard, e.1.seqno⟩ = some i ∧ InfoOf ext e i
  infoRest : ∀ k, (∀ e ∈ ds, k ≠ ⟨e.1.shard, e.1.seqno⟩) → Table.get after.infos k = Table.get before.infos k

/-- Two records with the same content: the map of counts may be listed in another order. -/
def Info.Same (i j : Info) : Prop :=
  i.min = j.min ∧ i.max = j.max ∧ i.hash = j.hash ∧ i.processedTo = j.processedTo ∧ i.src = j.src ∧
  i.dst = j.dst ∧ i.seqno = j.seqno ∧ ∀ s, Table.get i.counts s = Table.get j.counts s

/-- All lookups of messages, statistics, tails and records of diffs give the same. -/
structure SameQueue (a b : Db) : Prop where
  msgs : ∀ k, Table.get a.msgs k = Table.get b.msgs k
  stats : ∀ k, Table.get a.stats k = Table.get b.stats k
  tails : ∀ k, Table.get a.tails k = Table.get b.tails k
  infos : ∀ k, (Table.get a.infos k = none ∧ Table.get b.infos k = none) ∨
    ∃ i j, Table.get a.infos k = some i ∧ Table.get b.infos k = some j ∧ i.Same j

/-- Hypotheses on the messages of a diff: each is internal with standard addresses and the listed ones are
different; destinations with the same account have the same anycast; routes are unambiguous. -/
structure DiffFair (ext : Ext Cell) (e : Diff × List Cell) : Prop where
  isMsg : ∀ c ∈ e.2, ∃ src dst t lt, IsMsg ext c src dst t lt
  anycast : ∀ c ∈ e.2, ∀ c' ∈ e.2, ∀ src dst t lt src' t' lt', IsMsg ext c src dst t lt →
    IsMsg ext c' src' dst t' lt' → t = t'
  distinct : (e.2.map ext.hash).Nodup
  src : OnePartition e.1.partitionsSrc
  dst : OnePartition e.1.partitionsDst

/-- Hypotheses on the diffs together: the hash has no collision among their messages, and no two have the
same block seqno or the same maximal message in a shard. -/
structure Fair (ext : Ext Cell) (ds : List (Diff × List Cell)) : Prop where
  each : ∀ e ∈ ds, DiffFair ext e
  hash : ∀ e ∈ ds, ∀ e' ∈ ds, ∀ c ∈ e.2, ∀ c' ∈ e'.2, ext.hash c = ext.hash c' → c = c'
  tails : (ds.map (fun e => (e.1.shard, e.1.maxMessage))).Nodup
  infos : (ds.map (fun e => (e.1.shard, e.1.seqno))).Nodup

/-- The iteration order only permutes. -/
structure Order.Ok (o : Order) : Prop where
  routes : ∀ t, (o.routes t).Perm t
  stats : ∀ t, (o.stats t).Perm t
  importStats : ∀ t, (o.importStats t).Perm t

end Tycho.QueueFill
