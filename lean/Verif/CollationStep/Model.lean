import Mathlib.Tactic.Basic
import Mathlib.Tactic.ByContra
import Verif.Common.Table

/-!
# The next collation step

Model of `CollationManager::detect_next_collation_step` (collator/src/manager/mod.rs:1216-1619): the
collators of the master chain and of the shards report each imported anchor and each collated shard
block; after every report the manager decides whether a master block is to be collated now, and for
which chain time, or which collators go on and which wait.
-/

namespace Tycho.CollationStep
open Tycho.Table

/-- A shard; `0` is the masterchain. -/
abbrev Sid := Nat

/-- `ShardIdent::MASTERCHAIN`. -/
def mc : Sid := 0

/-- `CollatedBlockInfo` (collator/src/manager/types.rs:84-98). -/
structure Blk where
  /-- `prev_mc_block_seqno` -/
  prevMc : Nat
  /-- `has_processed_externals` -/
  ext : Bool
deriving DecidableEq, Repr

/-- `ImportedAnchorEvent` (types.rs:76-82). -/
structure Ev where
  /-- chain time of the anchor -/
  ct : Nat
  /-- `mc_forced` -/
  forced : Bool
  /-- the shard block collated, if any -/
  block : Option Blk
deriving DecidableEq, Repr

/-- `CollationStatus` (types.rs:114-131). -/
inductive Status where
  /-- `AttemptsInProgress` -/
  | attempts
  /-- `WaitForMasterStatus` -/
  | waitMaster
  /-- `WaitForShardStatus` -/
  | waitShard
  /-- `ReadyToCollateMaster` -/
  | ready
deriving DecidableEq, Repr

/-- `CollationState` with its default (types.rs:100-112). -/
structure CState where
  /-- status -/
  status : Status := .attempts
  /-- `last_imported_anchor_events` -/
  events : List Ev := []
deriving DecidableEq, Repr

/-- `CollationSyncState` (types.rs:58-75) without the fields about syncs. The order of `states` is
that of a hash map: nothing but the order of the resumed shards depends on it. -/
structure Sync where
  /-- `mc_block_latest_chain_time` -/
  latest : Nat
  /-- `mc_collation_forced_for_all` -/
  hard : Bool
  /-- `mc_forced_by_no_pending_msgs_on_ct` -/
  noPending : Option Nat
  /-- `states` -/
  states : Table Sid CState
deriving DecidableEq, Repr

/-- `ForceMasterCollation` (collator/src/collator/types.rs:1346-1352). -/
inductive Force where
  /-- `No` -/
  | no
  /-- `ByUncommittedChain` -/
  | byUncommittedChain
  /-- `ByAnchorImportSkipped` -/
  | byAnchorImportSkipped
  /-- `ByUnprocessedMessages` -/
  | byUnprocessedMessages
  /-- `NoPendingMessagesAfterShardBlocks` -/
  | noPendingMessages
deriving DecidableEq, Repr

/-- `ForceMasterCollation::is_forced` (collator/src/collator/types.rs:1354-1356). -/
def Force.isForced : Force → Bool
  | .no => false
  | .noPendingMessages => false
  | _ => true

/-- `DetectNextCollationStepContext`: one report. -/
structure Ctx where
  /-- `last_imported_anchor_ct` -/
  ct : Nat
  /-- `force_mc_block` -/
  force : Force
  /-- `mc_block_min_interval_ms` -/
  minInt : Nat
  /-- `mc_block_max_interval_ms` -/
  maxInt : Nat
  /-- `collated_block_info` -/
  block : Option Blk
deriving DecidableEq, Repr

/-- `NextCollationStep` (types.rs:134-139). -/
inductive Next where
  /-- `WaitForMasterStatus` -/
  | waitForMasterStatus
  /-- `WaitForShardStatus` -/
  | waitForShardStatus
  /-- `ResumeAttemptsIn` -/
  | resume (shards : List Sid)
  /-- `CollateMaster` -/
  | collate (ct : Nat)
deriving DecidableEq, Repr

/-- mod.rs:1231-1236. -/
def effMax (c : Ctx) : Nat := if c.maxInt = 0 then c.minInt else c.maxInt

/-- The state of a shard, `or_default` for an unknown one. -/
def stateOf (s : Sync) (sid : Sid) : CState := (get s.states sid).getD {}

/-- The flags and the new event (mod.rs:1252-1291). -/
def push (s : Sync) (sid : Sid) (c : Ctx) : Sync :=
  { s with
    hard := s.hard || (sid == mc && c.force == .byUnprocessedMessages),
    noPending := if c.force = .noPendingMessages then some c.ct else s.noPending,
    states := put s.states sid
      { stateOf s sid with events := (stateOf s sid).events ++ [⟨c.ct, c.force.isForced, c.block⟩] } }

/-- `ShardFact` without shard and status (mod.rs:1293-1302), with the block last seen in the loop. -/
structure Fact where
  /-- `first_ct` -/
  first : Option Nat := none
  /-- `mc_forced_ct` -/
  forced : Option Nat := none
  /-- `min_ct` -/
  min : Option Nat := none
  /-- `max_ct` -/
  max : Option Nat := none
  /-- `has_shard_block_with_externals` -/
  ext : Bool := false
  /-- `last_known_collated_block_info` -/
  lastBlk : Option Blk := none
deriving DecidableEq, Repr

/-- `is_first_after_prev_master` (mod.rs:1333-1343). -/
def firstAfterMaster (last : Option Blk) (b : Blk) : Bool :=
  match last with
  | some l => decide (l.prevMc < b.prevMc)
  | none => true

/-- `is_first_shard_block_with_externals` and the new `has_shard_block_with_externals`
(mod.rs:1328-1359). -/
def extStep (isMc : Bool) (f : Fact) (e : Ev) : Bool × Bool :=
  match e.block with
  | none => (false, f.ext)
  | some b =>
    if isMc then (false, f.ext) else
    let has := if firstAfterMaster f.lastBlk b then false else f.ext
    let isFirst := b.ext && !has
    (isFirst, if isFirst then true else has)

/-- One turn of the loop (mod.rs:1326-1385). -/
def factStep (isMc : Bool) (mcCt minI maxI : Nat) (f : Fact) (e : Ev) : Fact :=
  let x := extStep isMc f e
  { first := match f.first with | none => some e.ct | t => t,
    forced := if e.forced && f.forced.isNone then some e.ct else f.forced,
    min := if (f.min.isNone || x.1) && decide (minI ≤ e.ct - mcCt) then some e.ct else f.min,
    max := if f.max.isNone && decide (maxI ≤ e.ct - mcCt) then some e.ct else f.max,
    ext := x.2,
    lastBlk := match e.block with | some b => some b | none => f.lastBlk }

/-- `ShardFact::calc` (mod.rs:1316-1388). -/
def factOf (isMc : Bool) (mcCt minI maxI : Nat) (l : List Ev) : Fact :=
  l.foldl (factStep isMc mcCt minI maxI) {}

/-- The facts of a shard (mod.rs:1390-1410); a shard without a state has the facts of one without
events. -/
def facts (s : Sync) (minI maxI : Nat) (sid : Sid) : Fact :=
  factOf (sid == mc) s.latest minI maxI (stateOf s sid).events

/-- `any_has_shard_block_with_externals` (mod.rs:1425-1426). -/
def anyExt (s : Sync) (active : List Sid) (minI maxI : Nat) : Bool :=
  active.any (fun sid => (facts s minI maxI sid).ext)

/-- `choose_candidate` (mod.rs:1428-1477). -/
def choose (isCur : Bool) (st : Status) (f : Fact) (noPending : Option Nat) (any hard : Bool) : Option Nat :=
  let readyToDetect := isCur || st == .ready || st == .waitMaster || st == .waitShard
  f.forced
    <|> (if hard then f.first else none)
    <|> (if any || noPending.isSome then
          (if readyToDetect then
            f.min.map (fun m => match noPending with
              | none => m
              | some p => Nat.max m p)
          else none)
        else f.max)

/-- The candidate of a shard (mod.rs:1483-1500). -/
def candidate (s : Sync) (active : List Sid) (minI maxI : Nat) (cur sid : Sid) : Option Nat :=
  choose (sid == cur) (stateOf s sid).status (facts s minI maxI sid) s.noPending
    (anyExt s active minI maxI) s.hard

/-- `state.status = st` through `entry(shard_id).or_default()`. -/
def setStatus (s : Sync) (sid : Sid) (st : Status) : Sync :=
  { s with states := put s.states sid { stateOf s sid with status := st } }

/-- Every entry changed. -/
def mapStates (s : Sync) (f : Sid → CState → CState) : Sync :=
  { s with states := s.states.map (fun e => (e.1, f e.1 e.2)) }

/-- `all_other_shards_ready_to_collate` (mod.rs:1527-1530): over all the states there are. -/
def othersReady (s : Sync) (sid : Sid) : Bool :=
  s.states.all (fun e => e.1 == sid || e.2.status == .ready)

/-- The new status of the reporting shard (mod.rs:1532-1550). -/
def newStatus (byCurrent mcExists isMc others : Bool) : Status :=
  if byCurrent then .ready
  else if !mcExists then .waitMaster
  else if isMc && !others then .waitShard
  else .attempts

/-- Whether the report of `sid` wakes a collator (mod.rs:1552-1563). -/
def wakes (sid : Sid) (st : Status) : Bool :=
  (sid == mc && st == .waitMaster) || (sid != mc && st == .waitShard)

/-- Not all shards are ready (mod.rs:1522-1573). -/
def goOn (s : Sync) (sid : Sid) (byCurrent mcExists : Bool) : Sync × Next :=
  let st := newStatus byCurrent mcExists (sid == mc) (othersReady s sid)
  let s := setStatus s sid st
  let woken := (s.states.filter (fun e => wakes sid e.2.status)).map (·.1)
  let s := mapStates s (fun _ v => if wakes sid v.status then { v with status := .attempts } else v)
  let l := (if st = .attempts then [sid] else []) ++ woken
  (s, if l.isEmpty then (if sid = mc then .waitForShardStatus else .waitForMasterStatus)
      else .resume l)

/-- `renew_mc_block_latest_chain_time` (mod.rs:1127-1140). -/
def renew (s : Sync) (t : Nat) : Sync :=
  mapStates { s with latest := max s.latest t }
    (fun _ v => { v with events := v.events.filter (fun e => t < e.ct) })

/-- All shards are ready (mod.rs:1595-1619). -/
def collateAt (s : Sync) (t : Nat) : Sync :=
  let s := mapStates s (fun k v =>
    { status := .attempts,
      events := if k = mc then v.events.filter (fun e => e.ct ≤ t) else v.events })
  { renew s t with hard := false, noPending := none }

/-- `detect_next_collation_step` (mod.rs:1216-1619). `active` are the shards with a collation
session; the code panics if the reporting shard is not one of them. -/
def detect (s : Sync) (active : List Sid) (sid : Sid) (c : Ctx) : Sync × Next :=
  let mcExists := sid == mc || (!(stateOf s mc).events.isEmpty)
  let s := push s sid c
  let cands := active.map (candidate s active c.minInt (effMax c) sid)
  let byCurrent := active.any (fun k => k == sid && (candidate s active c.minInt (effMax c) sid k).isSome)
  if !cands.isEmpty && cands.all (·.isSome) then
    let t := (cands.filterMap id).foldr max 0
    (collateAt s t, .collate t)
  else goOn s sid byCurrent mcExists

/-- What a sync to an applied master block does to the state (collator/src/manager/sync.rs:521-529):
the chain time is that of the block synced to, not renewed at the zerostate, and every collator is
started again (`reset_collation_sync_status`, lines 226-234). -/
def resync (s : Sync) (t : Option Nat) : Sync :=
  let s := match t with
    | some t => renew s t
    | none => s
  mapStates s (fun _ v => { v with status := .attempts })

/-- A new manager. -/
def init : Sync := { latest := 0, hard := false, noPending := none, states := [] }

end Tycho.CollationStep
