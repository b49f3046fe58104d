import Verif.Common.Table
/-!
Model of the collation manager's blocks cache (`collator/src/manager/blocks_cache.rs`), of the entry type
(`collator/src/manager/types.rs`) and of the part of `collator/src/manager/commit.rs` that decides what happens with an
extracted master block.

Simplifications, for the whole file: a shard identifier is a number and the masterchain is shard 0; the file and root
hashes of a block id are one number; block contents (states, queue diffs, messages, signatures, `processed_upto`) are not
represented; `value_flow` is an opaque number, the collected fees and created amount are plain numbers (the overflow error
of `try_add_assign` is not represented) and so are seqnos (`block_seqno + 1` in `move_range_start` does not overflow).
The mutex of the master cache and the shard map entries of the shard caches are held for a whole operation in the code or,
where an operation takes several of them one after another, the operation is modelled as one step.
-/
namespace Tycho.BlocksCache
open Tycho.Table

/-- A full block id. -/
structure Id where
  shard : Nat
  seqno : Nat
  hash : Nat
deriving DecidableEq, Repr

/-- `BlockIdShort`/`BlockCacheKey` (types.rs:29): shard and seqno. -/
def Id.key (i : Id) : Nat × Nat := (i.shard, i.seqno)

/-- `CandidateStatus`, types.rs:208-214. -/
inductive Status where
  | collated | validated | skipped | synced
deriving DecidableEq, Repr

/-- `BlockCacheEntryData`, types.rs:217-248: a block collated by this node (with `received_after_collation`), or a block
received from the chain (with `collated_after_receive`). `additional_shard_block_cache_info` of a received shard block is
set exactly when `collated_after_receive` is (blocks_cache.rs:927-934), so the flag stands for both. -/
inductive Kind where
  | collated (st : Status) (recv : Bool)
  | received (coll : Bool)
deriving DecidableEq, Repr

/-- `TopBlockIdUpdated`: a top shard block of a master block, whether it changed since the previous master block, and the
master block that first referenced it. -/
structure Top where
  id : Id
  updated : Bool
  ref : Nat
deriving DecidableEq, Repr

/-- `BlockCacheEntry`, types.rs:310-327. -/
structure Entry where
  id : Id
  kind : Kind
  prevs : List Id
  tops : List Top
  anchor : Option Nat
  ref : Nat
deriving DecidableEq, Repr

/-- The pattern `Received { .. } | Collated { received_after_collation: true, .. }` used at blocks_cache.rs:550, 631, 654,
699: the block is known to be applied to the chain. -/
def Entry.applied (e : Entry) : Bool := match e.kind with
  | .received _ => true
  | .collated _ r => r

/-- `get_additional_shard_block_cache_info`, types.rs:251-267: present for own candidates and for received blocks that
were collated too. -/
def Entry.hasInfo (e : Entry) : Bool := match e.kind with
  | .received c => c
  | .collated _ _ => true

/-- A block to store: `BlockCandidate` with the top shard blocks (own), or the loaded `ReceivedBlockContext` (received,
blocks_cache.rs:1211-1295). `fees`, `created` and `flow` are only used for own candidates. -/
structure Block where
  id : Id
  prevs : List Id
  tops : List Top
  anchor : Option Nat
  ref : Nat
  fees : Nat := 0
  created : Nat := 0
  flow : Nat := 0
deriving DecidableEq, Repr

/-- `BlocksCacheInner` (blocks_cache.rs:34-38) with the groups of all shards (882-887) put together: the cached blocks by
shard and seqno; per shard the last known synced seqno, whether the shard cache exists, the gc boundary, and the
accumulated value flow and funds (1139-1142); for the masterchain the own last collated ids and the range of applied
blocks (1055-1060). -/
structure Cache where
  zero : Nat
  blocks : Table (Nat × Nat) Entry
  synced : Nat → Option Nat
  known : Nat → Bool
  gcTo : Nat → Option Nat
  flow : Nat → Nat
  funds : Nat → Nat × Nat
  lastColl : Table Nat Id
  range : Option (Nat × Nat)

/-- `BlocksCache::new`, blocks_cache.rs:46-56. -/
def Cache.init (zero : Nat) : Cache where
  zero := zero
  blocks := []
  synced := fun _ => none
  known := fun _ => false
  gcTo := fun _ => none
  flow := fun _ => 0
  funds := fun _ => (0, 0)
  lastColl := []
  range := none

/-- Update of a function at one point. -/
def upd {α : Type} (f : Nat → α) (k : Nat) (v : α) : Nat → α := fun j => if j = k then v else f j

/-- `move_range_start`, blocks_cache.rs:1085-1093. -/
def startPast (r : Option (Nat × Nat)) (s : Nat) : Option (Nat × Nat) := match r with
  | some (a, b) => if s ≥ a then (if s + 1 ≤ b then some (s + 1, b) else none) else some (a, b)
  | none => none

/-- `move_range_end`, blocks_cache.rs:1095-1101. -/
def endAt (r : Option (Nat × Nat)) (s : Nat) : Option (Nat × Nat) := match r with
  | some (a, _) => some (a, s)
  | none => some (s, s)

/-- `check_refresh_last_known_synced` (blocks_cache.rs:1032-1040), its test. -/
def Cache.notNewer (c : Cache) (sh n : Nat) : Bool := match c.synced sh with
  | some k => decide (k ≥ n)
  | none => false

/-- `check_refresh_last_known_synced` (blocks_cache.rs:1032-1040), its effect. -/
def refresh (sy : Nat → Option Nat) (sh n : Nat) : Nat → Option Nat := match sy sh with
  | some k => if k ≥ n then sy else upd sy sh (some n)
  | none => upd sy sh (some n)

/-- `on_update_collated`/`on_insert_collated`: the master data moves the range start and records the id
(blocks_cache.rs:1063-1067, 1108-1116), the shard data replaces the value flow and adds the funds (1145-1156,
1168-1174). -/
def Cache.onCollated (c : Cache) (b : Block) : Cache :=
  if b.id.shard = 0 then
    { c with range := startPast c.range b.id.seqno, lastColl := put c.lastColl b.id.seqno b.id }
  else
    { c with
      flow := upd c.flow b.id.shard b.flow
      funds := upd c.funds b.id.shard
        ((c.funds b.id.shard).1 + b.fees, (c.funds b.id.shard).2 + b.created) }

/-- `on_update_received`/`on_insert_received`: the master data moves the range end (blocks_cache.rs:1118-1126), the shard
data does nothing (1176-1182). -/
def Cache.onReceived (c : Cache) (b : Block) : Cache :=
  if b.id.shard = 0 then { c with range := endAt c.range b.id.seqno } else c

/-- `BlockCacheEntry::from_collated`, types.rs:330-356. -/
def Block.ownEntry (b : Block) : Entry :=
  { id := b.id, kind := .collated .collated false, prevs := b.prevs, tops := b.tops, anchor := b.anchor, ref := b.ref }

/-- `BlockCacheEntry::from_received`, types.rs:358-399: only a master block has tops and an anchor. -/
def Block.chainEntry (b : Block) : Entry :=
  { id := b.id, kind := .received false, prevs := b.prevs
    tops := if b.id.shard = 0 then b.tops else []
    anchor := if b.id.shard = 0 then b.anchor else none
    ref := b.ref }

/-- What a store operation reports: an error, that the block was not newer and was skipped (`Ok(None)`), or
`BlockCacheStoreResult` (types.rs:146-152) reduced to its two flags; the other two fields are read from the state. -/
inductive Stored where
  | error
  | skipped
  | ok (receivedAndCollated mismatch : Bool)
deriving DecidableEq, Repr

/-- The group's `store_collated_block` (blocks_cache.rs:891-964), on a cache where the shard's group exists. -/
def Cache.putCollated (c : Cache) (b : Block) : Cache × Stored :=
  match get c.blocks b.id.key with
  | some e => match e.kind with
    | .received _ =>
      if e.id ≠ b.id then (c, .ok false true)
      else (({ c with blocks := put c.blocks b.id.key { e with kind := .received true } } : Cache).onCollated b,
        .ok true false)
    | .collated _ _ => (c, .error)
  | none =>
    (({ c with blocks := put c.blocks b.id.key b.ownEntry } : Cache).onCollated b, .ok false false)

/-- `BlocksCache::store_collated`, blocks_cache.rs:333-379. -/
def Cache.storeCollated (c : Cache) (b : Block) : Cache × Stored :=
  ({ c with known := upd c.known b.id.shard true } : Cache).putCollated b

/-- The group's `store_received_block` (blocks_cache.rs:967-1029). -/
def Cache.putReceived (c : Cache) (b : Block) : Cache × Stored :=
  match get c.blocks b.id.key with
  | some e => match e.kind with
    | .received _ => (c, .error)
    | .collated _ _ =>
      if e.id ≠ b.id then
        (({ c with blocks := put c.blocks b.id.key b.chainEntry } : Cache).onReceived b, .ok false true)
      else
        (({ c with blocks := put c.blocks b.id.key { e with kind := .collated .synced true } } : Cache).onReceived b,
          .ok true false)
  | none =>
    (({ c with blocks := put c.blocks b.id.key b.chainEntry } : Cache).onReceived b, .ok false false)

/-- `remove_last_collated_block_ids_from`, blocks_cache.rs:1069-1072. -/
def dropFrom (t : Table Nat Id) (n : Nat) : Table Nat Id := del t (fun k => decide (k ≥ n))

/-- `remove_last_collated_block_ids_before`, blocks_cache.rs:1074-1077. -/
def dropBefore (t : Table Nat Id) (n : Nat) : Table Nat Id := del t (fun k => decide (k < n))

/-- The clean-up after a mismatch: from the block's own seqno for a master block (blocks_cache.rs:422-427), from the
seqno of the master block that references it for a shard block (451-457). -/
def Cache.forgetMismatched (c : Cache) (b : Block) (r : Stored) : Cache := match r with
  | .ok _ true => { c with lastColl := dropFrom c.lastColl (if b.id.shard = 0 then b.id.seqno else b.ref) }
  | _ => c

/-- `BlocksCache::store_received` after the block data was loaded, blocks_cache.rs:385-478. -/
def Cache.storeReceived (c : Cache) (b : Block) : Cache × Stored :=
  let c := { c with known := upd c.known b.id.shard true }
  if c.notNewer b.id.shard b.id.seqno then (c, .skipped)
  else
    let p := ({ c with synced := upd c.synced b.id.shard (some b.id.seqno) } : Cache).putReceived b
    (p.1.forgetMismatched b p.2, p.2)

/-- The candidate status for a validation result, blocks_cache.rs:486-493. -/
def verdict (complete : Bool) : Status := if complete then .validated else .skipped

/-- `store_master_block_validation_result`, blocks_cache.rs:481-543: the entry is looked up by the seqno of the id. -/
def Cache.storeValidation (c : Cache) (id : Id) (complete : Bool) : Cache × Option Status :=
  match get c.blocks (0, id.seqno) with
  | none => (c, none)
  | some e => match e.kind with
    | .received _ => (c, none)
    | .collated st r =>
      if st = .synced then (c, none)
      else if st = verdict complete then (c, none)
      else ({ c with blocks := put c.blocks (0, id.seqno) { e with kind := .collated (verdict complete) r } },
        some (verdict complete))

/-- Whether a cached block is an applied master block of a seqno accepted by `p`. -/
def isAppliedMc (p : Nat → Bool) (x : (Nat × Nat) × Entry) : Bool :=
  decide (x.1.1 = 0) && p x.1.2 && x.2.applied

/-- `blocks.range(from..).find(..)` of blocks_cache.rs:625-636: the least seqno from `f` on whose block is applied. -/
def Cache.frontKey (c : Cache) (f : Nat) : Option Nat :=
  ((c.blocks.filter (isAppliedMc (fun n => decide (f ≤ n)))).map (·.1.2)).min?

/-- `blocks.range((Excluded(key), Unbounded)).any(..)` of blocks_cache.rs:644-656, negated. -/
def Cache.isLast (c : Cache) (n : Nat) : Bool := !(c.blocks.any (isAppliedMc (fun k => decide (n < k))))

/-- The extraction loop, blocks_cache.rs:735-758. A queued block's slot is emptied; if the block that was in it is
referenced by the master block `mc`, it is extracted and its previous blocks are queued. The fuel bounds the number of
iterations; `steps` below is enough (`drain_done`). A shard without a cache (738-741) is a shard without blocks. -/
def drain (mc : Nat) : Nat → Table (Nat × Nat) Entry → (Nat → Option Nat) → List Id → List Entry →
    Table (Nat × Nat) Entry × (Nat → Option Nat) × List Id × List Entry
  | 0, t, sy, q, out => (t, sy, q, out)
  | _ + 1, t, sy, [], out => (t, sy, [], out)
  | f + 1, t, sy, i :: q, out => match get t i.key with
    | none => drain mc f t sy q out
    | some e =>
      if e.ref = mc then
        drain mc f (del t (fun k => decide (k = i.key))) (refresh sy i.shard e.id.seqno) (q ++ e.prevs) (out ++ [e])
      else drain mc f (del t (fun k => decide (k = i.key))) sy q out

/-- A number of iterations the loop cannot exceed: the queued blocks and all previous blocks of cached blocks. -/
def steps (t : Table (Nat × Nat) Entry) (q : List Id) : Nat := q.length + (t.map (fun x => x.2.prevs.length)).sum

/-- The top shard blocks the extraction starts from, blocks_cache.rs:720-727. -/
def startTops (zero : Nat) (e : Entry) : List Id :=
  (e.tops.filter (fun t => t.updated && decide (t.ref > zero))).map (·.id)

/-- `McBlockSubgraph`, types.rs:441-444. -/
structure Subgraph where
  master : Entry
  shards : List Entry
deriving DecidableEq, Repr

/-- `extract_mc_block_subgraph`, blocks_cache.rs:716-774, on a cache from which the master block was removed. -/
def Cache.subgraph (c : Cache) (e : Entry) : Cache × Subgraph :=
  let q := startTops c.zero e
  let r := drain e.id.seqno (steps c.blocks q) c.blocks c.synced q []
  ({ c with blocks := r.1, synced := r.2.1 }, { master := e, shards := r.2.2.2.reverse })

/-- The part of `pop_front_applied_mc_block_subgraph` under the master lock, blocks_cache.rs:658-668. -/
def Cache.takeFront (c : Cache) (n : Nat) (e : Entry) : Cache :=
  { c with
    blocks := del c.blocks (fun k => decide (k = (0, n)))
    lastColl := dropBefore c.lastColl e.id.seqno
    range := startPast c.range e.id.seqno }

/-- `pop_front_applied_mc_block_subgraph`, blocks_cache.rs:617-672; `none` is its error. -/
def Cache.popFront (c : Cache) (f : Nat) : Cache × Option (Subgraph × Bool) :=
  match c.frontKey f with
  | none => (c, none)
  | some n => match get c.blocks (0, n) with
    | none => (c, none)
    | some e =>
      let r := (c.takeFront n e).subgraph e
      (r.1, some (r.2, c.isLast n))

/-- What `peek_front_applied_mc_block_subgraph` returns: the master block, the top shard blocks found, and the first one
missing (blocks_cache.rs:546-615). -/
structure View where
  master : Id
  tops : List Id
  missing : Option (Nat × Nat)
deriving DecidableEq, Repr

/-- The loop over the top shard blocks, blocks_cache.rs:581-612. -/
def viewTops (c : Cache) (mc : Nat) : List Top → List Id → List Id × Option (Nat × Nat)
  | [], acc => (acc, none)
  | t :: ts, acc =>
    if !t.updated || decide (t.ref ≤ c.zero) then viewTops c mc ts acc
    else match get c.blocks t.id.key with
      | some e => if e.ref = mc then viewTops c mc ts (acc ++ [t.id]) else (acc, some t.id.key)
      | none => (acc, some t.id.key)

/-- `peek_front_applied_mc_block_subgraph`, blocks_cache.rs:546-615. -/
def Cache.peekFront (c : Cache) (f : Nat) : Option View :=
  match c.frontKey f with
  | none => none
  | some n => match get c.blocks (0, n) with
    | none => none
    | some e =>
      let r := viewTops c e.id.seqno e.tops []
      some { master := e.id, tops := r.1, missing := r.2 }

/-- The part of `extract_mc_block_subgraph_for_sync` under the master lock, blocks_cache.rs:680-711. -/
def Cache.takeForSync (c : Cache) (id : Id) (e : Entry) : Cache :=
  { c with
    blocks := del c.blocks (fun k => decide (k = (0, id.seqno)))
    range := if e.applied then startPast c.range id.seqno else c.range
    synced := refresh c.synced 0 id.seqno
    lastColl := dropBefore c.lastColl id.seqno }

/-- `extract_mc_block_subgraph_for_sync`, blocks_cache.rs:676-714; `none` is `AlreadyExtracted`. -/
def Cache.extract (c : Cache) (id : Id) : Cache × Option Subgraph :=
  match get c.blocks (0, id.seqno) with
  | none => (c, none)
  | some e =>
    let r := (c.takeForSync id e).subgraph e
    (r.1, some r.2)

/-- `get_top_blocks_keys`, types.rs:411-423. -/
def Entry.topKeys (e : Entry) : List (Nat × Nat) := e.id.key :: e.tops.map (·.id.key)

/-- One key of `set_gc_to_boundary`, blocks_cache.rs:782-789. -/
def Cache.setGc1 (c : Cache) (k : Nat × Nat) : Cache :=
  if k.1 = 0 ∨ c.known k.1 then { c with gcTo := upd c.gcTo k.1 (some k.2) } else c

/-- `set_gc_to_boundary`, blocks_cache.rs:776-790. -/
def Cache.setGc (c : Cache) (ks : List (Nat × Nat)) : Cache := ks.foldl Cache.setGc1 c

/-- Whether a block is below the gc boundary of its shard (blocks_cache.rs:804, 833). -/
def Cache.below (c : Cache) (k : Nat × Nat) : Bool := match c.gcTo k.1 with
  | some b => decide (k.2 < b)
  | none => false

/-- `gc_prev_blocks`, blocks_cache.rs:792-847: the ids below any removed master block are forgotten. -/
def Cache.gc (c : Cache) : Cache :=
  let gone := (c.blocks.filter (fun x => decide (x.1.1 = 0) && c.below x.1)).map (·.1.2)
  { c with
    blocks := del c.blocks c.below
    lastColl := gone.foldl dropBefore c.lastColl }

/-- Whether `remove_next_collated_blocks_from_cache` removes a block for the key `k` (blocks_cache.rs:862-863,
884-885). -/
def nextOf (k : Nat × Nat) (x : (Nat × Nat) × Entry) : Bool :=
  decide (x.1.1 = k.1) && decide (x.1.2 > k.2) && (match x.2.kind with | .received _ => false | .collated _ _ => true)

/-- One key of `remove_next_collated_blocks_from_cache`, blocks_cache.rs:857-897. -/
def Cache.removeNext1 (c : Cache) (k : Nat × Nat) : Cache :=
  let gone := (c.blocks.filter (fun x => decide (x.1.1 = 0) && nextOf k x)).map (·.1.2)
  { c with
    blocks := c.blocks.filter (fun x => !nextOf k x)
    lastColl := gone.foldl dropFrom c.lastColl }

/-- `remove_next_collated_blocks_from_cache`, blocks_cache.rs:849-903. -/
def Cache.removeNext (c : Cache) (ks : List (Nat × Nat)) : Cache := ks.foldl Cache.removeNext1 c

/-- The top shard block of shard `sh` for the master block `next` (blocks_cache.rs:67-92): the latest block that
references it and has the additional info. -/
def Cache.topOf (c : Cache) (next sh : Nat) : Option Nat :=
  ((c.blocks.filter (fun x => decide (x.1.1 = sh) && (decide (x.2.ref = next) && x.2.hasInfo))).map (·.1.2)).max?

/-- `TopBlockDescription` of a shard: block, value flow and funds. -/
structure TopDescr where
  id : Id
  flow : Nat
  funds : Nat × Nat
deriving DecidableEq, Repr

/-- One shard of `get_top_shard_blocks_info_for_mc_block`, blocks_cache.rs:66-92: the value flow and the funds are taken
out of the shard's cache. -/
def Cache.takeTop (c : Cache) (next sh : Nat) : Cache × Option TopDescr :=
  match c.topOf next sh with
  | none => (c, none)
  | some n => match get c.blocks (sh, n) with
    | none => (c, none)
    | some e =>
      ({ c with flow := upd c.flow sh 0, funds := upd c.funds sh (0, 0) },
        some { id := e.id, flow := c.flow sh, funds := c.funds sh })

/-- `get_top_shard_blocks_info_for_mc_block`, blocks_cache.rs:62-96, over the shards `shs` that have a cache (in the order
the shard map iterates them). -/
def Cache.takeTops (c : Cache) (next : Nat) : List Nat → Cache × List TopDescr
  | [] => (c, [])
  | sh :: shs =>
    let r := c.takeTop next sh
    let r2 := r.1.takeTops next shs
    (r2.1, r.2.toList ++ r2.2)

/-- `reset_top_shard_blocks_additional_info`, blocks_cache.rs:153-157. -/
def Cache.resetTops (c : Cache) : Cache := { c with flow := fun _ => 0, funds := fun _ => (0, 0) }

/-- `get_last_collated_block_id`, blocks_cache.rs:1079-1083. -/
def Cache.lastCollated (c : Cache) : Option Id :=
  match (c.lastColl.map (·.1)).max? with
  | none => none
  | some n => get c.lastColl n

/-- `send_block_to_sync`, commit.rs:178-209: whether the block is handed to the node to be applied. -/
def Entry.sends (e : Entry) : Bool := match e.kind with
  | .collated st false => !(st == .synced || st == .skipped)
  | _ => false

/-- What a commit did: the blocks handed to the node (in order), whether the queue diffs of the master block were
committed, and the anchor reported to the mempool. -/
structure Committed where
  sent : List Id
  diff : Bool
  notify : Option Nat
deriving DecidableEq, Repr

/-- `commit_valid_master_block`, commit.rs:55-175, after the extraction. `delayed` is the anchor that
`notify_to_mempool_and_process_delayed_mc_state_update` returned (46-52). -/
def decideCommit (g : Subgraph) : Committed :=
  if g.master.kind = .collated .validated false then
    { sent := ((g.master :: g.shards).filter (·.sends)).map (·.id), diff := false, notify := none }
  else if (match g.master.kind with
      | .collated .skipped _ => true
      | .collated .collated _ => true
      | _ => false) then
    { sent := [], diff := false, notify := none }
  else { sent := [], diff := true, notify := g.master.anchor }

/-- `commit_valid_master_block`, commit.rs:30-175: extraction, the new gc boundary, the decision, and the gc on exit. -/
def Cache.commit (c : Cache) (id : Id) (delayed : Option Nat) : Cache × Committed :=
  match c.extract id with
  | (c, none) => (c.gc, { sent := [], diff := false, notify := delayed })
  | (c, some g) => ((c.setGc g.master.topKeys).gc, decideCommit g)

/-- The operations on the cache. `pop` is followed by `setGc` of the popped block's top keys at both call sites
(msgs_queue.rs:629-669, sync.rs:696-710), unless an error intervenes: `gcSet` says whether it happened. -/
inductive Op where
  | collated (b : Block)
  | received (b : Block)
  | validation (id : Id) (complete : Bool)
  | pop (from_ : Nat) (gcSet : Bool)
  | commit (id : Id) (delayed : Option Nat)
  | gc
  | removeNext (ks : List (Nat × Nat))
  | takeTops (next : Nat) (shs : List Nat)
  | resetTops

/-- The gc boundary set after a pop (msgs_queue.rs:668-669, sync.rs:709-710). -/
def Cache.afterPop (r : Cache × Option (Subgraph × Bool)) (gcSet : Bool) : Cache := match r with
  | (c, some (g, _)) => if gcSet then c.setGc g.master.topKeys else c
  | (c, none) => c

/-- One operation. -/
def step (c : Cache) : Op → Cache
  | .collated b => (c.storeCollated b).1
  | .received b => (c.storeReceived b).1
  | .validation i v => (c.storeValidation i v).1
  | .pop f g => Cache.afterPop (c.popFront f) g
  | .commit i d => (c.commit i d).1
  | .gc => c.gc
  | .removeNext ks => c.removeNext ks
  | .takeTops n shs => (c.takeTops n shs).1
  | .resetTops => c.resetTops

/-- A history of operations from an empty cache. -/
def run (zero : Nat) (ops : List Op) : Cache := ops.foldl step (Cache.init zero)

end Tycho.BlocksCache
