import Verif.Common.Table
/-!
The peer schedule of the mempool: which validators are in charge of a round, which of them are reachable, which are
banned. Models `consensus/src/intercom/peer_schedule/{epoch_starts,stateless,stateful,locked,impl_,stats_ranges}.rs`.

Simplifications: peers are numbers; hash sets are lists read through membership, hash maps are association lists; rounds
are natural numbers (`Round` is a `u32`, `Round::next` panics at the maximum); key pairs are reduced to the peer id of
the local key; metrics and logs are left out. All writing calls hold the write lock of `PeerSchedule` and are therefore
atomic steps; the lock-free part is a stream of published snapshots, which is kept as a list. A panic is `none`.
-/
namespace Tycho.PeerSchedule
open Tycho.Table

/-- A peer (`PeerId`, 32 bytes). -/
abbrev Peer := Nat
/-- A round (`Round(u32)`, consensus/src/models/point/parts.rs:166-187). -/
abbrev Round := Nat

/-- An array of four, as the arrays of stateless.rs:17-20 and stateful.rs:14-16: oldest, previous, current, next. -/
structure Four (α : Type) where
  oldest : α
  prev : α
  curr : α
  next : α
  deriving Repr, DecidableEq

/-- `arr[idx]`. -/
def Four.at {α : Type} (f : Four α) (i : Nat) : α :=
  match i with
  | 0 => f.oldest
  | 1 => f.prev
  | 2 => f.curr
  | _ => f.next

/-- `rotate_left(1)`. -/
def Four.rotl {α : Type} (f : Four α) : Four α := ⟨f.prev, f.curr, f.next, f.oldest⟩

/-- `EpochStarts` (epoch_starts.rs:5-18). -/
structure EpochStarts where
  oldest : Round
  prev : Round
  curr : Round
  next : Option Round
  deriving Repr, DecidableEq

/-- `EpochStarts::default` (epoch_starts.rs:11-18); `Round::BOTTOM` is 0. -/
def EpochStarts.init : EpochStarts := ⟨0, 0, 0, none⟩

/-- `self.next.is_some_and(|r| round >= r)` (epoch_starts.rs:41). -/
def EpochStarts.inNext (s : EpochStarts) (round : Round) : Bool :=
  match s.next with
  | some r => decide (r ≤ round)
  | none => false

/-- `EpochStarts::arr_idx` (epoch_starts.rs:40-52). -/
def EpochStarts.arrIdx (s : EpochStarts) (round : Round) : Option Nat :=
  if s.inNext round then some 3
  else if s.curr ≤ round then some 2
  else if s.prev ≤ round then some 1
  else if s.oldest ≤ round then some 0
  else none

/-- `EpochStarts::epoch_start` (epoch_starts.rs:33-38). -/
def EpochStarts.epochStart (s : EpochStarts) (round : Round) : Option Round :=
  match s.arrIdx round with
  | none => none
  | some 3 => s.next
  | some 0 => some s.oldest
  | some 1 => some s.prev
  | some _ => some s.curr

/-- `EpochStarts::rotate` (epoch_starts.rs:54-65); `none` is a panic. -/
def EpochStarts.rotate (s : EpochStarts) : Option EpochStarts :=
  match s.next with
  | none => none
  | some n => if s.curr < n then some ⟨s.prev, s.curr, n, none⟩ else none

/-- `PeerScheduleStateless` (stateless.rs:13-30), the part published without a lock. -/
structure Stateless where
  localId : Peer
  slots : Four (Table Peer Nat)
  vecs : Four (List Peer)
  sets : Four (List Peer)
  banned : List Peer
  starts : EpochStarts
  deriving Repr, DecidableEq

/-- `PeerScheduleStateless::new` (stateless.rs:39-55). -/
def Stateless.new (localId : Peer) : Stateless :=
  ⟨localId, ⟨[], [], [], []⟩, ⟨[], [], [], []⟩, ⟨[], [], [], []⟩, [], .init⟩

/-- `peers_ordered_for` (stateless.rs:110-117). -/
def Stateless.peersOrderedFor (s : Stateless) (round : Round) : List Peer :=
  match s.starts.arrIdx round with
  | none => []
  | some i => s.vecs.at i

/-- `peers_for` (stateless.rs:119-126). -/
def Stateless.peersFor (s : Stateless) (round : Round) : List Peer :=
  match s.starts.arrIdx round with
  | none => []
  | some i => s.sets.at i

/-- `local_keys` (stateless.rs:94-101): whether the local key may be used in the round. -/
def Stateless.localKeys (s : Stateless) (round : Round) : Bool := (s.peersFor round).contains s.localId

/-- `KeyGroup` (stateless.rs:32-37): which uses of the local key are permitted. -/
structure KeyGroup where
  toProduce : Bool
  toInclude : Bool
  toWitness : Bool
  deriving Repr, DecidableEq

/-- `key_group` (stateless.rs:82-92). -/
def Stateless.keyGroup (s : Stateless) (current : Round) : KeyGroup :=
  { toProduce := s.localKeys current
    toInclude := s.localKeys (current + 1)
    toWitness := s.localKeys (current + 1) && s.localKeys current }

/-- `is_in_active_v_subset` (stateless.rs:130-137). -/
def Stateless.isInActive (s : Stateless) (p : Peer) : Bool :=
  (s.sets.curr.contains p || s.sets.prev.contains p || s.sets.next.contains p || s.sets.oldest.contains p) &&
    !s.banned.contains p

/-- Insertion by the validator index: the sort of stateless.rs:156-157 (the order of equal indices is not defined
there; here the first one goes last). -/
def insertByIdx (e : Peer × Nat) : List (Peer × Nat) → List (Peer × Nat)
  | [] => [e]
  | x :: l => if e.2 < x.2 then e :: x :: l else x :: insertByIdx e l

/-- `sort_unstable_by_key(validator_idx)` (stateless.rs:156-157). -/
def sortByIdx : List (Peer × Nat) → List (Peer × Nat)
  | [] => []
  | e :: l => insertByIdx e (sortByIdx l)

/-- `enumerate().map(|(slot, (peer_id, _))| (peer_id, slot))` (stateless.rs:158-162), from the slot `n`. -/
def slotsFrom (n : Nat) : List (Peer × Nat) → Table Peer Nat
  | [] => []
  | e :: l => (e.1, n) :: slotsFrom (n + 1) l

/-- `set_next_peers` (stateless.rs:151-168). -/
def Stateless.setNextPeers (s : Stateless) (start : Round) (sub : List (Peer × Nat)) : Stateless :=
  { s with
    slots := { s.slots with next := slotsFrom 0 (sortByIdx sub) }
    sets := { s.sets with next := sub.map (·.1) }
    vecs := { s.vecs with next := sub.map (·.1) }
    starts := { s.starts with next := some start } }

/-- `insert_banned` (stateless.rs:170-172). -/
def Stateless.insertBanned (s : Stateless) (ps : List Peer) : Stateless := { s with banned := ps ++ s.banned }

/-- `remove_banned` (stateless.rs:174-178). -/
def Stateless.removeBanned (s : Stateless) (ps : List Peer) : Stateless :=
  { s with banned := s.banned.filter (fun p => !ps.contains p) }

/-- `rotate` (stateless.rs:181-194); `none` is a panic. -/
def Stateless.rotate (s : Stateless) : Option Stateless :=
  if s.sets.oldest.isEmpty && s.vecs.oldest.isEmpty then
    match s.starts.rotate with
    | none => none
    | some st => some { s with starts := st, slots := s.slots.rotl, sets := s.sets.rotl, vecs := s.vecs.rotl }
  else none

/-- `forget_oldest` (stateless.rs:196-201). -/
def Stateless.forgetOldest (s : Stateless) : Stateless :=
  { s with
    slots := { s.slots with oldest := [] }
    sets := { s.sets with oldest := [] }
    vecs := { s.vecs with oldest := [] } }

/-- `StatsRanges::stats_since` (stats_ranges.rs:29-40); the addition of rounds saturates, here it does not. -/
def Stateless.statsSince (s : Stateless) (anchor lag : Round) : Option Round :=
  if s.starts.epochStart anchor = s.starts.epochStart (anchor + lag) then s.starts.epochStart anchor else none

/-- `StatsRanges::stats_slot_map` (stats_ranges.rs:42-50). -/
def Stateless.slotMap (s : Stateless) (anchor : Round) : Option (Table Peer Nat) :=
  match s.starts.arrIdx anchor with
  | none => none
  | some i => if (s.slots.at i).isEmpty then none else some (s.slots.at i)

/-- `PeerScheduleStateful` (stateful.rs:11-24); `true` is `PeerState::Resolved`, `false` is `PeerState::Unknown`. -/
structure Stateful where
  vset : Four (Table Peer Bool)
  active : Four (Table Peer Bool)
  starts : EpochStarts
  receivers : List Peer
  allResolved : List Peer
  toForget : List Peer
  deriving Repr, DecidableEq

/-- `PeerScheduleStateful::default` (stateful.rs:11). -/
def Stateful.new : Stateful := ⟨⟨[], [], [], []⟩, ⟨[], [], [], []⟩, .init, [], [], []⟩

/-- `contains_key`. -/
def hasKey (t : Table Peer Bool) (p : Peer) : Bool := (Table.get t p).isSome

/-- `is_in_any_vset` (stateful.rs:33-35). -/
def Stateful.inAnyVset (d : Stateful) (p : Peer) : Bool :=
  hasKey d.vset.oldest p || hasKey d.vset.prev p || hasKey d.vset.curr p || hasKey d.vset.next p

/-- `peers_state_for` (stateful.rs:38-45). -/
def Stateful.peersStateFor (d : Stateful) (round : Round) : Table Peer Bool :=
  match d.starts.arrIdx round with
  | none => []
  | some i => d.active.at i

/-- `peer_state` (stateful.rs:48-52). -/
def Stateful.peerState (d : Stateful) (p : Peer) : Bool := d.allResolved.contains p

/-- Change of the state of one peer in a map that may have it (stateful.rs:59-65, 71-74). -/
def setIn (t : Table Peer Bool) (p : Peer) (st : Bool) : Table Peer Bool :=
  t.map (fun e => if e.1 = p then (e.1, st) else e)

/-- `.get(peer_id).is_some_and(|old| *old != state)` (stateful.rs:67-70). -/
def differs (t : Table Peer Bool) (p : Peer) (st : Bool) : Bool :=
  match Table.get t p with
  | some old => old != st
  | none => false

/-- Removal from or insertion to a set (stateful.rs:81-84, 87-90). -/
def setMember (l : List Peer) (p : Peer) (st : Bool) : List Peer :=
  if st then p :: l else l.filter (fun q => !decide (q = p))

/-- The first loops of `set_state` (stateful.rs:59-78). -/
def Stateful.setMaps (d : Stateful) (p : Peer) (st : Bool) : Stateful :=
  { d with
    vset := ⟨setIn d.vset.oldest p st, setIn d.vset.prev p st, setIn d.vset.curr p st, setIn d.vset.next p st⟩
    active :=
      ⟨setIn d.active.oldest p st, setIn d.active.prev p st, setIn d.active.curr p st, setIn d.active.next p st⟩ }

/-- `is_broadcast_receiver` (stateful.rs:76). -/
def Stateful.changesReceiver (d : Stateful) (p : Peer) (st : Bool) : Bool :=
  differs d.active.curr p st || differs d.active.next p st

/-- `is_applied` (stateful.rs:75). -/
def Stateful.isApplied (d : Stateful) (p : Peer) (st : Bool) : Bool :=
  differs d.active.oldest p st || differs d.active.prev p st || d.changesReceiver p st

/-- `set_state` (stateful.rs:56-93): the new state and whether other tasks have to be notified. -/
def Stateful.setState (d : Stateful) (p : Peer) (st : Bool) : Stateful × Bool :=
  if d.isApplied p st then
    ({ d.setMaps p st with
        receivers := if d.changesReceiver p st then setMember d.receivers p st else d.receivers
        allResolved := setMember d.allResolved p st }, true)
  else (d.setMaps p st, false)

/-- States of a new set (stateful.rs:102-111, 138-147). -/
def statesOf (ps resolved : List Peer) : Table Peer Bool := ps.map (fun p => (p, resolved.contains p))

/-- Peers of the old next set that no other set has (stateful.rs:112-121). -/
def Stateful.forgetNext (d : Stateful) (new : Table Peer Bool) : List Peer :=
  (d.vset.next.map (·.1)).filter
    (fun p => !(hasKey d.vset.oldest p || hasKey d.vset.prev p || hasKey d.vset.curr p || hasKey new p))

/-- `set_next_validator_set` (stateful.rs:97-131): the new state and the peers to forget. -/
def Stateful.setNextVset (d : Stateful) (ps resolved : List Peer) : Stateful × List Peer :=
  ({ d with
      vset := { d.vset with next := statesOf ps resolved }
      allResolved := resolved
      receivers := d.receivers.filter (fun p => !(d.forgetNext (statesOf ps resolved)).contains p)
      toForget := d.toForget ++ d.forgetNext (statesOf ps resolved) },
   d.forgetNext (statesOf ps resolved))

/-- Peers of a map that are resolved. -/
def resolvedOf (t : Table Peer Bool) : List Peer := (t.filter (·.2)).map (·.1)

/-- `set_next_subset` (stateful.rs:133-154). -/
def Stateful.setNextSubset (d : Stateful) (sub : List (Peer × Nat)) : Stateful :=
  { d with
    active := { d.active with next := statesOf (sub.map (·.1)) d.allResolved }
    receivers := resolvedOf d.active.curr ++ resolvedOf (statesOf (sub.map (·.1)) d.allResolved) }

/-- `rotate` (stateful.rs:157-168); `none` is a panic. -/
def Stateful.rotate (d : Stateful) : Option Stateful :=
  if d.vset.oldest.isEmpty && d.active.oldest.isEmpty then
    match d.starts.rotate with
    | none => none
    | some st => some { d with starts := st, vset := d.vset.rotl, active := d.active.rotl }
  else none

/-- Peers of the oldest set that no other set has (stateful.rs:174-179). -/
def Stateful.onlyOldest (d : Stateful) : Table Peer Bool :=
  d.vset.oldest.filter (fun e => !hasKey d.vset.prev e.1 && !hasKey d.vset.curr e.1 && !hasKey d.vset.next e.1)

/-- `forget_oldest` (stateful.rs:171-191): the new state and the peers to forget. -/
def Stateful.forgetOldest (d : Stateful) : Stateful × List Peer :=
  ({ d with
      vset := { d.vset with oldest := [] }
      active := { d.active with oldest := [] }
      allResolved := d.allResolved.filter (fun p => !(resolvedOf d.onlyOldest).contains p)
      receivers := d.receivers.filter (fun p => !(resolvedOf d.onlyOldest).contains p)
      toForget := d.toForget ++ d.onlyOldest.map (·.1) },
   d.onlyOldest.map (·.1))

/-- The whole schedule: `PeerScheduleInner` with `PeerScheduleLocked` (impl_.rs:36-39, locked.rs:11-27). `entries` are
the members of the private overlay (network/src/overlay/private_overlay.rs:192-302); `waiters` are the peers the running
resolve task waits for (empty if there is no task); `popped` are the peers a resolve task (running or already aborted)
got from its stream while it waits for the lock; `resolved` is the environment: the peers whose handle says
`is_resolved()`; `sent` is everything sent to the `updates` channel, newest first; `published` are all snapshots that
were stored to `atomic`, newest first. -/
structure Sched where
  localId : Peer
  entries : List Peer
  banned : List Peer
  data : Stateful
  waiters : List Peer
  popped : List Peer
  resolved : List Peer
  sent : List (Peer × Bool)
  atomic : Stateless
  published : List Stateless
  deriving Repr, DecidableEq

/-- `PeerSchedule::new` (impl_.rs:84-90). -/
def Sched.new (localId : Peer) : Sched :=
  ⟨localId, [], [], .new, [], [], [], [], .new localId, [.new localId]⟩

/-- `entries.insert` (private_overlay.rs:266-288). -/
def insertEntry (l : List Peer) (p : Peer) : List Peer := if l.contains p then l else p :: l

/-- `entries.remove` (private_overlay.rs:293-301). -/
def removeEntry (l : List Peer) (p : Peer) : List Peer := l.filter (fun q => !decide (q = p))

/-- `resolved_waiters` and `new_resolve_task` (impl_.rs:302-330): the old task is aborted, the new one waits for the
entries that are not resolved yet. -/
def Sched.restart (s : Sched) : Sched :=
  { s with waiters := s.entries.filter (fun p => !(decide (p = s.localId) || s.resolved.contains p)) }

/-- `update_atomic` (impl_.rs:278-285). -/
def Sched.publish (s : Sched) (a : Stateless) : Sched := { s with atomic := a, published := a :: s.published }

/-- `set_state` with the notification (locked.rs:46-52, 63-66, 88-91). -/
def Sched.change (s : Sched) (p : Peer) (st : Bool) : Sched :=
  { s with
    data := (s.data.setState p st).1
    sent := if (s.data.setState p st).2 then (p, st) :: s.sent else s.sent }

/-- One step of the loop of `set_banned` (locked.rs:57-69). -/
def Sched.banOne (s : Sched) (p : Peer) : Sched :=
  if s.data.inAnyVset p then
    Sched.change { s with banned := p :: s.banned, entries := removeEntry s.entries p } p false
  else { s with banned := p :: s.banned, entries := removeEntry s.entries p }

/-- `need_resolve |= remove_applied` (locked.rs:68). -/
def Sched.banNeeds (s : Sched) (p : Peer) : Bool := s.data.inAnyVset p && (s.data.setState p false).2

/-- The loop of `set_banned` (locked.rs:54-70). -/
def Sched.banLoop (s : Sched) : List Peer → Sched × Bool
  | [] => (s, false)
  | p :: ps => (((s.banOne p).banLoop ps).1, s.banNeeds p || ((s.banOne p).banLoop ps).2)

/-- `PeerScheduleLocked::set_banned` (locked.rs:54-76). -/
def Sched.setBannedLocked (s : Sched) (ps : List Peer) : Sched :=
  if (s.banLoop ps).2 then (s.banLoop ps).1.restart else (s.banLoop ps).1

/-- `PeerSchedule::set_banned` (impl_.rs:167-173). -/
def Sched.setBanned (s : Sched) (ps : List Peer) : Sched :=
  if ps.isEmpty then s
  else (s.setBannedLocked ps).publish ((s.setBannedLocked ps).atomic.insertBanned ps)

/-- One step of the loop of `remove_bans` (locked.rs:81-96). -/
def Sched.unbanOne (s : Sched) (p : Peer) : Sched :=
  if s.data.inAnyVset p then
    if s.resolved.contains p then
      Sched.change { s with banned := removeEntry s.banned p, entries := insertEntry s.entries p } p true
    else { s with banned := removeEntry s.banned p, entries := insertEntry s.entries p }
  else { s with banned := removeEntry s.banned p }

/-- `need_resolve = true` (locked.rs:93). -/
def Sched.unbanNeeds (s : Sched) (p : Peer) : Bool := s.data.inAnyVset p && !s.resolved.contains p

/-- The loop of `remove_bans` (locked.rs:78-97). -/
def Sched.unbanLoop (s : Sched) : List Peer → Sched × Bool
  | [] => (s, false)
  | p :: ps => (((s.unbanOne p).unbanLoop ps).1, s.unbanNeeds p || ((s.unbanOne p).unbanLoop ps).2)

/-- `PeerScheduleLocked::remove_bans` (locked.rs:78-103). -/
def Sched.removeBansLocked (s : Sched) (ps : List Peer) : Sched :=
  if (s.unbanLoop ps).2 then (s.unbanLoop ps).1.restart else (s.unbanLoop ps).1

/-- `PeerSchedule::remove_bans` (impl_.rs:175-181). -/
def Sched.removeBans (s : Sched) (ps : List Peer) : Sched :=
  if ps.isEmpty then s
  else (s.removeBansLocked ps).publish ((s.removeBansLocked ps).atomic.removeBanned ps)

/-- `PeerScheduleLocked::forget_oldest` (locked.rs:105-121). -/
def Sched.forgetOldest (s : Sched) : Sched :=
  Sched.restart
    { s with
      data := s.data.forgetOldest.1
      entries := s.data.forgetOldest.2.foldl removeEntry s.entries }

/-- Entries after the insertions of `set_next_set` (locked.rs:128-132). -/
def Sched.newEntries (s : Sched) (vset : List Peer) : List Peer :=
  (vset.filter (fun p => !s.banned.contains p)).foldl insertEntry s.entries

/-- `all_resolved` of `set_next_set` (locked.rs:134-138). -/
def Sched.resolvedEntries (s : Sched) (vset : List Peer) : List Peer :=
  (s.newEntries vset).filter (fun p => s.resolved.contains p && !decide (p = s.localId))

/-- `PeerScheduleLocked::set_next_set` (locked.rs:123-150). -/
def Sched.setNextSet (s : Sched) (vset : List Peer) : Sched :=
  Sched.restart
    { s with
      data := (s.data.setNextVset vset (s.resolvedEntries vset)).1
      entries := (s.data.setNextVset vset (s.resolvedEntries vset)).2.foldl removeEntry (s.newEntries vset) }

/-- `data.set_next_subset` and `epoch_starts.next = Some(next_round)` (impl_.rs:224-225). -/
def Sched.setSub (s : Sched) (start : Round) (sub : List (Peer × Nat)) : Sched :=
  { s with data := { s.data.setNextSubset sub with starts := { s.data.starts with next := some start } } }

/-- `PeerSchedule::set_next_subset` (impl_.rs:194-239). -/
def Sched.setNextSubset (s : Sched) (vset : List Peer) (start : Round) (sub : List (Peer × Nat)) : Sched :=
  if start ≤ s.data.starts.curr ∨ sub.isEmpty then s
  else
    ((s.setNextSet vset).setSub start sub).publish
      (((s.setNextSet vset).setSub start sub).atomic.setNextPeers start sub)

/-- `next.is_none_or(|scheduled| scheduled > current)` (impl_.rs:242, 251). -/
def EpochStarts.notYet (s : EpochStarts) (current : Round) : Bool :=
  match s.next with
  | none => true
  | some n => decide (current < n)

/-- The rotation of both parts (impl_.rs:262-270); `none` is a panic. -/
def Sched.rotate (s : Sched) : Option Sched :=
  match s.forgetOldest.data.rotate, s.atomic.forgetOldest.rotate with
  | some d, some a => some (Sched.publish { s.forgetOldest with data := d } a)
  | _, _ => none

/-- `apply_scheduled_impl` (impl_.rs:249-276). -/
def Sched.applyImpl (s : Sched) (current : Round) : Option Sched :=
  if s.data.starts.notYet current then some s else s.rotate

/-- `apply_scheduled` (impl_.rs:241-247), if nothing comes between the check and the lock. -/
def Sched.apply (s : Sched) (current : Round) : Option Sched :=
  if s.atomic.starts.notYet current then some s else s.applyImpl current

/-- `InitPeers` (impl_.rs:51-64). -/
structure InitPeers where
  prevStart : Round
  prevVset : List Peer
  prevSub : List (Peer × Nat)
  currStart : Round
  currVset : List Peer
  currSub : List (Peer × Nat)
  nextVset : List Peer
  deriving Repr, DecidableEq

/-- The last part of `init` and `set_peers` (impl_.rs:119-129, 149-164). -/
def Sched.setCurr (s : Sched) (start : Round) (i : InitPeers) : Option Sched :=
  if i.nextVset.isEmpty then some (s.setNextSubset i.currVset start i.currSub)
  else
    match (s.setNextSubset i.currVset start i.currSub).applyImpl start with
    | none => none
    | some s' => some (s'.setNextSet i.nextVset)

/-- `set_peers` (impl_.rs:137-165). -/
def Sched.setPeers (s : Sched) (i : InitPeers) : Option Sched :=
  match (s.setNextSubset i.prevVset i.prevStart i.prevSub).applyImpl i.prevStart with
  | none => none
  | some s' => s'.setCurr i.currStart i

/-- The previous epoch of `init` (impl_.rs:103-116). -/
def Sched.initPrev (s : Sched) (genesis : Round) (i : InitPeers) : Option Sched :=
  if genesis + 1 < i.currStart then
    (s.setNextSubset i.prevVset (max i.prevStart (genesis + 1)) i.prevSub).applyImpl (max i.prevStart (genesis + 1))
  else some s

/-- `init` (impl_.rs:92-135). -/
def Sched.init (s : Sched) (genesis : Round) (author : Peer) (i : InitPeers) : Option Sched :=
  match (s.setNextSubset [] (genesis - 1) [(author, 0)]).applyImpl (genesis - 1) with
  | none => none
  | some s1 =>
    match s1.initPrev genesis i with
    | none => none
    | some s2 =>
      match s2.setCurr (max i.currStart (genesis + 1)) i with
      | none => none
      | some s3 => some s3.restart

/-- One step of the resolve task under the lock (impl_.rs:338-348). -/
def Sched.applyResolved (s : Sched) (p : Peer) : Sched :=
  if s.banned.contains p then { s with entries := removeEntry s.entries p, popped := s.popped.erase p }
  else Sched.change { s with popped := s.popped.erase p } p true

/-- Everything that may happen to the schedule: calls of its users, and steps of the environment. -/
inductive Act where
  /-- `init` -/
  | init (genesis : Round) (author : Peer) (i : InitPeers)
  /-- `set_peers` -/
  | setPeers (i : InitPeers)
  /-- `apply_scheduled` -/
  | apply (current : Round)
  /-- `apply_scheduled` that passed its first check some time ago -/
  | applyLate (current : Round)
  /-- `set_banned` -/
  | ban (ps : List Peer)
  /-- `remove_bans` -/
  | unban (ps : List Peer)
  /-- `to_forget` (impl_.rs:190-192) -/
  | takeForget
  /-- the handle of a peer becomes resolved (network/src/dht/peer_resolver.rs:509-512); a handle stays so
  (peer_resolver.rs:519-521), but a peer without an entry has no handle and may get a new one that is not -/
  | resolve (p : Peer) (on : Bool)
  /-- the resolve task gets a resolved peer from its stream (impl_.rs:336) -/
  | pop (p : Peer)
  /-- it gets the lock -/
  | applyResolved (p : Peer)
  deriving Repr, DecidableEq

/-- One step; `none` is a panic. -/
def Sched.act (s : Sched) : Act → Option Sched
  | .init g a i => s.init g a i
  | .setPeers i => s.setPeers i
  | .apply c => s.apply c
  | .applyLate c => s.applyImpl c
  | .ban ps => some (s.setBanned ps)
  | .unban ps => some (s.removeBans ps)
  | .takeForget => some { s with data := { s.data with toForget := [] } }
  | .resolve p on =>
    some (if on || !s.entries.contains p then { s with resolved := setMember s.resolved p on } else s)
  | .pop p =>
    some (if s.waiters.contains p && s.resolved.contains p then
      { s with waiters := s.waiters.erase p, popped := p :: s.popped } else s)
  | .applyResolved p => some (if s.popped.contains p then s.applyResolved p else s)

/-- A history of steps. -/
def Sched.run (s : Sched) : List Act → Option Sched
  | [] => some s
  | a :: as =>
    match s.act a with
    | none => none
    | some s' => s'.run as

end Tycho.PeerSchedule
