import Verif.Common.Table
/-!
The registry of known peers: `KnownPeers`, `KnownPeerHandle`, `WeakKnownPeerHandle`
(network/src/network/connection_manager.rs:1150-1680).

Memory is explicit: the shared data of a peer (`KnownPeerInner`, behind an `Arc`) is a numbered `Inner`, the wrapper of
handles with affinity (`Arc<KnownPeerHandleWithAffinity>`) is a numbered entry of `wraps`, a handle is a numbered entry of
`handles`. Reference counts are the numbers of handles. A call is one step, except for the drop of a handle, which releases
the memory first and removes the entry of the map in a step of its own, and for calls that hold a temporary reference
(`peek`/`unpeek`). The map, the creation times and the counters of affinity are exactly those of the code; metrics are not
modelled; a registry that was dropped before its handles is not modelled.
-/
namespace Tycho.KnownPeers
open Tycho.Table
open Tycho.Table (get)

/-- `AFFINITY_BANNED = usize::MAX` (1655), on a 64-bit machine. -/
def banned : Nat := 2 ^ 64 - 1

/-- The parts of `PeerInfo` used here. -/
structure Info where
  /-- `id` -/
  peer : Nat
  /-- `created_at` -/
  created : Nat
  deriving DecidableEq, Repr

/-- `KnownPeerInner` (1524-1528). -/
structure Inner where
  /-- `peer_info` -/
  info : Info
  /-- `affinity` -/
  aff : Nat
  deriving DecidableEq, Repr

/-- `PeerAffinity`. -/
inductive Affinity | allowed | high | never
  deriving DecidableEq, Repr

/-- `KnownPeerInner::compute_affinity` (1547-1553). -/
def Inner.affinity (x : Inner) : Affinity :=
  if x.aff = 0 then .allowed else if x.aff = banned then .never else .high

/-- `KnownPeerInner::is_banned` (1543-1545). -/
def Inner.isBanned (x : Inner) : Bool := decide (x.aff = banned)

/-- `KnownPeerInner::increase_affinity` (1555-1571); the loop of compare-and-swaps is one step. -/
def Inner.inc (x : Inner) : Inner := if x.aff = banned then x else { x with aff := x.aff + 1 }

/-- `KnownPeerInner::decrease_affinity` (1573-1589): the subtraction wraps around in a release build. -/
def Inner.dec (x : Inner) : Inner :=
  if x.aff = banned then x else if x.aff = 0 then { x with aff := banned } else { x with aff := x.aff - 1 }

/-- A ban: `affinity.store(AFFINITY_BANNED)`. -/
def Inner.ban (x : Inner) : Inner := { x with aff := banned }

/-- `KnownPeerState` (1308-1311); a weak reference is the number of the inner. -/
inductive Entry
  | stored (inner : Nat)
  | banned
  deriving DecidableEq, Repr

/-- `KnownPeerHandleState` (1449-1453): the number of the inner or of the wrapper. -/
inductive Handle
  | simple (inner : Nat)
  | aff (wrap : Nat)
  deriving DecidableEq, Repr

/-- The registry and the memory it shares with its handles. -/
structure St where
  /-- The map of the registry. -/
  entries : Table Nat Entry
  /-- All inners ever allocated. -/
  inners : Nat → Inner
  /-- The number of the next inner. -/
  nextInner : Nat
  /-- The living wrappers, with the inner each one holds. -/
  wraps : Table Nat Nat
  /-- The number of the next wrapper. -/
  nextWrap : Nat
  /-- The living handles. -/
  handles : Table Nat Handle
  /-- The number of the next handle. -/
  nextHandle : Nat
  /-- Temporary references held by running calls. -/
  temps : List Nat
  /-- Removals from the map owed by drops of last handles: peer ids. -/
  pend : List Nat

/-- `KnownPeers::new` (1155-1157). -/
def St.new : St := ⟨[], fun _ => ⟨⟨0, 0⟩, 0⟩, 0, [], 0, [], 0, [], []⟩

/-- `KnownPeerHandle::inner` (1441-1446). -/
def St.innerOf (s : St) : Handle → Option Nat
  | .simple i => some i
  | .aff w => get s.wraps w

/-- Whether the strong count of an inner is not zero, so that a weak reference can be upgraded: handles without affinity,
wrappers and temporary references hold it. -/
def St.live (s : St) (i : Nat) : Bool :=
  s.handles.any (fun e => e.2 == .simple i) || s.wraps.any (fun e => e.2 == i) || s.temps.contains i

/-- A change of an inner in place. -/
def St.edit (s : St) (i : Nat) (f : Inner → Inner) : St :=
  { s with inners := fun j => if j = i then f (s.inners j) else s.inners j }

/-- The strong reference a registry entry leads to: `item.upgrade()`. -/
def St.find (s : St) (p : Nat) : Option Nat := match get s.entries p with
  | some (.stored i) => if s.live i then some i else none
  | _ => none

/-! ### Queries -/

/-- `KnownPeers::contains` (1159-1161). -/
def St.contains (s : St) (p : Nat) : Bool := (get s.entries p).isSome

/-- `KnownPeers::is_banned` (1163-1173). -/
def St.isBanned (s : St) (p : Nat) : Bool := match get s.entries p with
  | none => false
  | some .banned => true
  | some (.stored i) => if s.live i then (s.inners i).isBanned else false

/-- `KnownPeers::get` (1175-1183). -/
def St.peerInfo (s : St) (p : Nat) : Option Info := match get s.entries p with
  | some (.stored i) => if s.live i then some (s.inners i).info else none
  | _ => none

/-- `KnownPeers::get_affinity` (1185-1189), `KnownPeerState::compute_affinity` (1314-1319). -/
def St.getAffinity (s : St) (p : Nat) : Option Affinity := match get s.entries p with
  | none => none
  | some .banned => some .never
  | some (.stored i) => if s.live i then some (s.inners i).affinity else none

/-! ### Calls -/

/-- `KnownPeerHandle::from_inner` (1327-1335). -/
def St.handleSimple (s : St) (i : Nat) : St :=
  { s with handles := put s.handles s.nextHandle (.simple i), nextHandle := s.nextHandle + 1 }

/-- The same with affinity: a new wrapper. -/
def St.handleAff (s : St) (i : Nat) : St :=
  { s with wraps := put s.wraps s.nextWrap i, nextWrap := s.nextWrap + 1,
           handles := put s.handles s.nextHandle (.aff s.nextWrap), nextHandle := s.nextHandle + 1 }

/-- `KnownPeerHandle::from_inner` (1327-1335). -/
def St.fromInner (s : St) (i : Nat) (aff : Bool) : St := if aff then s.handleAff i else s.handleSimple i

/-- `KnownPeerInner::new` (1531-1541) and the entry that refers to it (1240-1243, 1250-1254). -/
def St.alloc (s : St) (info : Info) (aff : Bool) : St :=
  { s with inners := fun j => if j = s.nextInner then ⟨info, if aff then 1 else 0⟩ else s.inners j,
           nextInner := s.nextInner + 1, entries := put s.entries info.peer (.stored s.nextInner) }

/-- The part of `try_update_peer_info` (1591-1652) after the check for a ban: the info is replaced by a newer one. -/
def Inner.newer (x : Inner) (info : Info) : Inner := if x.info.created < info.created then { x with info := info } else x

/-- What a call answers. -/
inductive Res
  | handle (h : Nat)
  | done
  | outdated
  | isBanned
  | none
  deriving DecidableEq, Repr

/-- `try_update_peer_info` with affinity asked for: affinity is increased first, and the guard that would restore it is
disarmed whether or not the info was outdated (1650). -/
def Inner.update (x : Inner) (info : Info) (aff : Bool) : Inner := ((if aff then x.inc else x).newer info)

/-- `KnownPeers::insert` (1232-1268) and `insert_allow_outdated` (1271-1305), by `allow`. -/
def St.insert (s : St) (info : Info) (aff allow : Bool) : St × Res := match get s.entries info.peer with
  | some .banned => (s, .isBanned)
  | none => ((s.alloc info aff).fromInner s.nextInner aff, .handle s.nextHandle)
  | some (.stored i) =>
    if s.live i then
      if (s.inners i).isBanned then (s, .isBanned)
      else if info.created < (s.inners i).info.created ∧ allow = false then
        (s.edit i (fun x => x.update info aff), .outdated)
      else ((s.edit i (fun x => x.update info aff)).fromInner i aff, .handle s.nextHandle)
    else ((s.alloc info aff).fromInner s.nextInner aff, .handle s.nextHandle)

/-- `KnownPeerHandle::update_peer_info` (1353-1359). -/
def St.update (s : St) (h : Nat) (info : Info) : St × Res := match (get s.handles h).bind s.innerOf with
  | none => (s, .none)
  | some i =>
    if (s.inners i).isBanned then (s, .isBanned)
    else if info.created < (s.inners i).info.created then (s, .outdated)
    else (s.edit i (fun x => x.newer info), .done)

/-- `KnownPeers::ban` (1196-1216). -/
def St.ban (s : St) (p : Nat) : St := match get s.entries p with
  | none => { s with entries := put s.entries p .banned }
  | some .banned => s
  | some (.stored i) => if s.live i then s.edit i Inner.ban else { s with entries := put s.entries p .banned }

/-- `KnownPeerHandle::ban` (1361-1364). -/
def St.banHandle (s : St) (h : Nat) : St := match (get s.handles h).bind s.innerOf with
  | none => s
  | some i => s.edit i Inner.ban

/-- `KnownPeers::make_handle` (1218-1231). -/
def St.make (s : St) (p : Nat) (aff : Bool) : St × Res := match s.find p with
  | none => (s, .none)
  | some i =>
    if aff then
      if (s.inners i).isBanned then (s, .none)
      else ((s.edit i Inner.inc).handleAff i, .handle s.nextHandle)
    else (s.handleSimple i, .handle s.nextHandle)

/-- `Clone` of a handle; also the upgrade of a weak handle with affinity, which needs a living one (1495-1498). -/
def St.clone (s : St) (h : Nat) : St × Res := match get s.handles h with
  | none => (s, .none)
  | some x => ({ s with handles := put s.handles s.nextHandle x, nextHandle := s.nextHandle + 1 }, .handle s.nextHandle)

/-- `WeakKnownPeerHandle::upgrade` of a handle without affinity (1492-1494). -/
def St.upgrade (s : St) (i : Nat) : St × Res :=
  if s.live i then (s.handleSimple i, .handle s.nextHandle) else (s, .none)

/-- The handle `h` becomes a handle with a new wrapper. -/
def St.wrap (s : St) (h i : Nat) : St :=
  { s with wraps := put s.wraps s.nextWrap i, nextWrap := s.nextWrap + 1, handles := put s.handles h (.aff s.nextWrap) }

/-- `KnownPeerHandle::increase_affinity` (1366-1392). -/
def St.increase (s : St) (h : Nat) : St := match get s.handles h with
  | some (.simple i) => (s.edit i Inner.inc).wrap h i
  | _ => s

/-- Whether another handle shares the wrapper: the strong count of the wrapper is more than one. -/
def St.shared (s : St) (h w : Nat) : Bool := s.handles.any (fun e => e.1 != h && e.2 == .aff w)

/-- The handle `h` no longer refers to the wrapper `w`: the wrapper is freed when no other handle shares it. -/
def St.unwrap (s : St) (h w : Nat) : St :=
  if s.shared h w then s else { s with wraps := del s.wraps (fun x => decide (x = w)) }

/-- The handle `h` becomes a handle without affinity. -/
def St.toSimple (s : St) (h i : Nat) : St := { s with handles := put s.handles h (.simple i) }

/-- `KnownPeerHandle::decrease_affinity` (1394-1426): the affinity is decreased whether or not the wrapper is shared. -/
def St.decrease (s : St) (h : Nat) : St := match get s.handles h with
  | some (.aff w) => match get s.wraps w with
    | some i => ((s.edit i Inner.dec).unwrap h w).toSimple h i
    | none => s
  | _ => s

/-- The handle is gone. -/
def St.forget (s : St) (h : Nat) : St := { s with handles := del s.handles (fun x => decide (x = h)) }

/-- The rest of the drop of a handle (1476-1487): when the peer is not banned and this was the last reference, a removal
from the map is owed. The check for a ban and the release of the reference are one step. -/
def St.release (s : St) (i : Nat) : St :=
  if (s.inners i).isBanned then s
  else if s.live i then s
  else { s with pend := s.pend ++ [(s.inners i).info.peer] }

/-- `KnownPeerHandleState::drop` (1455-1488), up to the removal from the map. -/
def St.drop (s : St) (h : Nat) : St := match get s.handles h with
  | none => s
  | some (.simple i) => (s.forget h).release i
  | some (.aff w) =>
    if s.shared h w then s.forget h
    else match get s.wraps w with
      | some i => (((s.edit i Inner.dec).unwrap h w).forget h).release i
      | none => s

/-- The removal owed by a drop: `peers.remove(id)` (1483). -/
def St.finish (s : St) (k : Nat) : St := match s.pend[k]? with
  | none => s
  | some p => { s with pend := s.pend.eraseIdx k, entries := del s.entries (fun x => decide (x = p)) }

/-- A call takes a temporary reference: `upgrade()` in `is_banned`, `get`, `get_affinity`, `ban` or in an `insert` that
fails. -/
def St.peek (s : St) (p : Nat) : St := match s.find p with
  | some i => { s with temps := i :: s.temps }
  | none => s

/-- It is dropped: no entry is removed, even if it was the last reference. -/
def St.unpeek (s : St) (i : Nat) : St := { s with temps := s.temps.erase i }

/-- The steps. -/
inductive Op
  | insert (info : Info) (aff allow : Bool)
  | update (h : Nat) (info : Info)
  | ban (p : Nat)
  | banHandle (h : Nat)
  | make (p : Nat) (aff : Bool)
  | clone (h : Nat)
  | upgrade (i : Nat)
  | increase (h : Nat)
  | decrease (h : Nat)
  | drop (h : Nat)
  | finish (k : Nat)
  | peek (p : Nat)
  | unpeek (i : Nat)
  | remove (p : Nat)
  deriving DecidableEq, Repr

/-- One step; `remove` is `KnownPeers::remove` (1191-1194). -/
def St.step (s : St) : Op → St
  | .insert info aff allow => (s.insert info aff allow).1
  | .update h info => (s.update h info).1
  | .ban p => s.ban p
  | .banHandle h => s.banHandle h
  | .make p aff => (s.make p aff).1
  | .clone h => (s.clone h).1
  | .upgrade i => (s.upgrade i).1
  | .increase h => s.increase h
  | .decrease h => s.decrease h
  | .drop h => s.drop h
  | .finish k => s.finish k
  | .peek p => s.peek p
  | .unpeek i => s.unpeek i
  | .remove p => { s with entries := del s.entries (fun x => decide (x = p)) }

/-- A history. -/
def St.run (l : List Op) : St := l.foldl St.step St.new

end Tycho.KnownPeers
