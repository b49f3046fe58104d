import Mathlib.Data.Prod.Lex
import Mathlib.Data.List.MinMax
import Verif.Common.Table
import Verif.PeerCount.Model

/-! Model of the download of a point: `consensus/src/intercom/dependency/downloader.rs` and
`peer_queue.rs`.

Simplifications. Peers and points are natural numbers. What a peer returns is known when its query
ends, the outcome of parsing when it ends. The ordered map of peers is an association list whose
least status is looked up (`peers` keeps one entry per peer); among equal statuses the first is taken.
Futures in flight are a list, any of which may end next. The limiter that lets the task start, logs,
metrics and reports are left out. The log of queries is history. `none` is a panic. -/
namespace Tycho.Downloader
open Tycho.Table

/-- consensus/src/intercom/dependency/peer_queue.rs:9-21 `struct PeerStatus` (`state` is whether the
peer is resolved). -/
structure Status where
  resolved : Bool
  inFlight : Bool := false
  last : Option Nat := none
  failed : Nat := 0
  indep : Bool := true
  rand : Nat
deriving DecidableEq, Repr

/-- consensus/src/intercom/dependency/peer_queue.rs:8,23-41: the derived order compares the fields one
after another; resolved before unknown, `false` before `true`, `None` before `Some`. -/
abbrev Key := Nat ×ₗ (Nat ×ₗ (Nat ×ₗ (Nat ×ₗ (Nat ×ₗ Nat))))

/-- consensus/src/intercom/dependency/peer_queue.rs:8,23-41 -/
def Status.key (s : Status) : Key :=
  toLex (if s.resolved then 0 else 1, toLex (if s.inFlight then 1 else 0,
    toLex (match s.last with | none => 0 | some a => a + 1,
      toLex (s.failed, toLex (if s.indep then 1 else 0, s.rand)))))

/-- consensus/src/intercom/dependency/peer_queue.rs:54-58 `is_ready_to_query`. -/
def Status.ready (s : Status) (attempt : Nat) : Bool :=
  s.resolved && !s.inFlight && (match s.last with | none => true | some a => decide (a < attempt))

/-- What a download is started with: downloader.rs:88-130. `signers` are the validators of the round
after the point with their state and random number, `authorState` the state of the author. -/
structure Cfg where
  want : Nat
  author : Nat
  signers : Table Nat (Bool × Nat)
  authorState : Bool × Nat
  count : PeerCount.PeerCount
  downloadPeers : Nat

/-- consensus/src/intercom/dependency/downloader.rs:117 -/
def Cfg.authorOut (c : Cfg) : Bool := !decide (c.author ∈ c.signers.map (·.1))

/-- consensus/src/intercom/dependency/downloader.rs:36-40 `DownloadResult`. -/
inductive Result where
  | notFound
  | verified (point : Nat)
  | illFormed (point : Nat)
  /-- the point came by broadcast meanwhile -/
  | fromBroadcast
deriving DecidableEq, Repr

/-- consensus/src/intercom/dependency/downloader.rs:141-163 `struct DownloadTask`, with the parse slot. -/
structure St where
  peers : Table Nat Status
  notFound : List Nat := []
  downloading : List Nat := []
  slot : Option Nat := none
  queue : List Nat := []
  attempt : Nat := 0
  result : Option Result := none
  /-- all queries sent, oldest first -/
  sent : List Nat := []

/-- consensus/src/intercom/dependency/downloader.rs:103-132 -/
def new (c : Cfg) : St :=
  { peers := putAll [] ((c.signers ++ [(c.author, c.authorState)]).map
      (fun e => (e.1, { resolved := e.2.1, rand := e.2.2 }))) }

/-- consensus/src/intercom/dependency/downloader.rs:477-489 `current_peers`. -/
def currentPeers (c : Cfg) (attempt already : Nat) : Nat :=
  min (max (c.downloadPeers * attempt) 1) c.count.reliableMinority - already

/-- The entry with the greatest value of the ordered map, i.e. with the least status. -/
def best (t : Table Nat Status) : Option (Nat × Status) := t.argmin (fun e => e.2.key)

/-- consensus/src/intercom/dependency/peer_queue.rs:69-79 `take_to_flight`. -/
def take (t : Table Nat Status) (attempt : Nat) : Option (Nat × Table Nat Status) :=
  match best t with
  | none => none
  | some (p, s) =>
    if s.ready attempt then some (p, put t p { s with inFlight := true, last := some attempt }) else none

/-- consensus/src/intercom/dependency/downloader.rs:271-290 the loop of `download_random`. -/
def askLoop (s : St) : Nat → St
  | 0 => s
  | n + 1 => match take s.peers s.attempt with
    | none => s
    | some (p, t) => askLoop { s with peers := t, downloading := p :: s.downloading, sent := s.sent ++ [p] } n

/-- consensus/src/intercom/dependency/downloader.rs:271-290 `download_random`. -/
def downloadRandom (c : Cfg) (s : St) : St := askLoop s (currentPeers c s.attempt s.downloading.length)

/-- How a query ends. -/
inductive Answer where
  /-- some bytes, to be parsed -/
  | bytes
  | definedNone
  | tryLater
  | tlError
  | network
deriving DecidableEq, Repr

/-- What parsing and verification give. -/
inductive Parsed where
  /-- a point with good signatures; `ok` tells whether `BasicVerifier` accepts it -/
  | point (id : Nat) (ok : Bool)
  /-- a point with a bad signature of the evidence -/
  | illFormed (id : Nat)
  | badPoint
  | tlError
deriving DecidableEq, Repr

/-- consensus/src/intercom/dependency/downloader.rs:308-315 `on_try_later` (the failure counter
saturates in the code; here it does not). -/
def tryLater (s : St) (p : Nat) : Option St :=
  match get s.peers p with
  | none => none
  | some x => some { s with peers := put s.peers p { x with inFlight := false, failed := x.failed + 1 } }

/-- consensus/src/intercom/dependency/downloader.rs:343-365: the peer is taken out of the map. -/
def takeOut (s : St) (p : Nat) : Option St :=
  match get s.peers p with
  | none => none
  | some x => if x.inFlight then some { s with peers := del s.peers (fun q => decide (q = p)) } else none

/-- consensus/src/intercom/dependency/downloader.rs:356-364 `on_not_found`. -/
def onNotFound (c : Cfg) (s : St) (p : Nat) : St :=
  if c.authorOut && decide (p = c.author) then s else { s with notFound := s.notFound.insert p }

/-- consensus/src/intercom/dependency/downloader.rs:216-222,227-232: the run ends if 2F peers report the
point unavailable. -/
def checkNotFound (c : Cfg) (s : St) : St :=
  if c.count.majorityOfOthers ≤ s.notFound.length then { s with result := some .notFound } else s

/-- consensus/src/intercom/dependency/downloader.rs:193-224 (a query ended), 292-396 `inspect`. -/
def answered (c : Cfg) (s : St) (p : Nat) : Answer → Option St
  | .bytes =>
    some (if s.slot.isSome then { s with queue := p :: s.queue } else { s with slot := some p })
  | .definedNone => (takeOut s p).map fun s => after (checkNotFound c (onNotFound c s p))
  | .tlError => (takeOut s p).map fun s => after (checkNotFound c (onNotFound c s p))
  | .tryLater => (tryLater s p).map fun s => after (checkNotFound c s)
  | .network => (tryLater s p).map fun s => after (checkNotFound c s)
where
  /-- keep the current amount of requests -/
  after (s : St) : St := if s.result.isSome || s.slot.isSome then s else downloadRandom c s

/-- consensus/src/intercom/dependency/downloader.rs:225-243 (parsing ended), 317-440 `inspect`. -/
def parsed (c : Cfg) (s : St) (p : Nat) (r : Parsed) : Option St :=
  (takeOut s p).map fun s =>
    match r with
    | .point id ok =>
      if id = c.want then { s with result := some (if ok then .verified id else .illFormed id) }
      else next (checkNotFound c (onNotFound c s p))
    | .illFormed id =>
      if id = c.want then { s with result := some (.illFormed id) }
      else next (checkNotFound c (onNotFound c s p))
    | .badPoint => next (checkNotFound c (onNotFound c s p))
    | .tlError => next (checkNotFound c (onNotFound c s p))
where
  /-- parse the last of those that wait, or ask more peers -/
  next (s : St) : St :=
    if s.result.isSome then s
    else match s.queue with
      | q :: l => { s with slot := some q, queue := l }
      | [] => downloadRandom c { s with slot := none }

/-- What may happen to a download. -/
inductive Ev where
  /-- the point came by broadcast -/
  | broadcast
  /-- a peer is found to depend on the point -/
  | depender (p : Nat)
  | peer (p : Nat) (resolved : Bool)
  | answer (p : Nat) (a : Answer)
  | parsed (p : Nat) (r : Parsed)
  | tick
deriving DecidableEq, Repr

/-- When an event can happen. -/
def enabled (s : St) : Ev → Prop
  | .answer p _ => s.result = none ∧ p ∈ s.downloading
  | .parsed p _ => s.result = none ∧ s.slot = some p
  | .tick => s.result = none ∧ s.slot = none
  | _ => s.result = none

/-- consensus/src/intercom/dependency/peer_queue.rs:83-94 `update`. -/
def update (s : St) (p : Nat) (f : Status → Status) : St :=
  match get s.peers p with
  | none => s
  | some x => { s with peers := put s.peers p (f x) }

/-- consensus/src/intercom/dependency/downloader.rs:173-254 `DownloadTask::run`, 262-269
`add_depender`, 442-460 `match_peer_updates`; the counter of attempts wraps. -/
def step (c : Cfg) (s : St) : Ev → Option St
  | .broadcast => some { s with result := some .fromBroadcast }
  | .depender p => some (update s p fun x => { x with indep := false })
  | .peer p r => some (update s p fun x => { x with resolved := r })
  | .answer p a => answered c { s with downloading := s.downloading.erase p } p a
  | .parsed p r => parsed c s p r
  | .tick => some (let t := downloadRandom c s; { t with attempt := (t.attempt + 1) % 2 ^ 32 })

/-- States reached by a history. -/
inductive Reach (c : Cfg) : List Ev → St → Prop
  | init : Reach c [] (new c)
  | step {h s e t} : Reach c h s → enabled s e → step c s e = some t → Reach c (h ++ [e]) t

end Tycho.Downloader
