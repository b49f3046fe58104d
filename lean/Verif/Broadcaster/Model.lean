import Verif.Common.Table
import Verif.PeerCount.Model

/-! Model of `consensus/src/intercom/broadcast/broadcaster.rs` and `collector.rs`: own point is
sent to the peers and signatures are gathered for it.

Simplifications. Peers, signatures are natural numbers; the check of a signature is a parameter
(`Cfg.valid`). A hash set is a list without repetitions (`List.insert`, `List.erase`); its order of
iteration is that of the list, which no result depends on except the order in which requests are
sent. Futures in flight are lists; any of them may end next. Sending is modelled by the log `sent`,
which the code doesn't keep. Logs, metrics and reports of bad peers are left out. `none` is a panic. -/
namespace Tycho.Broadcaster
open Tycho.Table

/-- consensus/src/intercom/broadcast/broadcaster.rs:86-96: what `Broadcaster::new` takes from the
schedule and the point: the author, the validators of the next round, those connected now. -/
structure Cfg where
  author : Nat
  signers : List Nat
  receivers : List Nat
  count : PeerCount.PeerCount
  minAttempts : Nat
  valid : Nat → Nat → Bool

/-- consensus/src/intercom/broadcast/broadcaster.rs:24-28 -/
inductive Signal where
  | ok
  | err
deriving DecidableEq, Repr

/-- A query sent to a peer: the point itself (`BroadcastQuery`) or a request of a signature. -/
inductive Msg where
  | bcast (p : Nat)
  | sig (p : Nat)
deriving DecidableEq, Repr

/-- The peer a query is sent to. -/
def Msg.peer : Msg → Nat
  | .bcast p => p
  | .sig p => p

/-- consensus/src/engine/round_task.rs:86-92,217-224: created, in `run`, after it, in `run_continue`
(with the counter of attempts), or stopped by an error. -/
inductive Phase where
  | idle
  | run
  | done
  | cont (attempt : Nat)
  | dead
deriving DecidableEq, Repr

/-- consensus/src/intercom/broadcast/broadcaster.rs:30-55 `struct Broadcaster`. -/
structure St where
  phase : Phase := .idle
  removed : List Nat := []
  inflight : List Nat := []
  rejections : List Nat := []
  sigs : Table Nat Nat := []
  bcastPeers : List Nat := []
  bcasts : List Nat := []
  sigPeers : List Nat := []
  sigReqs : List (Nat × Bool) := []
  /-- all queries sent, oldest first -/
  sent : List Msg := []
  /-- signals sent to the collector (`CollectorWire.bcaster_signal` is a oneshot) -/
  signals : List Signal := []
  /-- result of `run` -/
  evidence : Option (Table Nat Nat) := none

/-- consensus/src/intercom/broadcast/broadcaster.rs:107-130 -/
def new (c : Cfg) : St := { removed := [c.author], bcastPeers := c.receivers }

/-- consensus/src/intercom/broadcast/broadcaster.rs:424-450 `broadcast`. -/
def broadcast (_ : Cfg) (s : St) (p : Nat) : Option St :=
  if p ∈ s.removed then some s
  else if p ∈ s.inflight then none
  else some { s with inflight := p :: s.inflight, bcasts := p :: s.bcasts, sent := s.sent ++ [.bcast p] }

/-- consensus/src/intercom/broadcast/broadcaster.rs:452-482 `request_signature`. -/
def requestSignature (c : Cfg) (s : St) (after : Bool) (p : Nat) : Option St :=
  if p ∉ s.removed ∧ p ∈ c.signers then
    if p ∈ s.inflight then none
    else some { s with inflight := p :: s.inflight, sigReqs := (p, after) :: s.sigReqs,
                       sent := s.sent ++ [.sig p] }
  else some s

/-- consensus/src/intercom/broadcast/broadcaster.rs:303-324 `match_attempt`. -/
def matchAttempt (c : Cfg) (s : St) (attempt : Nat) : Option St :=
  if attempt = 0 then
    c.signers.foldlM (broadcast c)
      { s with sigPeers := [], rejections := [], sigReqs := [], bcasts := [], inflight := [] }
  else if 1 < attempt then
    s.sigPeers.foldlM (fun t p => requestSignature c t false p) { s with sigPeers := [] }
  else some s

/-- consensus/src/intercom/broadcast/broadcaster.rs:256-291 `should_finish`, the status has
changed; 198-200 at the end of `run`. -/
def shouldFinish (c : Cfg) (s : St) (attempt : Nat) : Option St :=
  if c.count.reliableMinority ≤ s.rejections.length then
    some { s with phase := .done, evidence := some s.sigs, sigs := [],
                  signals := if s.signals = [] then [.err] else s.signals }
  else
    matchAttempt c
      (if c.minAttempts ≤ attempt ∧ c.count.majorityOfOthers ≤ s.sigs.length ∧ s.signals = []
       then { s with signals := [.ok] } else s) attempt

/-- How a broadcast query ends. -/
inductive BRes where
  | tlError
  | network
  | ok
deriving DecidableEq, Repr

/-- How a signature query ends. -/
inductive SRes where
  | tlError
  | network
  | signature (s : Nat)
  | noPoint
  | tryLater
  | rejected
deriving DecidableEq, Repr

/-- consensus/src/intercom/broadcast/broadcaster.rs:326-360 `match_broadcast_result`. -/
def matchBroadcast (c : Cfg) (s : St) (p : Nat) (r : BRes) : Option St :=
  if p ∉ s.inflight then none
  else
    let s := { s with inflight := s.inflight.erase p }
    match r with
    | .tlError => some { s with rejections := s.rejections.insert p }
    | .network => some { s with sigPeers := s.sigPeers.insert p }
    | .ok => requestSignature c s true p

/-- consensus/src/intercom/broadcast/broadcaster.rs:362-422 `match_signature_result`. -/
def matchSignature (c : Cfg) (s : St) (p : Nat) (after : Bool) (r : SRes) : Option St :=
  if p ∉ s.inflight then none
  else
    let s := { s with inflight := s.inflight.erase p }
    match r with
    | .tlError => some { s with rejections := s.rejections.insert p }
    | .network => some { s with sigPeers := s.sigPeers.insert p }
    | .signature x =>
      if p ∈ c.signers then
        if c.valid p x then some { s with sigs := put s.sigs p x }
        else some { s with rejections := s.rejections.insert p }
      else some s
    | .noPoint =>
      if after then some { s with sigPeers := s.sigPeers.insert p } else broadcast c s p
    | .tryLater => some { s with sigPeers := s.sigPeers.insert p }
    | .rejected =>
      if p ∈ c.signers then some { s with rejections := s.rejections.insert p } else some s

/-- consensus/src/intercom/broadcast/broadcaster.rs:496-506, the peer is connected again. -/
def resolved (c : Cfg) (s : St) (p : Nat) : Option St :=
  let s := { s with removed := s.removed.erase p, rejections := s.rejections.erase p }
  if p ∈ s.inflight then some s
  else broadcast c { s with bcastPeers := s.bcastPeers.erase p, sigPeers := s.sigPeers.erase p } p

/-- What may happen to a broadcaster. -/
inductive Ev where
  /-- `run` is called -/
  | start
  /-- the collector changed its status (in `run`) -/
  | status (attempt : Nat)
  /-- the collector ended (in `run`) -/
  | closed
  /-- `run_continue` is called -/
  | cont
  /-- the retry timer of `run_continue` ticks -/
  | tick
  | bcastDone (p : Nat) (r : BRes)
  | sigDone (p : Nat) (after : Bool) (r : SRes)
  /-- a peer is connected (`PeerState::Resolved`) -/
  | resolved (p : Nat)
  /-- a peer is lost (`PeerState::Unknown`) -/
  | lost (p : Nat)
  /-- the channel of peer updates is closed -/
  | cancelled
deriving DecidableEq, Repr

/-- The loops of `run` and `run_continue` are running. -/
def St.live (s : St) : Prop := match s.phase with
  | .run => True
  | .cont _ => True
  | _ => False

/-- When an event can happen: a query can end only if it is in flight. -/
def enabled (s : St) : Ev → Prop
  | .start => s.phase = .idle
  | .status _ => s.phase = .run
  | .closed => s.phase = .run
  | .cont => s.phase = .idle ∨ s.phase = .done
  | .tick => ∃ a, s.phase = .cont a
  | .bcastDone p _ => s.live ∧ p ∈ s.bcasts
  | .sigDone p after _ => s.live ∧ (p, after) ∈ s.sigReqs
  | .resolved _ => s.live
  | .lost _ => s.live
  | .cancelled => s.live

/-- consensus/src/intercom/broadcast/broadcaster.rs:163-165,217-219: the first broadcasts. -/
def beginLoop (c : Cfg) (s : St) (ph : Phase) : Option St :=
  s.bcastPeers.foldlM (broadcast c) { s with phase := ph, bcastPeers := [] }

/-- One event; `none` is a panic.  consensus/src/intercom/broadcast/broadcaster.rs:134-243 `run`,
`run_continue`, 484-522 `match_peer_updates`. -/
def step (c : Cfg) (s : St) : Ev → Option St
  | .start => beginLoop c s .run
  | .status a => shouldFinish c s a
  | .closed => some { s with phase := .done, evidence := some s.sigs, sigs := [] }
  | .cont => beginLoop c s (.cont 1)
  | .tick => match s.phase with
    | .cont a => matchAttempt c { s with phase := .cont ((a + 1) % 256) } ((a + 1) % 256)
    | _ => some s
  | .bcastDone p r => matchBroadcast c { s with bcasts := s.bcasts.erase p } p r
  | .sigDone p after r => matchSignature c { s with sigReqs := s.sigReqs.erase (p, after) } p after r
  | .resolved p => resolved c s p
  | .lost p => some { s with removed := s.removed.insert p }
  | .cancelled => some { s with phase := .dead }

/-- States reached by a history of events. -/
inductive Reach (c : Cfg) : List Ev → St → Prop
  | init : Reach c [] (new c)
  | step {h s e t} : Reach c h s → enabled s e → step c s e = some t → Reach c (h ++ [e]) t

/-- A set of validators and of receivers has no repetitions. -/
def Cfg.WF (c : Cfg) : Prop := c.signers.Nodup ∧ c.receivers.Nodup

end Tycho.Broadcaster
