import Verif.ActivePeers.Model
/-!
The connection manager of a node (`ConnectionManager`, `network/src/network/connection_manager.rs`): dialing, incoming
connections, the callbacks of those who asked for a connection, delayed errors, and the periodic connectivity check.

The manager is one task: every handler below runs to its end before the next one. Dials and handshakes are tasks of their
own; only their result is seen here, and it may come in any order (`finish`). An aborted task gives no result (`cancelled`)
unless it had finished already, and then its result is still delivered. The `u32` sequence number of an entry is unbounded
here; metrics and logs are left out.
-/
namespace Tycho.Dialing
open Tycho.Table Tycho.ActivePeers
open Tycho.Table (get)

/-- The configuration used (network/src/network/config.rs): our own id, `connection_error_delay`, `connection_backoff`,
`max_connection_backoff`, `max_concurrent_outstanding_connections` and `max_concurrent_connections`. -/
structure Cfg where
  me : Nat
  delay : Nat
  step : Nat
  maxBackoff : Nat
  maxOutstanding : Nat
  maxConnections : Option Nat
  deriving DecidableEq

/-- `PendingConnectionCallbacks` (707-712): `task` stands for the abort handle. -/
structure Entry where
  seq : Nat
  origin : Dir
  cbs : List Nat
  task : Nat
  deriving DecidableEq, Repr

/-- A running `dial_peer_task` or `handle_incoming_task` (591-632, 353-391). -/
structure Task where
  uid : Nat
  addr : Nat
  peer : Nat
  seq : Nat
  origin : Dir
  aborted : Bool
  deriving DecidableEq, Repr

/-- What a task ends with: a connection with this stable id, the remote closed it with code 0 (`was_closed`, 948-960), or
another error. -/
inductive Outcome | ok (id : Nat) | closed | failed
  deriving DecidableEq, Repr

/-- What a callback is given. -/
inductive Answer | ok (c : Conn) | err
  deriving DecidableEq, Repr

/-- `DelayedCallbacks` (863-868) with the peer of its queue. -/
structure Delayed where
  key : Nat
  peer : Nat
  due : Nat
  cbs : List Nat
  deriving DecidableEq, Repr

/-- An entry of the `DelayQueue`. -/
structure Exp where
  key : Nat
  peer : Nat
  due : Nat
  deriving DecidableEq, Repr

/-- The expiration of a delayed error. -/
def Delayed.exp (d : Delayed) : Exp := ⟨d.key, d.peer, d.due⟩

/-- `DialBackoffState` (892-895). -/
structure Backoff where
  next : Nat
  attempts : Nat
  deriving DecidableEq, Repr

/-- `ConnectionManager` (49-67). `delayed` are the queues of all peers in the order of insertion, the queue of a peer being
its part; `asked` are all callbacks handed to the manager, with the
peer they were handed over for, `panic` says that it panicked. -/
structure St where
  now : Nat
  pending : Table Nat Entry
  tasks : List Task
  nextTask : Nat
  delayed : List Delayed
  exps : List Exp
  nextKey : Nat
  answered : List (Nat × Answer)
  asked : List (Nat × Nat)
  peers : Peers
  dials : Table Nat Nat
  backoff : Table Nat Backoff
  rejected : List Nat
  panic : Bool
  deriving DecidableEq

/-- `ConnectionManager::new` (81-105). -/
def St.new : St := ⟨0, [], [], 0, [], [], 0, [], [], .new, [], [], [], false⟩

/-- Callbacks answered, in order. -/
def St.answer (s : St) (cbs : List Nat) (a : Answer) : St := { s with answered := s.answered ++ cbs.map (fun c => (c, a)) }

/-- A task started for an entry, whose abort handle is replaced (464-474, 687-695). -/
def St.spawn (s : St) (addr peer : Nat) (e : Entry) : St :=
  { s with pending := put s.pending addr { e with task := s.nextTask },
           tasks := s.tasks ++ [⟨s.nextTask, addr, peer, e.seq, e.origin, false⟩], nextTask := s.nextTask + 1 }

/-- `AbortHandle::abort`. -/
def St.abort (s : St) (uid : Nat) : St :=
  { s with tasks := s.tasks.map (fun t => if t.uid = uid then { t with aborted := true } else t) }

/-- The callback kept with the entry (659). -/
def St.join (s : St) (addr : Nat) (e : Entry) (cb : Nat) : St :=
  { s with pending := put s.pending addr { e with cbs := e.cbs ++ [cb] } }

/-- A dial over a pending entry (654-683). -/
def St.dialOver (c : Cfg) (s : St) (addr peer cb : Nat) (e : Entry) : St :=
  if tieBreak c.me peer e.origin .out && decide (e.origin ≠ .out) then
    (s.abort e.task).spawn addr peer ⟨e.seq + 1, .out, e.cbs ++ [cb], 0⟩
  else s.join addr e cb

/-- `dial_peer` without an active connection (644-697). -/
def St.dialNew (c : Cfg) (s : St) (addr peer cb : Nat) : St :=
  match get s.pending addr with
  | none => s.spawn addr peer ⟨0, .out, [cb], 0⟩
  | some e => s.dialOver c addr peer cb e

/-- A callback handed to the manager. -/
def St.ask (s : St) (peer cb : Nat) : St := { s with asked := s.asked ++ [(cb, peer)] }

/-- `dial_peer` (590-697), `handle_connect_request` (292-294). -/
def St.dial (c : Cfg) (s : St) (addr peer cb : Nat) : St :=
  match get s.peers.conns peer with
  | some k => (s.ask peer cb).answer [cb] (.ok k)
  | none => (s.ask peer cb).dialNew c addr peer cb

/-- `PeerAffinity` (network/src/types/mod.rs). -/
inductive Affinity | high | allowed | never
  deriving DecidableEq, Repr

/-- Is an incoming connection let in (395-428): `aff` is what the known peers say of its peer. -/
def St.admits (c : Cfg) (s : St) (aff : Option Affinity) : Bool :=
  match aff with
  | some .high => true
  | some .allowed => true
  | some .never => false
  | none => match c.maxConnections with | some n => decide (s.peers.len < n) | none => true

/-- An incoming connection over a pending entry (438-460). -/
def St.incomingOver (c : Cfg) (s : St) (addr peer id : Nat) (e : Entry) : St :=
  if tieBreak c.me peer e.origin .inb then
    (s.abort e.task).spawn addr peer ⟨e.seq + 1, .inb, e.cbs, 0⟩
  else { s with rejected := s.rejected ++ [id] }

/-- `handle_incoming_impl` (347-475): `id` is the stable id of the connection. -/
def St.incoming (c : Cfg) (s : St) (addr peer id : Nat) (aff : Option Affinity) : St :=
  if s.admits c aff then
    match get s.pending addr with
    | none => s.spawn addr peer ⟨0, .inb, [], 0⟩
    | some e => s.incomingOver c addr peer id e
  else { s with rejected := s.rejected ++ [id] }

/-- An expiration removed from the `DelayQueue`. -/
def St.unexpire (s : St) (key : Nat) : St := { s with exps := s.exps.filter (fun x => decide (x.key ≠ key)) }

/-- A panic if `b`. -/
def St.panicIf (s : St) (b : Bool) : St := { s with panic := s.panic || b }

/-- One item of `execute_resolved` (811-822): its expiration must be in the queue. -/
def St.resolveOne (k : Conn) (s : St) (d : Delayed) : St :=
  ((s.answer d.cbs (.ok k)).panicIf (!(s.exps.any (fun x => x.key = d.key)))).unexpire d.key

/-- `execute_resolved` (802-830). -/
def St.resolve (s : St) (k : Conn) : St :=
  (s.delayed.filter (fun d => d.peer = k.peer)).foldl (St.resolveOne k)
    { s with delayed := s.delayed.filter (fun d => d.peer ≠ k.peer) }

/-- The part of `execute_expired` that looks for expired items (840-858): those taken and those that stay. -/
def takeExpired (p now : Nat) : List Delayed → List Delayed × List Delayed
  | [] => ([], [])
  | d :: l =>
    if d.peer ≠ p then ((takeExpired p now l).1, d :: (takeExpired p now l).2)
    else if d.due ≤ now then (d :: (takeExpired p now l).1, (takeExpired p now l).2)
    else ([], d :: l)

/-- One expired item (846-853). -/
def St.expireOne (s : St) (d : Delayed) : St :=
  (s.answer d.cbs .err).unexpire d.key

/-- `execute_expired` (832-868). -/
def St.expire (s : St) (p : Nat) : St :=
  (takeExpired p s.now s.delayed).1.foldl St.expireOne { s with delayed := (takeExpired p s.now s.delayed).2 }

/-- `DelayedCallbacksQueue::push` (775-795). -/
def St.delay (c : Cfg) (s : St) (p : Nat) (cbs : List Nat) : St :=
  { s with delayed := s.delayed ++ [⟨s.nextKey, p, s.now + c.delay, cbs⟩],
           exps := s.exps ++ [⟨s.nextKey, p, s.now + c.delay⟩], nextKey := s.nextKey + 1 }

/-- The connection `add_peer` returns (555-579). -/
def addedConn : Added → Conn
  | .new k => k
  | .existing k => k

/-- `add_peer` (555-579). -/
def St.addPeer (c : Cfg) (s : St) (k : Conn) : St := { s with peers := s.peers.addPeer c.me k }

/-- A new connection: `add_peer`, the delayed callbacks and those of the entry (505-519). -/
def St.connected (c : Cfg) (s : St) (k : Conn) (cbs : List Nat) : St :=
  ((s.addPeer c k).resolve (addedConn (s.peers.add c.me k).2)).answer cbs (.ok (addedConn (s.peers.add c.me k).2))

/-- A failed connection (520-551). -/
def St.disconnected (c : Cfg) (s : St) (p : Nat) (o : Outcome) (cbs : List Nat) : St :=
  if o = .closed ∧ cbs ≠ [] then s.delay c p cbs else s.answer cbs .err

/-- The entry of an address removed (496-500). -/
def St.untrack (s : St) (addr : Nat) : St := { s with pending := del s.pending (fun a => decide (a = addr)) }

/-- A result whose entry was found (502-552). -/
def St.conclude (c : Cfg) (s : St) (t : Task) (cbs : List Nat) : Outcome → St
  | .ok id => s.connected c ⟨id, t.peer, t.origin⟩ cbs
  | o => s.disconnected c t.peer o cbs

/-- `handle_connecting_result` (477-553). -/
def St.result (c : Cfg) (s : St) (t : Task) (o : Outcome) : St :=
  match get s.pending t.addr with
  | none => s
  | some e => if e.seq ≠ t.seq then s else (s.untrack t.addr).conclude c t e.cbs o

/-- The callbacks still kept by the manager. -/
def St.waiting (s : St) : List Nat := s.pending.flatMap (·.2.cbs) ++ s.delayed.flatMap (·.cbs)

/-- What a oneshot receiver gives (`try_recv`): the answer, nothing yet, or `none` when its sender is gone. -/
inductive Recv | ready (a : Answer) | empty | gone
  deriving DecidableEq

/-- `try_recv` of a callback. -/
def St.tryRecv (s : St) (cb : Nat) : Recv :=
  match s.answered.find? (fun x => x.1 = cb) with
  | some x => .ready x.2
  | none => if cb ∈ s.waiting then .empty else .gone

/-- `DialBackoffState::update` (908-915), for a new state too (897-906). -/
def Backoff.update (c : Cfg) (now attempts : Nat) : Backoff :=
  ⟨now + min c.maxBackoff (c.step * (attempts + 1)), attempts + 1⟩

/-- One dial looked at by the check (216-245). -/
def St.reapOne (c : Cfg) (s : St) (x : Nat × Nat) : St :=
  match s.tryRecv x.2 with
  | .ready (.ok _) => { s with dials := del s.dials (fun p => decide (p = x.1)),
                               backoff := del s.backoff (fun p => decide (p = x.1)) }
  | .ready .err => { s with dials := del s.dials (fun p => decide (p = x.1)),
                            backoff := put s.backoff x.1 (Backoff.update c s.now ((get s.backoff x.1).elim 0 (·.attempts))) }
  | .empty => s
  | .gone => { s with panic := true }

/-- A known peer with high affinity as the check sees it: its id and first address. -/
structure Known where
  peer : Nat
  addr : Nat
  deriving DecidableEq, Repr

/-- Is a known peer to be dialed now (262-272). -/
def St.wants (c : Cfg) (s : St) (k : Known) : Bool :=
  decide (k.peer ≠ c.me) && (get s.peers.conns k.peer).isNone && (get s.dials k.peer).isNone &&
    (match get s.backoff k.peer with | none => true | some b => decide (b.next < s.now))

/-- A dial of the check kept (288). -/
def St.track (s : St) (peer cb : Nat) : St := { s with dials := put s.dials peer cb }

/-- A dial of the check (281-290): `x.2` is its callback. -/
def St.dialKnown (c : Cfg) (s : St) (x : Known × Nat) : St := (s.dial c x.1.addr x.1.peer x.2).track x.1.peer x.2

/-- The peers the check dials (248-279). -/
def St.chosen (c : Cfg) (s : St) (known : List Known) : List Known :=
  (known.filter (s.wants c)).take (c.maxOutstanding - s.tasks.length)

/-- The first part of the check (216-245). -/
def St.reap (c : Cfg) (s : St) : St := s.dials.foldl (St.reapOne c) s

/-- The second part of the check (248-290). -/
def St.dialAll (c : Cfg) (s : St) (known : List Known) (cbs : List Nat) : St :=
  ((s.chosen c known).zip cbs).foldl (St.dialKnown c) s

/-- `handle_connectivity_check` (213-290): `known` are the known peers with high affinity in the order of the iteration,
`cbs` new callbacks for them. -/
def St.check (c : Cfg) (s : St) (known : List Known) (cbs : List Nat) : St := (s.reap c).dialAll c known cbs

/-- What the manager reacts to (115-179). -/
inductive Op
  | connect (addr peer cb : Nat)
  | incoming (addr peer id : Nat) (aff : Option Affinity)
  | finish (uid : Nat) (o : Outcome)
  | cancelled (uid : Nat)
  | fire (key : Nat)
  | check (known : List Known) (cbs : List Nat)
  | peers (o : ActivePeers.Op)
  | time (t : Nat)
  deriving DecidableEq

/-- A task leaves the set. -/
def St.joined (s : St) (uid : Nat) : St := { s with tasks := s.tasks.filter (fun t => decide (t.uid ≠ uid)) }

/-- The result of a task: it leaves the set and is handled (144-154). -/
def St.finish (c : Cfg) (s : St) (uid : Nat) (o : Outcome) : St :=
  match s.tasks.find? (fun t => t.uid = uid) with
  | none => s
  | some t => (s.joined uid).result c t o

/-- A cancelled task leaves the set (148-152). -/
def St.cancelled (s : St) (uid : Nat) : St :=
  { s with tasks := s.tasks.filter (fun t => decide (t.uid ≠ uid) || !t.aborted) }

/-- An expiration fires when it is due (797-800, 177-179). -/
def St.fire (s : St) (key : Nat) : St :=
  match s.exps.find? (fun x => x.key = key) with
  | none => s
  | some x =>
    if x.due ≤ s.now then (s.unexpire key).expire x.peer else s

/-- A step of the active connections taken by others: a disconnect, the end of a handler, a pending step. -/
def St.other (c : Cfg) (s : St) : ActivePeers.Op → St
  | .add _ => s
  | o => { s with peers := s.peers.step c.me o }

/-- One step. -/
def St.step (c : Cfg) (s : St) : Op → St
  | .connect a p cb => s.dial c a p cb
  | .incoming a p i aff => s.incoming c a p i aff
  | .finish u o => s.finish c u o
  | .cancelled u => s.cancelled u
  | .fire k => s.fire k
  | .check known cbs => s.check c known cbs
  | .peers o => s.other c o
  | .time t => { s with now := s.now + t }

/-- A history. -/
def St.run (c : Cfg) (l : List Op) : St := l.foldl (St.step c) St.new

end Tycho.Dialing
