import Verif.Common.Table
/-!
The active connections of a node (`ActivePeers`) and the tie break between simultaneous dials
(`network/src/network/connection_manager.rs`), with the request handlers that remove a connection when they end
(`network/src/network/request_handler.rs`).

A call of the map runs under the lock of its entry; the counter of removed connections and the events are written after
the lock is released. They are therefore separate steps here (`Pend`), which other calls may overtake.
-/
namespace Tycho.ActivePeers
open Tycho.Table

/-- `Direction` (network/src/types/mod.rs): who dialed, seen from this node. -/
inductive Dir | inb | out
  deriving DecidableEq, Repr

/-- `Connection` (network/src/network/connection.rs): `id` is its stable id, `dir` its origin. -/
structure Conn where
  id : Nat
  peer : Nat
  dir : Dir
  deriving DecidableEq, Repr

/-- `simultaneous_dial_tie_breaking` (connection_manager.rs:1135-1149): does the new connection win. -/
def tieBreak (me peer : Nat) : Dir → Dir → Bool
  | .inb, .inb => true
  | .out, .out => true
  | .inb, .out => decide (peer < me)
  | .out, .inb => decide (me < peer)

/-- `PeerEvent` (network/src/types/peer_event.rs), without the reason. -/
inductive Ev | new (p : Nat) | lost (p : Nat)
  deriving DecidableEq, Repr

/-- What a call still has to do after it released the lock of the entry: decrement the counter and then send the event
of a lost peer (1083-1085, 1096-1098), or send an event (1072). -/
inductive Pend | sub (p : Nat) | ev (e : Ev)
  deriving DecidableEq, Repr

/-- `ActivePeersInner` (1025-1029), `closed` are the stable ids of the connections closed by this node, and `handlers`
the running request handlers (`connection_handlers`, 59). -/
structure Peers where
  conns : Table Nat Conn
  len : Nat
  events : List Ev
  pend : List Pend
  closed : List Nat
  handlers : List Conn
  deriving DecidableEq, Repr

/-- `ActivePeersInner::new` (1032-1039). -/
def Peers.new : Peers := ⟨[], 0, [], [], [], []⟩

/-- `AddedPeer` (1130-1133). -/
inductive Added | new (c : Conn) | existing (c : Conn)
  deriving DecidableEq, Repr

/-- `ActivePeersInner::add` over a free entry (1068-1078). -/
def Peers.addVacant (s : Peers) (c : Conn) : Peers :=
  { s with conns := put s.conns c.peer c, len := s.len + 1, pend := s.pend ++ [.ev (.new c.peer)] }

/-- `add` over a connection that loses (1057-1060, 1074): the event of the lost one is sent under the lock. -/
def Peers.addOver (s : Peers) (old c : Conn) : Peers :=
  { s with conns := put s.conns c.peer c, closed := s.closed ++ [old.id], events := s.events ++ [.lost c.peer],
           pend := s.pend ++ [.ev (.new c.peer)] }

/-- `add` under a connection that wins (1061-1065). -/
def Peers.addUnder (s : Peers) (c : Conn) : Peers := { s with closed := s.closed ++ [c.id] }

/-- `ActivePeersInner::add` (1051-1079). -/
def Peers.add (s : Peers) (me : Nat) (c : Conn) : Peers × Added :=
  match get s.conns c.peer with
  | none => (s.addVacant c, .new c)
  | some old =>
    if tieBreak me c.peer old.dir c.dir then (s.addOver old c, .new c) else (s.addUnder c, .existing old)

/-- `ConnectionManager::add_peer` (555-579): a request handler is started for an added connection. -/
def Peers.addPeer (s : Peers) (me : Nat) (c : Conn) : Peers :=
  match s.add me c with
  | (s, .new c) => { s with handlers := s.handlers ++ [c] }
  | (s, .existing _) => s

/-- The removal of an entry (1081-1090, 1092-1103). -/
def Peers.dropConn (s : Peers) (p : Nat) (c : Conn) : Peers :=
  { s with conns := del s.conns (fun q => decide (q = p)), closed := s.closed ++ [c.id], pend := s.pend ++ [.sub p] }

/-- `ActivePeersInner::remove` (1081-1090). -/
def Peers.remove (s : Peers) (p : Nat) : Peers :=
  match get s.conns p with
  | none => s
  | some c => s.dropConn p c

/-- `ActivePeersInner::remove_with_stable_id` (1092-1103). -/
def Peers.removeStable (s : Peers) (p id : Nat) : Peers :=
  match get s.conns p with
  | none => s
  | some c => if c.id = id then s.dropConn p c else s

/-- The set of running request handlers replaced. -/
def Peers.withHandlers (s : Peers) (hs : List Conn) : Peers := { s with handlers := hs }

/-- The end of a request handler (request_handler.rs:235-249). -/
def Peers.handlerEnd (s : Peers) (c : Conn) : Peers :=
  if c ∈ s.handlers then (s.removeStable c.peer c.id).withHandlers (s.handlers.erase c) else s

/-- One pending step of a call. -/
def Peers.tick (s : Peers) (i : Nat) : Peers :=
  match s.pend[i]? with
  | none => s
  | some (.sub p) => { s with len := s.len - 1, pend := s.pend.set i (.ev (.lost p)) }
  | some (.ev e) => { s with events := s.events ++ [e], pend := s.pend.eraseIdx i }

/-- What happens to the active connections. -/
inductive Op
  | add (c : Conn) | remove (p : Nat) | ended (c : Conn) | tick (i : Nat)
  deriving DecidableEq, Repr

/-- One step. -/
def Peers.step (me : Nat) (s : Peers) : Op → Peers
  | .add c => s.addPeer me c
  | .remove p => s.remove p
  | .ended c => s.handlerEnd c
  | .tick i => s.tick i

/-- A history. -/
def Peers.run (me : Nat) (l : List Op) : Peers := l.foldl (Peers.step me) Peers.new

end Tycho.ActivePeers
