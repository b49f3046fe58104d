import Verif.Subs.ForwardSet

/-!
Model of the account subscriptions index: `rpc-subscriptions/src/{manager.rs, clients/, index/}`. Threads call the manager
concurrently; a step is one access to a shared map (under its shard lock) or to a client's mutex. Uuids, addresses, client
ids, interned address ids, mutexes and threads are numbers.

Simplifications: `addr_to_subs_ensure` allocates the id and fills both maps in one step (the entry's lock is held);
`detach_client` checks and removes in one step (the mutex is held, and only its holder removes the entry);
`subscribe_many`'s lock of the reverse entry is not used for exclusion, so more interleavings are admitted than the code has;
memory counters are not modelled.
-/
namespace Tycho.Subs

/-- id_pool.rs:7-13 `IdPool`. -/
structure Pool where
  max : Nat
  next : Nat
  free : List Nat
  deriving DecidableEq

/-- What the two accesses of `alloc` find. -/
inductive Choice
  | pop | fresh | fail
  deriving DecidableEq

/-- id_pool.rs:28-42 `alloc`: the answer (outer `none`: this outcome is not possible). Another thread may free an id between the
pop and the counter, so the counter may be used, or found exhausted, although the list is not empty. -/
def Pool.alloc (p : Pool) : Choice → Option (Option Nat × Pool)
  | .pop => match p.free with
    | id :: rest => some (some id, { p with free := rest })
    | [] => none
  | .fresh => if p.next < p.max then some (some p.next, { p with next := p.next + 1 }) else none
  | .fail => if p.next < p.max then none else some (none, p)

/-- id_pool.rs:44-49 `free`. -/
def Pool.release (p : Pool) (id : Nat) : Pool := { p with free := p.free ++ [id] }

/-- The calls of a client (manager.rs:39-118). -/
inductive Op
  | sub (addrs : List Nat)
  | unsub (addrs : List Nat)
  | clear
  | remove
  deriving DecidableEq

/-- The answers (api.rs:32-62). -/
inductive Ans
  | ok | maxAddrs | atCapacity | unknownAddress | unknownClient | notSubscribed
  deriving DecidableEq

/-- What a thread does after the removal of an address. -/
inductive Cont
  | unsub (rest done : List Nat)
  | purge (aids : List Nat) (fin : Bool)
  | cap (done : List Nat)
  deriving DecidableEq

/-- Where a thread is in its call. `done`: the addresses of the call that are processed (not in the code). The call returns from
`exit` (with its answer and the addresses it subscribed to or unsubscribed from), `cleared` (`unsubscribe_all`) or `leave`
(`remove_client`). -/
inductive Phase
  | wait (op : Op)
  | subLoop (todo done : List Nat)
  | subRev (addr aid : Nat) (created : Bool) (rest done : List Nat)
  | subFwd (addr aid : Nat) (created : Bool) (rest done : List Nat)
  | atCap (addr aid : Nat) (created : Bool) (done : List Nat)
  | capEnd (done : List Nat)
  | unsubLoop (todo done : List Nat)
  | unsubRev (addr aid : Nat) (rest done : List Nat)
  | cleanup (addr : Nat) (k : Cont)
  | rm1 (aid addr : Nat) (k : Cont)
  | rm2 (aid : Nat) (k : Cont)
  | detach
  | purgeStart (fin : Bool)
  | purge (aids : List Nat) (fin : Bool)
  | reclaim
  | exit (ans : Ans) (subs unsubs : List Nat)
  | cleared
  | leave
  deriving DecidableEq

/-- The client entry a call works with (clients/mod.rs:13-17 `ClientEntry`) and its phase. -/
structure Call where
  uuid : Nat
  cid : Nat
  lk : Nat
  op : Op
  ph : Phase
  deriving DecidableEq

/-- What the calls did to subscriptions, for the specification (not in the code). -/
inductive Event
  | sub (uuid addr : Nat)
  | unsub (uuid addr : Nat)
  | clear (uuid : Nat)
  deriving DecidableEq

/-- subscriptions.rs:25-34 `Subscriptions`, clients/mod.rs:21-25 `Clients`, the mutexes and the threads. `cap` is `SMALL_CAP`. -/
structure State where
  cap : Nat
  reg : Nat → Option (Nat × Nat)
  cpool : Pool
  nextLk : Nat
  locked : Nat → Bool
  rev : Nat → Option (List Nat)
  int : Nat → Option Nat
  fwd : Nat → Option (Nat × FSet)
  apool : Pool
  thr : Nat → Option Call
  log : List Event

def upd {β : Type} (f : Nat → β) (a : Nat) (b : β) : Nat → β := fun x => if x = a then b else f x

/-- manager.rs:31-36, subscriptions.rs:43-60. -/
def State.new (cap maxAddrs maxClients : Nat) : State :=
  { cap := cap, reg := fun _ => none, cpool := ⟨maxClients, 0, []⟩, nextLk := 0, locked := fun _ => false, rev := fun _ => none,
    int := fun _ => none, fwd := fun _ => none, apool := ⟨maxAddrs, 0, []⟩, thr := fun _ => none, log := [] }

/-- api.rs:6 `MAX_ADDRS_PER_CLIENT`. -/
def maxPerClient : Nat := 255

/-- reverse.rs:30-41: insertion at the position the binary search finds. -/
def revInsert (l : List Nat) (a : Nat) : List Nat := l.takeWhile (· < a) ++ a :: l.dropWhile (· < a)

def State.revList (s : State) (c : Nat) : List Nat := (s.rev c).getD []

/-- Thread `t` goes to phase `ph`. -/
def State.goto (s : State) (t : Nat) (k : Call) (ph : Phase) : State := { s with thr := upd s.thr t (some { k with ph := ph }) }

/-- `if entry.is_empty() { entry.remove() }`. -/
def dropEmpty (r : Option (List Nat)) : Option (List Nat) := if r = some [] then none else r

/-- What follows the removal of an address. -/
def Cont.phase : Cont → Phase
  | .unsub rest done => .unsubLoop rest done
  | .purge aids fin => .purge aids fin
  | .cap done => .capEnd done

/-- The first phase under the lock: manager.rs:58-60, 73-77, 91-92, 104-106, 116-118; `subscribe_many` with no address returns at
once, else it makes the reverse entry (subscriptions.rs:71-79). -/
def startPhase : Op → Phase
  | .sub addrs => if addrs = [] then .exit .ok [] [] else .subLoop addrs []
  | .unsub addrs => .unsubLoop addrs []
  | .clear => .purgeStart false
  | .remove => .detach

def startRev (op : Op) (r : Option (List Nat)) : Option (List Nat) :=
  match op with
  | .sub addrs => if addrs = [] then r else some (r.getD [])
  | _ => r

/-- subscriptions.rs:263-278 `addr_to_subs_ensure` and 87-102. -/
def stepEnsure (s : State) (t : Nat) (k : Call) (a : Nat) (rest done : List Nat) (c : Choice) : Option State :=
  match s.fwd a with
  | some (aid, _) => some (s.goto t k (.subRev a aid false rest done))
  | none => match s.apool.alloc c with
    | none => none
    | some (some aid, p) =>
      some (({ s with apool := p, int := upd s.int aid (some a), fwd := upd s.fwd a (some (aid, FSet.new s.cap)) } : State).goto t k
        (.subRev a aid true rest done))
    | some (none, _) => some (({ s with rev := upd s.rev k.cid (dropEmpty (s.rev k.cid)) } : State).goto t k (.exit .maxAddrs done []))

/-- subscriptions.rs:104-108, reverse.rs:30-46 `add_with_delta`. -/
def stepSubRev (s : State) (t : Nat) (k : Call) (a aid : Nat) (created : Bool) (rest done : List Nat) : State :=
  if aid ∈ s.revList k.cid then s.goto t k (.subFwd a aid created rest done)
  else if maxPerClient ≤ (s.revList k.cid).length then s.goto t k (.atCap a aid created done)
  else ({ s with rev := upd s.rev k.cid (some (revInsert (s.revList k.cid) aid)) } : State).goto t k (.subFwd a aid created rest done)

/-- subscriptions.rs:295-313 `addr_to_subs_add_client` and 109-127: on failure the reverse entry is rolled back and the address
tried again. -/
def stepSubFwd (s : State) (t : Nat) (k : Call) (a aid : Nat) (rest done : List Nat) : State :=
  match s.fwd a with
  | some (aid', f) =>
    if aid' = aid then
      ({ s with fwd := upd s.fwd a (some (aid, f.add s.cap k.cid)), log := s.log ++ [Event.sub k.uuid a] } : State).goto t k
        (.subLoop rest (done ++ [a]))
    else ({ s with rev := upd s.rev k.cid (some ((s.revList k.cid).erase aid)) } : State).goto t k (.subLoop (a :: rest) done)
  | none => ({ s with rev := upd s.rev k.cid (some ((s.revList k.cid).erase aid)) } : State).goto t k (.subLoop (a :: rest) done)

/-- subscriptions.rs:128-139. -/
def stepAtCap (s : State) (t : Nat) (k : Call) (a aid : Nat) (created : Bool) (done : List Nat) : State :=
  match s.fwd a with
  | some (aid', f) =>
    if created = true ∧ aid' = aid ∧ f.isEmpty = true then ({ s with fwd := upd s.fwd a none } : State).goto t k (.rm1 aid a (.cap done))
    else s.goto t k (.capEnd done)
  | none => s.goto t k (.capEnd done)

/-- subscriptions.rs:173-196. -/
def stepUnsubRev (s : State) (t : Nat) (k : Call) (a aid : Nat) (rest done : List Nat) : State :=
  match s.rev k.cid with
  | none => s.goto t k (.exit .unknownClient [] done)
  | some l =>
    if aid ∈ l then
      ({ s with rev := upd s.rev k.cid (dropEmpty (some (l.erase aid))), log := s.log ++ [Event.unsub k.uuid a] } : State).goto t k
        (.cleanup a (.unsub rest (done ++ [a])))
    else ({ s with rev := upd s.rev k.cid (dropEmpty (some l)) } : State).goto t k (.exit .notSubscribed [] done)

/-- subscriptions.rs:315-326 `addr_to_subs_cleanup`, with the first access of `addr_to_subs_remove` (280-285). -/
def stepCleanup (s : State) (t : Nat) (k : Call) (a : Nat) (c : Cont) : State :=
  match s.fwd a with
  | none => s.goto t k c.phase
  | some (aid, f) =>
    if (f.remove k.cid).isEmpty = true then ({ s with fwd := upd s.fwd a none } : State).goto t k (.rm1 aid a c)
    else ({ s with fwd := upd s.fwd a (some (aid, f.remove k.cid)) } : State).goto t k c.phase

/-- clients/mod.rs:85-103 `detach_client`, manager.rs:116-121. -/
def stepDetach (s : State) (t : Nat) (k : Call) : State :=
  match s.reg k.uuid with
  | none => s.goto t k .leave
  | some (_, lk) =>
    if lk = k.lk then ({ s with reg := upd s.reg k.uuid none, log := s.log ++ [Event.clear k.uuid] } : State).goto t k (.purgeStart true)
    else s.goto t k .leave

/-- subscriptions.rs:245-253: the reverse entry is removed; the ids are then cleaned up one by one. -/
def stepPurgeStart (s : State) (t : Nat) (k : Call) (fin : Bool) : State :=
  ({ s with rev := upd s.rev k.cid none, log := if fin then s.log else s.log ++ [Event.clear k.uuid] } : State).goto t k
    (.purge (s.revList k.cid) fin)

/-- subscriptions.rs:254-261; manager.rs:118-121. -/
def stepPurge (s : State) (t : Nat) (k : Call) (aids : List Nat) (fin : Bool) : State :=
  match aids with
  | [] => s.goto t k (if fin then .reclaim else .cleared)
  | aid :: rest => match s.int aid with
    | some a => s.goto t k (.cleanup a (.purge rest fin))
    | none => s.goto t k (.purge rest fin)

/-- One step of thread `t`; `none`: it cannot make one. -/
def stepThread (s : State) (t : Nat) (k : Call) (c : Choice) : Option State :=
  match k.ph with
  | .wait op =>
    if s.locked k.lk then none
    else some (({ s with locked := upd s.locked k.lk true, rev := upd s.rev k.cid (startRev op (s.rev k.cid)) } : State).goto t k (startPhase op))
  | .subLoop [] done => some (({ s with rev := upd s.rev k.cid (dropEmpty (s.rev k.cid)) } : State).goto t k (.exit .ok done []))
  | .subLoop (a :: rest) done => stepEnsure s t k a rest done c
  | .subRev a aid created rest done => some (stepSubRev s t k a aid created rest done)
  | .subFwd a aid _ rest done => some (stepSubFwd s t k a aid rest done)
  | .atCap a aid created done => some (stepAtCap s t k a aid created done)
  | .capEnd done => some (({ s with rev := upd s.rev k.cid (dropEmpty (s.rev k.cid)) } : State).goto t k (.exit .atCapacity done []))
  | .unsubLoop [] done => some (s.goto t k (.exit .ok [] done))
  | .unsubLoop (a :: rest) done => match s.fwd a with
    | none => some (s.goto t k (.exit .unknownAddress [] done))
    | some (aid, _) => some (s.goto t k (.unsubRev a aid rest done))
  | .unsubRev a aid rest done => some (stepUnsubRev s t k a aid rest done)
  | .cleanup a c => some (stepCleanup s t k a c)
  | .rm1 aid _ c => some (({ s with int := upd s.int aid none } : State).goto t k (.rm2 aid c))
  | .rm2 aid c => some (({ s with apool := s.apool.release aid } : State).goto t k c.phase)
  | .detach => some (stepDetach s t k)
  | .purgeStart fin => some (stepPurgeStart s t k fin)
  | .purge aids fin => some (stepPurge s t k aids fin)
  | .reclaim => some (({ s with cpool := s.cpool.release k.cid } : State).goto t k .leave)
  | .exit _ _ _ | .cleared | .leave => some { s with locked := upd s.locked k.lk false, thr := upd s.thr t none }

/-- What happens next. -/
inductive Ev
  | register (uuid : Nat) (c : Choice)
  | start (t uuid : Nat) (op : Op) (c : Choice)
  | go (t : Nat) (c : Choice)

/-- clients/mod.rs:43-83: a new client entry. -/
def newEntry (s : State) (u : Nat) (c : Choice) : Option (Option (Nat × Nat) × State) :=
  match s.cpool.alloc c with
  | none => none
  | some (some id, p) => some (some (id, s.nextLk), { s with cpool := p, reg := upd s.reg u (some (id, s.nextLk)), nextLk := s.nextLk + 1 })
  | some (none, _) => some (none, s)

/-- A call finds its client entry (manager.rs:49-57, 68-72, 85-89, 99-103, 112-115): only `subscribe_many` makes one; without an
entry the call ends. -/
def begin (s : State) (t u : Nat) (op : Op) (c : Choice) : Option State :=
  match s.reg u with
  | some (id, lk) => some { s with thr := upd s.thr t (some ⟨u, id, lk, op, .wait op⟩) }
  | none => match op with
    | .sub _ => match newEntry s u c with
      | none => none
      | some (some (id, lk), s') => some { s' with thr := upd s'.thr t (some ⟨u, id, lk, op, .wait op⟩) }
      | some (none, s') => some s'
    | _ => some s

def step (s : State) : Ev → Option State
  | .register u c => match s.reg u with
    | some _ => some s
    | none => (newEntry s u c).map (·.2)
  | .start t u op c => match s.thr t with
    | some _ => none
    | none => begin s t u op c
  | .go t c => match s.thr t with
    | none => none
    | some k => stepThread s t k c

/-- manager.rs:124-126 `clients_to_notify`. -/
def State.notify (s : State) (a : Nat) : List Nat :=
  match s.fwd a with
  | none => []
  | some (_, f) => f.members

/-- subscriptions.rs:226-244 `list_subscriptions`, for the client id. -/
def State.list (s : State) (c : Nat) : Option (List Nat) := (s.rev c).map fun l => l.filterMap s.int

/-- subscriptions.rs:213-224 `client_stats`. -/
def State.count (s : State) (c : Nat) : Nat := (s.revList c).length

end Tycho.Subs
