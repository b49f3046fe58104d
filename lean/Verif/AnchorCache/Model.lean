/-!
The cache of anchors between the mempool and the collator, the queue of state updates and the switch of genesis. Models
`collator/src/mempool/impls/common/cache.rs`, `std_impl/{state_update_queue,session_keeper,adapter_impl,mod}.rs`.

Simplifications: ids are natural numbers (`u32` in the code; `after_anchor_id + 1` of cache.rs:91 does not overflow here);
the binary search of `IndexMap` is the first position with a key that is not less, which is what it finds in an ordered
map (that the map is ordered is proved for the histories considered). Logs are left out.
-/
namespace Tycho.AnchorCache

/-- `MempoolAnchor` (collator/src/mempool/mod.rs:117-126); externals are given by their hashes. -/
structure Anchor where
  id : Nat
  prev : Option Nat
  author : Nat
  time : Nat
  exts : List Nat
  deriving Repr, DecidableEq

/-- `CacheData` and the `Notify` of `Cache` (cache.rs:56-67): `gen` counts calls of `notify_waiters`, `owed` those calls
that are still to come from operations that have changed the data already. -/
structure Cache where
  anchors : List Anchor
  paused : Bool
  off : Option Nat
  gen : Nat
  owed : Nat
  deriving Repr, DecidableEq

/-- `Cache::default`. -/
def Cache.new : Cache := ⟨[], false, none, 0, 0⟩

/-- `u32::MAX`. -/
def maxId : Nat := 4294967295

/-- The position `binary_search_keys` finds (`Ok` or `Err`): the first key that is not less. -/
def pos (l : List Anchor) (id : Nat) : Nat := (l.takeWhile (fun a => decide (a.id < id))).length

/-- `get` by key. -/
def find (l : List Anchor) (id : Nat) : Option Anchor := l.find? (fun a => decide (a.id = id))

/-- `anchor_is_off` (cache.rs:408-411). -/
def Cache.isOff (c : Cache) (id : Nat) : Bool :=
  match c.off with
  | some x => decide (x < id)
  | none => false

/-- `close` (cache.rs:70-77), up to the notification. -/
def Cache.close (c : Cache) (after : Nat) : Cache := { c with off := some after, owed := c.owed + 1 }

/-- `reopen` (cache.rs:80-103), up to the notification. -/
def Cache.reopen (c : Cache) (dropData : Bool) : Cache × Option Nat :=
  match c.off with
  | none => (c, none)
  | some x =>
    if dropData then
      ({ c with off := none, anchors := c.anchors.take (pos c.anchors (x + 1)), owed := c.owed + 1 }, some x)
    else ({ c with off := none, owed := c.owed + 1 }, some x)

/-- `AnchorForkError` is raised (cache.rs:118-149): the anchor differs from the known one with the same id. -/
def forked (old new : Anchor) : Bool :=
  (new.prev.isSome && decide (old.prev ≠ new.prev)) || decide (old.time ≠ new.time) ||
    decide (old.exts.length ≠ new.exts.length) || (old.exts.zip new.exts).any (fun p => decide (p.1 ≠ p.2)) ||
    decide (old.author ≠ new.author)

/-- `push` (cache.rs:105-166); the second part says whether it succeeded. -/
def Cache.push (c : Cache) (a : Anchor) : Cache × Bool :=
  match find c.anchors a.id with
  | some old => (c, !forked old a)
  | none => ({ c with anchors := c.anchors ++ [a], owed := c.owed + 1 }, true)

/-- `set_paused` (cache.rs:168-171). -/
def Cache.setPaused (c : Cache) (p : Bool) : Cache := { c with paused := p, owed := c.owed + 1 }

/-- `clear` (cache.rs:377-403). -/
def Cache.clear (c : Cache) (before : Nat) : Cache := { c with anchors := c.anchors.drop (pos c.anchors before) }

/-- The errors of readers (cache.rs:14-42). -/
inductive Err where
  | gap | unexpected | outOfOrder | firstRemoved
  deriving Repr, DecidableEq

/-- What one attempt of a reader ends with: it waits for a notification, or it returns. -/
inductive Answer where
  | wait
  | none
  | some (a : Anchor)
  | err (e : Err)
  deriving Repr, DecidableEq

/-- The attempt of `get_anchor_by_id` at the position found (cache.rs:209-233). -/
def Cache.byIdAt (c : Cache) (id : Nat) : Option Anchor → Answer
  | .none => .wait
  | .some a => if c.isOff a.id then .wait else if a.id = id then .some a else if id < a.id then .none else .err .outOfOrder

/-- The attempt of `get_anchor_by_id` if there is a first anchor (cache.rs:198-234). -/
def Cache.byIdFrom (c : Cache) (id : Nat) (first : Anchor) : Answer :=
  if id < first.id then if c.isOff first.id then .wait else .none
  else c.byIdAt id c.anchors[pos c.anchors id]?

/-- One attempt of `get_anchor_by_id` (cache.rs:181-235). -/
def Cache.byId (c : Cache) (id : Nat) : Answer :=
  if c.isOff id then .wait
  else
    match c.anchors with
    | [] => .wait
    | first :: _ => c.byIdFrom id first

/-- The first anchor is newer than the one asked about (cache.rs:267-298). -/
def Cache.nextOfOld (c : Cache) (prev : Nat) (first : Anchor) : Answer :=
  if c.isOff first.id then .wait
  else
    match first.prev with
    | .none => .some first
    | .some p => if p = prev then .err .firstRemoved else .none

/-- The anchor after the one asked about (cache.rs:304-338). -/
def Cache.nextOfKnown (c : Cache) (prev : Nat) : Option Anchor → Answer
  | .none => .wait
  | .some a =>
    if c.isOff a.id then .wait
    else
      match a.prev with
      | .none => .some a
      | .some p => if prev = p then .some a else if prev < p then .err .gap else .err .unexpected

/-- The one asked about is not there (cache.rs:347-362). -/
def Cache.nextOfUnknown (c : Cache) : Option Anchor → Answer
  | .none => .wait
  | .some a => if c.isOff a.id then .wait else .none

/-- The attempt of `get_next_anchor` if there is a first anchor (cache.rs:267-369). -/
def Cache.nextFrom (c : Cache) (prev : Nat) (first : Anchor) : Answer :=
  if prev < first.id then c.nextOfOld prev first
  else
    match c.anchors[pos c.anchors prev]? with
    | .none => c.nextOfUnknown .none
    | .some a =>
      if a.id = prev then c.nextOfKnown prev c.anchors[pos c.anchors prev + 1]? else c.nextOfUnknown (.some a)

/-- One attempt of `get_next_anchor` (cache.rs:249-371). -/
def Cache.next (c : Cache) (prev : Nat) : Answer :=
  if c.isOff (min (prev + 1) maxId) then .wait
  else
    match c.anchors with
    | [] => .wait
    | first :: _ => c.nextFrom prev first

/-- A request of the collator. -/
inductive Req where
  | byId (id : Nat)
  | next (prev : Nat)
  deriving Repr, DecidableEq

/-- The attempt for a request. -/
def Cache.answer (c : Cache) : Req → Answer
  | .byId id => c.byId id
  | .next prev => c.next prev

/-! ### Readers -/

/-- A call of a reader: about to create a `Notified`, with one (created when `gen` was so much), waiting on it after an
attempt, or finished (the loops of cache.rs:177-239, 245-374). -/
inductive Stage where
  | start
  | subscribed (gen : Nat)
  | waiting (gen : Nat)
  | done (a : Answer)
  deriving Repr, DecidableEq

/-- The cache with running calls of readers. -/
structure Sys where
  cache : Cache
  readers : List (Req × Stage)
  deriving Repr, DecidableEq

/-- Steps: operations of the writers, their notifications, and the steps of readers. -/
inductive Step where
  | close (after : Nat)
  | reopen (dropData : Bool)
  | push (a : Anchor)
  | setPaused (p : Bool)
  | clear (before : Nat)
  | notify
  | call (r : Req)
  | subscribe (i : Nat)
  | attempt (i : Nat)
  | wake (i : Nat)
  deriving Repr, DecidableEq

/-- After an attempt (cache.rs:238, 373). -/
def afterAttempt (c : Cache) (r : Req) (g : Nat) : Stage :=
  match c.answer r with
  | .wait => .waiting g
  | a => .done a

/-- A reader creates its `Notified` (cache.rs:179, 247). -/
def subscribeStage (c : Cache) : Req × Stage → Req × Stage
  | (r, .start) => (r, .subscribed c.gen)
  | x => x

/-- A reader makes its attempt under the read lock. -/
def attemptStage (c : Cache) : Req × Stage → Req × Stage
  | (r, .subscribed g) => (r, afterAttempt c r g)
  | x => x

/-- `Notified` completes if `notify_waiters` was called after it was created. -/
def wakeStage (c : Cache) : Req × Stage → Req × Stage
  | (r, .waiting g) => if g < c.gen then (r, .start) else (r, .waiting g)
  | x => x

/-- One step. -/
def Sys.step (s : Sys) : Step → Sys
  | .close x => { s with cache := s.cache.close x }
  | .reopen d => { s with cache := (s.cache.reopen d).1 }
  | .push a => { s with cache := (s.cache.push a).1 }
  | .setPaused p => { s with cache := s.cache.setPaused p }
  | .clear b => { s with cache := s.cache.clear b }
  | .notify =>
    if s.cache.owed = 0 then s
    else { s with cache := { s.cache with gen := s.cache.gen + 1, owed := s.cache.owed - 1 } }
  | .call r => { s with readers := s.readers ++ [(r, .start)] }
  | .subscribe i => { s with readers := s.readers.modify i (subscribeStage s.cache) }
  | .attempt i => { s with readers := s.readers.modify i (attemptStage s.cache) }
  | .wake i => { s with readers := s.readers.modify i (wakeStage s.cache) }

/-- A history of steps. -/
def Sys.run (s : Sys) (l : List Step) : Sys := l.foldl Sys.step s

/-- The start. -/
def Sys.new : Sys := ⟨.new, []⟩

/-! ### The queue of state updates -/

/-- `StateUpdateContext` (collator/src/mempool/mod.rs:32-58), the parts that matter: the seqno of the block, a version
(everything else that may differ), the genesis and the last processed anchor. -/
structure Ctx where
  seqno : Nat
  genesis : Nat
  version : Nat
  deriving Repr, DecidableEq

/-- `StateUpdateQueue` (state_update_queue.rs:10-15); the map is a list in the order of seqnos. -/
structure Queue where
  unsigned : List Ctx
  drained : Nat
  signed : Nat
  deriving Repr, DecidableEq

/-- `StateUpdateQueue::default`. -/
def Queue.new : Queue := ⟨[], 0, 0⟩

/-- `BTreeMap::insert`. -/
def insertCtx (x : Ctx) : List Ctx → List Ctx
  | [] => [x]
  | y :: l => if x.seqno < y.seqno then x :: y :: l else if x.seqno = y.seqno then x :: l else y :: insertCtx x l

/-- `push` (state_update_queue.rs:18-68). -/
def Queue.push (q : Queue) (x : Ctx) : Queue × Option Ctx :=
  if x.seqno < q.drained then (q, none)
  else if x.seqno = q.drained then (q, if x.seqno = 0 then some x else none)
  else if x.seqno ≤ q.signed then ({ q with drained := x.seqno }, some x)
  else ({ q with unsigned := insertCtx x q.unsigned }, none)

/-- The last `ensure` of `drain` (state_update_queue.rs:106-113). -/
def firstOk (drained : Nat) : List Ctx → Bool
  | [] => true
  | x :: _ => decide (drained < x.seqno)

/-- `self.drained = last_seqno` (state_update_queue.rs:115-117). -/
def lastSeqno (drained : Nat) (l : List Ctx) : Nat :=
  match l.getLast? with
  | none => drained
  | some x => x.seqno

/-- `drain` (state_update_queue.rs:91-120); `none` is an error. -/
def Queue.drain (q : Queue) : Option (Queue × List Ctx) :=
  if q.signed < q.drained then none
  else if q.drained = q.signed then some (q, [])
  else if firstOk q.drained (q.unsigned.filter (fun x => decide (x.seqno ≤ q.signed))) then
    some ({ q with
        unsigned := q.unsigned.filter (fun x => !decide (x.seqno ≤ q.signed))
        drained := lastSeqno q.drained (q.unsigned.filter (fun x => decide (x.seqno ≤ q.signed))) },
      q.unsigned.filter (fun x => decide (x.seqno ≤ q.signed)))
  else none

/-- `signed` (state_update_queue.rs:71-88); `none` is an error. -/
def Queue.sign (q : Queue) (n : Nat) : Option (Queue × List Ctx) :=
  if q.signed < n then Queue.drain { q with signed := n } else some (q, [])

end Tycho.AnchorCache
