import Verif.Common.Table

/-!
# The validator session (`collator/src/validator/impls/std_impl/session.rs`)

Collecting signatures for blocks. All tasks of one session run concurrently: validations (`validate_block`), the tasks they spawn to get a
signature from one peer (`receive_signature`), requests of other peers (`exchange_signatures`) and cancellations (`cancel_until`, `cancel`).
Each access to shared memory is one step; the scheduler, the network and the callers choose the steps. Simplifications: signatures, block ids
and peers are numbers, `verify_raw` and `sign_raw` are parameters; the creation of cache slots is one step; events, metrics, the semaphore
and delays are left out (a query may be made and answered, with anything, at any time). Memory is sequentially consistent.
-/
namespace Tycho.Validator

open Tycho.Table

abbrev Peer := Nat
abbrev BlockId := Nat
abbrev Sig := Nat

/-- What is fixed in a session: other validators with their weights (:77-83), the own weight, signatures, `old_blocks_to_keep` and
`signature_cache_slots` of the config. `maxSeqno`: `u32::MAX`. -/
structure Cfg where
  peers : List Peer
  weight : Peer → Nat
  own : Peer
  ownWeight : Nat
  threshold : Nat
  verify : Peer → BlockId → Sig → Bool
  sign : BlockId → Sig
  seqno : BlockId → Nat
  keep : Nat
  slots : Nat
  maxSeqno : Nat

/-- `u64::MAX`. -/
def u64Max : Nat := 2 ^ 64 - 1

/-- `weight_threshold` (:74-75). -/
def thresholdOf (maxWeight : Nat) : Nat := min (maxWeight * 2) u64Max / 3 + 1

/-- The map of validators (:67-72): a later entry of the same peer replaces an earlier one. -/
def validatorMap (l : List (Peer × Nat)) : Table Peer Nat := l.foldl (fun t e => put t e.1 e.2) []

/-- `ValidatorSession::new` (:59-152): `none` if the sum of weights overflows (a panic, or a wrapped sum
in a release build) or the node is not a validator. -/
def newCfg (validators : List (Peer × Nat)) (own : Peer) (verify : Peer → BlockId → Sig → Bool) (sign : BlockId → Sig) (seqno : BlockId → Nat)
    (keep slots maxSeqno : Nat) : Option Cfg :=
  let m := validatorMap validators
  let total := (m.map (·.2)).sum
  if u64Max < total then none
  else match get m own with
    | none => none
    | some w => some ⟨(del m (fun p => decide (p = own))).map (·.1), fun p => (get m p).getD 0, own, w, thresholdOf total, verify, sign, seqno, keep, slots, maxSeqno⟩

/-- `BlockSignatures` (:802-810). `counted` and `passed` are ghosts: the peers whose weight is in `total`,
and that the validation got past its second check (:262-277). -/
structure Obj where
  block : BlockId
  slots : Peer → Option Sig
  total : Nat
  validated : Bool
  cancelled : Bool
  counted : Peer → Bool
  passed : Bool

/-- Where `add_signature` is (:686-768): before the first load, before the check, before the compare-and-swap, before adding the weight, before
setting the flag (if the threshold is reached). -/
inductive Add
  | load
  | check
  | cas
  | count
  | mark (can : Bool)
  deriving DecidableEq, Repr

inductive AddRes
  | ok
  | changed
  | invalid
  deriving DecidableEq, Repr

inductive Outcome
  | complete (b : BlockId) (sigs : List (Peer × Sig)) (w : Nat)
  | skipped
  | inProgress
  | exhausted
  deriving DecidableEq, Repr

inductive Reply
  | complete (b : BlockId)
  | cached
  | error
  deriving DecidableEq, Repr

inductive Task
  /-- `validate_block`, step by step (:196-360). `o` is the object of the block, `pend` the tasks it waits for. -/
  | vCheck1 (b : BlockId)
  | vSlots (b : BlockId)
  | vPeek (b : BlockId)
  | vPrep (b : BlockId) (cached : Option Nat) (todo : List Peer) (slots : Peer → Option Sig) (w : Nat)
  | vInsert (b : BlockId) (cached : Option Nat) (slots : Peer → Option Sig) (w : Nat)
  | vCheck2 (b : BlockId) (cached : Option Nat) (o : Nat)
  | vDrop (b : BlockId) (o : Nat)
  | vUncache (b : BlockId) (cached : Option Nat) (o : Nat)
  | vScan (b : BlockId) (cached : Option Nat) (o : Nat) (todo : List Peer) (res : List (Peer × Sig)) (pend : List (Nat × Peer)) (w : Nat)
  | vCollect (b : BlockId) (o : Nat) (res : List (Peer × Sig)) (pend : List (Nat × Peer)) (w : Nat)
  | vDone (out : Outcome)
  /-- `receive_signature` (:538-659). -/
  | rStart (p : Peer) (o : Nat) (cached : Option Sig)
  | rAdd (p : Peer) (o : Nat) (s : Sig) (a : Add)
  | rChanged (p : Peer) (o : Nat)
  | rWait (p : Peer) (o : Nat)
  | rDone (p : Peer) (o : Nat) (s : Sig)
  /-- `exchange_signatures` (:848-912). -/
  | xCheck (p : Peer) (n : Nat) (s : Sig)
  | xPeek (p : Peer) (n : Nat) (s : Sig)
  | xSealed (p : Peer) (o : Nat) (s : Sig)
  | xAdd (p : Peer) (o : Nat) (s : Sig) (a : Add)
  | xReply (p : Peer) (o : Nat)
  | xCachePeek (p : Peer) (n : Nat) (s : Sig)
  | xCacheStore (p : Peer) (c : Nat) (s : Sig)
  | xDone (r : Reply)
  /-- `cancel_until` (:170-190). `todo`: blocks that were in the tree when the iteration began and were not visited yet. -/
  | cSet (n : Nat)
  | cMin (n : Nat)
  | cCache (n : Nat)
  | cTokens (n : Nat) (todo : List Nat)
  | cRemove (n : Nat)
  | cDone (n : Nat)
  /-- `cancel` (:162-168). -/
  | kSet
  | kToken
  | kDone
  | dead

/-- The shared state. `exposed`: blocks whose own signature was given out. -/
structure St where
  objs : Nat → Obj
  nobjs : Nat
  caches : Nat → Peer → Option Sig
  ncaches : Nat
  blocks : Table Nat Nat
  cache : Table Nat Nat
  minSeqno : Nat
  cancelledUntil : Nat
  cancelled : Bool
  tasks : Nat → Option Task
  exposed : List BlockId

def setTask (st : St) (t : Nat) (k : Task) : St := { st with tasks := fun j => if j = t then some k else st.tasks j }
def setObj (st : St) (o : Nat) (b : Obj) : St := { st with objs := fun j => if j = o then b else st.objs j }

/-- One step of `add_signature` (:686-768) for the peer `p` and its slot in the object `o`. -/
def addStep (c : Cfg) (st : St) (o : Nat) (p : Peer) (s : Sig) : Add → St × (Add ⊕ AddRes)
  | .load => match (st.objs o).slots p with
    | some s' => (st, .inr (if s' = s then .ok else .changed))
    | none => (st, .inl .check)
  | .check => (st, if c.verify p (st.objs o).block s then .inl .cas else .inr .invalid)
  | .cas => match (st.objs o).slots p with
    | none => (setObj st o { st.objs o with slots := fun q => if q = p then some s else (st.objs o).slots q }, .inl .count)
    | some s' => (st, if s' = s then .inl (.mark false) else .inr .changed)
  | .count => (setObj st o { st.objs o with total := (st.objs o).total + c.weight p, counted := fun q => if q = p then true else (st.objs o).counted q },
      .inl (.mark (decide (c.threshold ≤ (st.objs o).total + c.weight p))))
  | .mark can => (if can then setObj st o { st.objs o with validated := true } else st, .inr .ok)

/-- `create_cache_slots` (:487-501); all slots in one step. -/
def createSlots (st : St) (frm n : Nat) : St :=
  (List.range n).foldl (fun st i =>
    if st.minSeqno ≤ frm + i then match get st.cache (frm + i) with
      | some _ => st
      | none => { st with cache := put st.cache (frm + i) st.ncaches, caches := fun j => if j = st.ncaches then fun _ => none else st.caches j, ncaches := st.ncaches + 1 }
    else st) st

/-- Cancelled with the block or with the session (:262-263, :324-340). -/
def isCancelled (st : St) (o : Nat) : Bool := (st.objs o).cancelled || st.cancelled

/-- The next step of a validation; `none` where it waits (`vCollect` below the threshold) or spawns (`vScan`). -/
def runV (c : Cfg) (st : St) (t : Nat) : Task → Option St
  | .vCheck1 b => some (setTask st t (if c.seqno b ≤ st.cancelledUntil then .vDone .skipped else .vSlots b))
  | .vSlots b => some (setTask (createSlots { st with minSeqno := max st.minSeqno (c.seqno b) } (c.seqno b + 1) c.slots) t (.vPeek b))
  | .vPeek b => some (setTask st t (match get st.cache (c.seqno b) with
      | some ch => .vPrep b (some ch) c.peers (fun _ => none) c.ownWeight
      | none => .vInsert b none (fun _ => none) c.ownWeight))
  | .vPrep b ch [] slots w => some (setTask st t (.vInsert b ch slots w))
  | .vPrep b none (_ :: todo) slots w => some (setTask st t (.vPrep b none todo slots w))
  | .vPrep b (some ch) (p :: todo) slots w => match st.caches ch p with
    | none => some (setTask st t (.vPrep b (some ch) todo slots w))
    | some s =>
      if c.verify p b s then some (setTask st t (.vPrep b (some ch) todo (fun q => if q = p then some s else slots q) (w + c.weight p)))
      else some (setTask st t (.vPrep b (some ch) todo slots w))
  | .vInsert b ch slots w => match get st.blocks (c.seqno b) with
    | some _ => some (setTask st t (.vDone .inProgress))
    | none =>
      let o : Obj := ⟨b, slots, w, decide (c.threshold ≤ w), false, fun p => (slots p).isSome, false⟩
      some (setTask { setObj st st.nobjs o with nobjs := st.nobjs + 1, blocks := put st.blocks (c.seqno b) st.nobjs } t (.vCheck2 b ch st.nobjs))
  | .vCheck2 b ch o =>
    if decide (c.seqno b ≤ st.cancelledUntil) || isCancelled st o
    then some (setTask (setObj st o { st.objs o with cancelled := true }) t (.vDrop b o))
    else some (setTask (setObj st o { st.objs o with passed := true }) t (.vUncache b ch o))
  | .vDrop b _ => some (setTask { st with blocks := del st.blocks (fun n => decide (n = c.seqno b)) } t (.vDone .skipped))
  | .vUncache b ch o => some (setTask { st with cache := del st.cache (fun n => decide (n = c.seqno b)) } t
      (.vScan b ch o c.peers [(c.own, c.sign b)] [] c.ownWeight))
  | .vScan b ch o (p :: todo) res pend w => match (st.objs o).slots p with
    | some s => some (setTask st t (.vScan b ch o todo (res ++ [(p, s)]) pend (w + c.weight p)))
    | none => none
  | .vScan b _ o [] res pend w => some (setTask st t (.vCollect b o res pend w))
  | .vCollect b _ res _ w => if c.threshold ≤ w then some (setTask { st with exposed := b :: st.exposed } t (.vDone (.complete b res w))) else none
  | _ => none

/-- The next step of a task that gets one signature. -/
def runR (c : Cfg) (st : St) (t : Nat) : Task → Option St
  | .rStart p o none => some (setTask st t (.rWait p o))
  | .rStart p o (some s) => some (setTask st t (.rAdd p o s .load))
  | .rAdd p o s a =>
    let r := addStep c st o p s a
    some (setTask r.1 t (match r.2 with
      | .inl a' => .rAdd p o s a'
      | .inr .ok => .rDone p o s
      | .inr .changed => .rChanged p o
      | .inr .invalid => .rWait p o))
  | .rChanged p o => some (setTask st t (match (st.objs o).slots p with
      | some s => .rDone p o s
      | none => .rWait p o))
  | _ => none

/-- The next step of a request from a peer. -/
def runX (c : Cfg) (st : St) (t : Nat) : Task → Option St
  | .xCheck p n s => some (setTask st t (if st.cancelled then .xDone .error else .xPeek p n s))
  | .xPeek p n s => some (setTask st t (match get st.blocks n with
      | some o => if p ∈ c.peers then .xSealed p o s else .xDone .error
      | none => .xCachePeek p n s))
  | .xSealed p o s => some (setTask st t (if (st.objs o).validated then .xReply p o else .xAdd p o s .load))
  | .xAdd p o s a =>
    let r := addStep c st o p s a
    some (setTask r.1 t (match r.2 with
      | .inl a' => .xAdd p o s a'
      | .inr .ok => .xReply p o
      | .inr _ => .xDone .error))
  | .xReply _ o => some (setTask { st with exposed := (st.objs o).block :: st.exposed } t (.xDone (.complete (st.objs o).block)))
  | .xCachePeek p n s => some (setTask st t (match get st.cache n with
      | some ch => if p ∈ c.peers then .xCacheStore p ch s else .xDone .error
      | none => .xDone .error))
  | .xCacheStore p ch s => some (setTask { st with caches := fun j => if j = ch then fun q => if q = p then some s else st.caches ch q else st.caches j } t
      (.xDone .cached))
  | _ => none

/-- The next step of a cancellation. -/
def runC (c : Cfg) (st : St) (t : Nat) : Task → Option St
  | .cSet n => some (setTask { st with cancelledUntil := max st.cancelledUntil n } t (.cMin n))
  | .cMin n => some (setTask { st with minSeqno := max st.minSeqno n } t (.cCache n))
  | .cCache n => some (setTask { st with cache := del st.cache (fun m => decide (m ≤ n)) } t
      (.cTokens n ((st.blocks.map (·.1)).filter (fun m => decide (m ≤ n)))))
  | .cTokens n [] => some (setTask st t (.cRemove n))
  | .cRemove n => some (setTask st t (.cDone n))
  | .kSet => some (setTask { st with cancelledUntil := max st.cancelledUntil c.maxSeqno } t .kToken)
  | .kToken => some (setTask { st with cancelled := true } t .kDone)
  | _ => none

/-- What may happen next. -/
inductive Act
  /-- Calls, as a new task `t`. -/
  | validate (t : Nat) (b : BlockId)
  | exchange (t : Nat) (p : Peer) (n : Nat) (s : Sig)
  | cancelUntil (t : Nat) (n : Nat)
  | cancel (t : Nat)
  /-- A task goes on. -/
  | run (t : Nat)
  /-- A validation starts to wait for the next peer in a new task (:302-322). -/
  | spawn (t r : Nat)
  /-- A validation takes the result of a task (:327-352), or notices that it is cancelled, or that no task is left. -/
  | take (t r : Nat)
  | stop (t : Nat)
  | exhaust (t : Nat)
  /-- `receive_signature` sends a query (:594-597), gets an answer (:601), or finds the slot set (:632). -/
  | query (t : Nat)
  | answer (t : Nat) (s : Sig)
  | found (t : Nat)
  /-- `cancel_until` cancels one block (:181-184), removes one block (:189). -/
  | token (t n : Nat)
  | remove (t n : Nat)
  /-- A task is dropped. -/
  | abort (t : Nat)
  deriving DecidableEq, Repr

/-- Cancellations are not async: they cannot be dropped halfway. -/
def sync : Task → Bool
  | .cSet _ | .cMin _ | .cCache _ | .cTokens _ _ | .cRemove _ | .cDone _ | .kSet | .kToken | .kDone => true
  | _ => false

def step (c : Cfg) (st : St) : Act → Option St
  | .validate t b => match st.tasks t with
    | none => some (setTask st t (.vCheck1 b))
    | some _ => none
  | .exchange t p n s => match st.tasks t with
    | none => some (setTask st t (.xCheck p n s))
    | some _ => none
  | .cancelUntil t n => match st.tasks t with
    | none => some (setTask st t (.cSet n))
    | some _ => none
  | .cancel t => match st.tasks t with
    | none => some (setTask st t .kSet)
    | some _ => none
  | .run t => (st.tasks t).bind (fun k => (((runV c st t k).or (runR c st t k)).or (runX c st t k)).or (runC c st t k))
  | .spawn t r => match st.tasks t, st.tasks r with
    | some (.vScan b ch o (p :: todo) res pend w), none => match (st.objs o).slots p with
      | none => some (setTask (setTask st r (.rStart p o (ch.bind (fun ch => st.caches ch p)))) t (.vScan b ch o todo res (pend ++ [(r, p)]) w))
      | some _ => none
    | _, _ => none
  | .take t r => match st.tasks t, st.tasks r with
    | some (.vCollect b o res pend w), some (.rDone p _ s) =>
      if w < c.threshold ∧ (r, p) ∈ pend then some (setTask st t (.vCollect b o (res ++ [(p, s)]) (pend.erase (r, p)) (w + c.weight p))) else none
    | _, _ => none
  | .stop t => match st.tasks t with
    | some (.vCollect _ o _ _ w) => if w < c.threshold ∧ isCancelled st o = true then some (setTask st t (.vDone .skipped)) else none
    | _ => none
  | .exhaust t => match st.tasks t with
    | some (.vCollect _ _ _ pend w) => if w < c.threshold ∧ pend = [] then some (setTask st t (.vDone .exhausted)) else none
    | _ => none
  | .query t => match st.tasks t with
    | some (.rWait _ o) => some { st with exposed := (st.objs o).block :: st.exposed }
    | _ => none
  | .answer t s => match st.tasks t with
    | some (.rWait p o) => some (setTask st t (.rAdd p o s .load))
    | _ => none
  | .found t => match st.tasks t with
    | some (.rWait p o) => (((st.objs o).slots p).map (fun s => setTask st t (.rAdd p o s .load)))
    | _ => none
  | .token t n => match st.tasks t with
    | some (.cTokens m todo) =>
      if n ≤ m then
        let st' := match get st.blocks n with
          | some o => setObj st o { st.objs o with cancelled := true }
          | none => st
        some (setTask st' t (.cTokens m (todo.filter (fun j => decide (j ≠ n)))))
      else none
    | _ => none
  | .remove t n => match st.tasks t with
    | some (.cRemove m) => if n ≤ m - c.keep then some { st with blocks := del st.blocks (fun j => decide (j = n)) } else none
    | _ => none
  | .abort t => match st.tasks t with
    | some k => if sync k then none else some (setTask st t .dead)
    | none => none

def steps (c : Cfg) (st : St) : List Act → Option St
  | [] => some st
  | a :: as => (step c st a).bind (fun st' => steps c st' as)

/-- A new session with its first cache slots (:128-148). -/
def init (c : Cfg) (start : Nat) : St :=
  createSlots ⟨fun _ => ⟨0, fun _ => none, 0, false, false, fun _ => false, false⟩, 0, fun _ _ => none, 0, [], [], start, 0, false, fun _ => none, []⟩ start c.slots

end Tycho.Validator
