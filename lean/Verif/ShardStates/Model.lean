import Mathlib.Data.List.Basic

/-!
Storage of shard states: core/src/storage/shard_state/mod.rs. Every n-th state of a shard is stored as a tree of cells ("direct"), the others
are computed from it by the Merkle updates of blocks ("virtual"). Stores run in the background and are cached; the garbage collection
removes old direct states at the same time.

Simplifications. A state is the block it belongs to and the cells of its tree. The accumulator of new cells and the hint for top blocks can
only turn virtual stores into direct ones; so a store is direct whenever the step says so, and may be direct otherwise. Applying an
update fails unless each cell of the new state is in the update, was new in an update applied before, or is in the database; a root that is
in the database already is not looked up first. A connection to the previous block is stored with the data. Shards are not split or merged.
-/
namespace Tycho.ShardStates

/-- `BlockId` -/
structure Id where
  shard : Nat
  seqno : Nat
  root : Nat
deriving DecidableEq, Repr

/-- The chain, and `CoreStorageConfig::store_shard_state_step`. -/
structure Env where
  mc : Nat
  shards : List Nat
  step : Nat
  prev : Id → Id
  /-- cells of the state of a block -/
  cells : Id → List Nat
  /-- cells in the Merkle update of a block -/
  new : Id → List Nat
  /-- `min_ref_mc_seqno` of a state -/
  minRef : Id → Nat
  /-- `min_ref_mc_seqno` of a masterchain block -/
  mcMinRef : Nat → Nat
  /-- top block of a shard in a masterchain block -/
  top : Nat → Nat → Id

/-- mod.rs:310-315 -/
def Env.stepOf (env : Env) (sh : Nat) : Nat := if sh = env.mc then 1 else env.step

/-- mod.rs:1587-1590 `StateWithApplier`: the state, the block the applier was created for, and the cells in the applier -/
structure Res where
  id : Id
  pivot : Id
  news : List Nat
deriving DecidableEq

/-- mod.rs:1580-1584 `CachedState` -/
inductive Cached where
  | pending
  | stored (r : Res)
  | failed
deriving DecidableEq

/-- mod.rs:1564-1571 `ShardStatesCacheItem`; `task` is the future -/
structure Item where
  task : Nat
  virt : Bool
  state : Cached
deriving DecidableEq

/-- mod.rs:371-399, 422-433 where a store takes the previous state from -/
inductive Src where
  | exact
  | task (t : Nat)
  | done (r : Res)
  | failed
  | storage
deriving DecidableEq

/-- A store in progress or finished; `written`: the batch is written (mod.rs:778-781); `result`: `some none` is an error -/
structure Task where
  id : Id
  virt : Bool
  src : Src
  written : Bool
  result : Option (Option Res)
deriving DecidableEq

/-- flags of a block handle (C16) -/
structure Flags where
  hasState : Bool
  hasVirtual : Bool
  hasData : Bool
  skip : Bool
deriving DecidableEq

structure St where
  /-- table `shard_states` -/
  direct : Id → Bool
  handles : Id → Option Flags
  cache : Id → Option Item
  /-- `ShardStatesCache::pivot_block_seqno` -/
  pivotSeqno : Nat → Nat
  tasks : Nat → Option Task
  /-- states in the hands of callers -/
  held : List Res
  /-- states the running garbage collection has still to remove -/
  todo : List Id
  /-- ghost: blocks whose store succeeded -/
  stored : Id → Bool
  /-- ghost: the newest state the garbage collection took as an edge -/
  base : Nat → Id
  /-- ghost: how often the tree of a state was stored and not removed -/
  trees : Id → Nat

def St.putTask (s : St) (t : Nat) (x : Option Task) : St := { s with tasks := fun u => if u = t then x else s.tasks u }
def St.putCache (s : St) (b : Id) (x : Option Item) : St := { s with cache := fun c => if c = b then x else s.cache c }
def St.putHandle (s : St) (b : Id) (x : Option Flags) : St := { s with handles := fun c => if c = b then x else s.handles c }
def St.markStored (s : St) (b : Id) : St := { s with stored := fun c => if c = b then true else s.stored c }

/-! ### Loading -/

inductive Found where
  | applied
  | virt
  | none
deriving DecidableEq

/-- mod.rs:1351-1414 `load_state_or_update`; `get`: blocks known to the caller -/
def St.lookup (s : St) (get : Id → Bool) (x : Id) : Found :=
  if s.direct x then .applied
  else
    match s.handles x with
    | none => if get x then .virt else .none
    | some h => if get x then .virt else if h.hasData then .virt else .none

/-- mod.rs:519-553 the search of `load_prev_state_root_no_cache`: the pivot and the updates, the next one to apply first -/
def St.searchDisk (s : St) (env : Env) (get : Id → Bool) : Nat → Id → List Id → Option (Id × List Id)
  | 0, _, _ => none
  | fuel + 1, x, upds =>
    match s.lookup get x with
    | .applied => some (x, upds)
    | .virt => s.searchDisk env get fuel (env.prev x) (x :: upds)
    | .none => none

/-- End of the search of `load_state_ext`. -/
inductive Outcome where
  | notFound
  | failed
  | cached (r : Res) (upds : List Id)
  | await (task : Nat) (x : Id) (upds : List Id)
  | disk (p : Id) (upds : List Id)
deriving DecidableEq

/-- mod.rs:923-983. Iteration `i` sees the state `σ i`. `complete`: the flag of a store task. `ignore`: `allow_ignore_direct`. -/
def search (env : Env) (get : Id → Bool) (ignore : Bool) (complete : Nat → Bool) (σ : Nat → St) : Nat → Nat → Id → List Id → Outcome
  | 0, _, _, _ => .notFound
  | fuel + 1, i, x, upds =>
    match (σ i).cache x with
    | some it =>
      match it.state with
      | .stored r => .cached r upds
      | .failed => .failed
      | .pending =>
        if !ignore || it.virt || complete i || decide (env.step ≤ upds.length) || ((σ i).cache (env.prev x)).isNone then
          .await it.task x upds
        else search env get ignore complete σ fuel (i + 1) (env.prev x) (x :: upds)
    | none =>
      match (σ i).lookup get x with
      | .applied => .disk x upds
      | .virt => search env get ignore complete σ fuel (i + 1) (env.prev x) (x :: upds)
      | .none => .notFound

/-- mod.rs:892-1011 the search of `load_state_ext`; mod.rs:921-925 at most `step` updates -/
def find (env : Env) (get : Id → Bool) (ignore : Bool) (complete : Nat → Bool) (σ : Nat → St) (b : Id) : Outcome :=
  search env get ignore complete σ (env.step + 1) 0 b []

/-- mod.rs:1684-1706 `make_next_state`; the cells of the database are those of the direct states `avail` -/
def canApply (env : Env) (s : St) (r : Res) (x : Id) : Prop :=
  ∀ c ∈ env.cells x, c ∈ env.new x ∨ c ∈ r.news ∨ ∃ d, s.direct d = true ∧ c ∈ env.cells d

def Res.next (env : Env) (r : Res) (x : Id) : Res := ⟨x, r.pivot, r.news ++ env.new x⟩

/-- mod.rs:1416-1447 `apply_updates_chain`, and the fast path before it (mod.rs:995-998): the state of which block comes out. Update
number `i` is applied in the state `σ i`. -/
inductive Loads (env : Env) (σ : Nat → St) (b : Id) : Nat → Res → List Id → Id → Prop
  | fast (i r) : r.id = b → Loads env σ b i r [] r.id
  | one (i r x) : canApply env (σ i) r x → Loads env σ b i r [x] x
  | more (i r x y l c) : canApply env (σ i) r x → Loads env σ b (i + 1) (r.next env x) (y :: l) c → Loads env σ b i r (x :: y :: l) c

/-! ### Storing -/

/-- mod.rs:371-399 -/
def St.prevSrc (s : St) (env : Env) (b : Id) : Src :=
  match s.cache (env.prev b) with
  | none => .storage
  | some it =>
    match it.state with
    | .pending => .task it.task
    | .stored r => .done r
    | .failed => .failed

/-- mod.rs:278-501 `begin_store_next_state`. `direct`: the decision (mod.rs:333-349); `exact`: the caller has the state. `t` is fresh. -/
def St.begin (s : St) (env : Env) (b : Id) (direct exact : Bool) (t : Nat) : St :=
  match s.handles b with
  | none => s
  | some h =>
    if h.hasState || h.hasVirtual then s
    else
      match s.cache b with
      | some _ => s
      | none =>
        (s.putTask t (some ⟨b, !direct, if direct && exact then .exact else s.prevSrc env b, false, none⟩)).putCache b
          (some ⟨t, !direct, .pending⟩)

/-- The previous state of a task, if it is there. -/
def St.prevRes (s : St) (src : Src) : Option (Option Res) :=
  match src with
  | .exact => none
  | .task t => (s.tasks t).bind (·.result)
  | .done r => some (some r)
  | .failed => some none
  | .storage => none

/-- mod.rs:778-786: write -/
def St.write (s : St) (t : Nat) (k : Task) : St :=
  ({ s with direct := fun c => if c = k.id then true else s.direct c
            trees := fun c => if c = k.id then s.trees c + 1 else s.trees c }).putTask t (some { k with written := true })

/-- mod.rs:786, 804 flag and reload -/
def St.flagDirect (s : St) (t : Nat) (k : Task) : St :=
  ((s.putHandle k.id ((s.handles k.id).map (fun h => { h with hasState := true }))).putTask t
    (some { k with result := some (some ⟨k.id, k.id, []⟩) })).markStored k.id

/-- mod.rs:601-608 -/
def St.flagVirtual (s : St) (env : Env) (t : Nat) (k : Task) (r : Res) : St :=
  ((s.putHandle k.id ((s.handles k.id).map (fun h => { h with hasVirtual := true }))).putTask t
    (some { k with result := some (some (r.next env k.id)) })).markStored k.id

def St.failTask (s : St) (t : Nat) (k : Task) : St := s.putTask t (some { k with result := some none })

/-- mod.rs:1524-1551 `save_result` -/
def St.save (s : St) (k : Task) (res : Option Res) : St :=
  match s.cache k.id with
  | none => s
  | some it =>
    match res with
    | none => s.putCache k.id (some { it with state := .failed })
    | some r =>
      let s := s.putCache k.id (some { it with state := .stored r })
      if !it.virt && decide (s.pivotSeqno k.id.shard < r.pivot.seqno) then
        { s with
          pivotSeqno := fun sh => if sh = k.id.shard then r.pivot.seqno else s.pivotSeqno sh
          cache := fun c => if c.shard = k.id.shard ∧ c.seqno < r.pivot.seqno then none else s.cache c }
      else s

/-! ### Garbage collection -/

/-- top of a shard at a masterchain block -/
def Env.topSeqno (env : Env) (m sh : Nat) : Nat := if sh = env.mc then m else (env.top m sh).seqno

/-- mod.rs:1210-1252 the newest direct state of the shard up to the top block; for the masterchain, the state of block `m`
(mod.rs:1273-1301) -/
def IsEdge (env : Env) (s : St) (m sh : Nat) (e : Id) : Prop :=
  s.direct e = true ∧ e.shard = sh ∧
  if sh = env.mc then e.seqno = m
  else e.seqno ≤ (env.top m sh).seqno ∧ ∀ d, s.direct d = true → d.shard = sh → d.seqno ≤ (env.top m sh).seqno → d.seqno ≤ e.seqno

/-- A state with a handle in the tracker: in the cache, the result of a task, captured by a task, being stored, or in the hands of a
caller. -/
def St.live (s : St) (r : Res) : Prop :=
  (∃ b it, s.cache b = some it ∧ it.state = .stored r) ∨ (∃ t k, s.tasks t = some k ∧ k.result = some (some r)) ∨
  (∃ t k, s.tasks t = some k ∧ k.src = .done r) ∨ (∃ t k, s.tasks t = some k ∧ k.written = true ∧ r = ⟨k.id, k.id, []⟩) ∨ r ∈ s.held

/-- block-util/src/state/min_ref_mc_state.rs: a seqno that is not above that of any handle (C78); handles of zerostates are untracked -/
def St.tracked (s : St) (env : Env) (m : Nat) : Prop := ∀ r, s.live r → 0 < r.pivot.seqno → m ≤ env.minRef r.pivot

def anc (env : Env) : Nat → Id → Id
  | 0, x => x
  | k + 1, x => anc env k (env.prev x)

/-- the block is the edge or a descendant of it -/
def St.above (s : St) (env : Env) (x : Id) : Prop := ∃ k, k ≤ x.seqno ∧ anc env k x = s.base x.shard

/-- mod.rs:725-728, 801, 1098-1101 `gc_lock`: held from before the write of a batch until after the flag is set -/
def St.unlocked (s : St) : Prop := ∀ t k, s.tasks t = some k → k.written = true → k.result ≠ none

inductive Step (env : Env) : St → St → Prop
  /-- core/src/block_strider/block_saver.rs, collator/src/state_node.rs: handles and data of blocks -/
  | data (s b h) : (∀ f, s.handles b = some f → h.hasState = f.hasState ∧ h.hasVirtual = f.hasVirtual ∧ (f.hasData = true → h.hasData = true)) →
    (s.handles b = none → h.hasState = false ∧ h.hasVirtual = false) →
    Step env s (s.putHandle b (some h))
  /-- blocks are removed below the edge only (C75, C76) -/
  | dropBlock (s b) : b.seqno < (s.base b.shard).seqno → Step env s (s.putHandle b none)
  /-- blocks are stored in order: the store of the previous one succeeded, or is in the cache -/
  | begin (s b direct exact t) : s.tasks t = none → 0 < b.seqno → b.shard ∈ env.shards →
    s.stored (env.prev b) = true ∨ s.cache (env.prev b) ≠ none →
    (b.seqno % env.stepOf b.shard = 0 → direct = true) → Step env s (s.begin env b direct exact t)
  /-- mod.rs:680-682, 719-735 the state is stored already -/
  | existing (s t k h) : s.tasks t = some k → k.result = none → k.virt = false → k.written = false → s.handles k.id = some h →
    h.hasState = true → s.direct k.id = true → (s.base k.id.shard).seqno ≤ k.id.seqno →
    Step env s ((s.putTask t (some { k with result := some (some ⟨k.id, k.id, []⟩) })).markStored k.id)
  /-- mod.rs:684-793 a direct store; the state is given, or computed from the previous one -/
  | write (s t k h) : s.unlocked → s.tasks t = some k → k.result = none → k.virt = false → k.written = false → s.handles k.id = some h → h.hasState = false →
    (k.src = .exact ∨ (∃ r, s.prevRes k.src = some (some r) ∧ canApply env s r k.id) ∨
      (k.src = .storage ∧ ∃ get p upds r, s.searchDisk env get (env.stepOf k.id.shard) (env.prev k.id) [] = some (p, upds) ∧
        (∃ c, Loads env (fun _ => s) (env.prev k.id) 0 ⟨p, p, []⟩ upds c) ∧ r = upds.foldl (Res.next env) ⟨p, p, []⟩ ∧ canApply env s r k.id)) →
    (s.base k.id.shard).seqno ≤ k.id.seqno → Step env s (s.write t k)
  | flag (s t k) : s.tasks t = some k → k.result = none → k.written = true → Step env s (s.flagDirect t k)
  /-- mod.rs:578-610 a virtual store -/
  | virt (s t k r) : s.tasks t = some k → k.result = none → k.virt = true →
    (s.prevRes k.src = some (some r) ∨
      (k.src = .storage ∧ s.above env (env.prev k.id) ∧ ∃ get p upds, s.searchDisk env get (env.stepOf k.id.shard) (env.prev k.id) [] = some (p, upds) ∧
        (∃ c, Loads env (fun _ => s) (env.prev k.id) 0 ⟨p, p, []⟩ upds c) ∧ r = upds.foldl (Res.next env) ⟨p, p, []⟩)) →
    canApply env s r k.id → Step env s (s.flagVirtual env t k r)
  /-- any failure before something was written -/
  | fail (s t k) : s.tasks t = some k → k.result = none → k.written = false → Step env s (s.failTask t k)
  | save (s t k res) : s.tasks t = some k → k.result = some res → Step env s (s.save k res)
  /-- nobody waits for the task any more; a write goes on to its end (mod.rs:440-465 `spawn_blocking`) -/
  | forget (s t) : (∀ k, s.tasks t = some k → k.written = true → k.result ≠ none) → (∀ b it, s.cache b = some it → it.task ≠ t) → (∀ u k, s.tasks u = some k → k.src ≠ .task t) → Step env s (s.putTask t none)
  /-- a caller gets a state -/
  | hold (s r) : s.live r → Step env s { s with held := r :: s.held }
  | holdDisk (s p) : s.direct p = true → s.stored p = true → (s.base p.shard).seqno ≤ p.seqno → Step env s { s with held := ⟨p, p, []⟩ :: s.held }
  | holdNext (s r x) : r ∈ s.held → env.prev x = r.id → 0 < x.seqno → s.stored x = true ∨ s.cache x ≠ none → canApply env s r x →
    Step env s { s with held := r.next env x :: s.held }
  | release (s l) : (∀ r ∈ l, r ∈ s.held) → Step env s { s with held := l }
  /-- mod.rs:1022-1080, 1167-1271: `m` is the least of target and tracked seqnos; the edges are those of its minimal reference -/
  | gcStart (s m) (edges : Nat → Id) (todo) : s.todo = [] → s.tracked env m → (∀ sh ∈ env.shards, IsEdge env s (env.mcMinRef m) sh (edges sh)) →
    (∀ x, x ∈ todo ↔ s.direct x = true ∧ x.seqno ≠ 0 ∧ x.shard ∈ env.shards ∧ x.seqno < (edges x.shard).seqno) → todo.Nodup →
    Step env s { s with todo := todo, base := fun sh => if sh ∈ env.shards ∧ (s.base sh).seqno ≤ (edges sh).seqno then edges sh else s.base sh }
  /-- mod.rs:1084-1094 -/
  | gcSkip (s x l h) : s.todo = x :: l → s.handles x = some h → h.skip = true → Step env s { s with todo := l }
  /-- mod.rs:1096-1131 -/
  | gcRemove (s x l) : s.unlocked → s.todo = x :: l → (∀ h, s.handles x = some h → h.skip = false) →
    Step env s { s with todo := l, direct := fun c => if c = x then false else s.direct c
                        trees := fun c => if c = x then s.trees c - 1 else s.trees c }
  /-- an error ends the collection -/
  | gcStop (s) : Step env s { s with todo := [] }

/-- A crash or a stop, and a restart. -/
def St.reboot (s : St) : St := { s with cache := fun _ => none, pivotSeqno := fun _ => 0, tasks := fun _ => none, held := [], todo := [] }

/-- A node that starts with imported states, one per shard. -/
structure Start (env : Env) (s : St) : Prop where
  base : ∀ sh ∈ env.shards, s.direct (s.base sh) = true ∧ (s.base sh).shard = sh
  direct : ∀ x, s.direct x = true ↔ ∃ sh ∈ env.shards, x = s.base sh
  stored : ∀ x, s.stored x = s.direct x
  trees : ∀ x, s.trees x = if s.direct x then 1 else 0
  flags : ∀ x h, s.handles x = some h → (h.hasState = true → s.direct x = true) ∧ h.hasVirtual = false
  handles : ∀ x, s.direct x = true → ∃ h, s.handles x = some h ∧ h.hasState = true
  cache : ∀ x, s.cache x = none
  tasks : ∀ t, s.tasks t = none
  held : s.held = []
  todo : s.todo = []

inductive Exec (env : Env) : St → Prop
  | start (s) : Start env s → Exec env s
  | step (s s') : Exec env s → Step env s s' → Exec env s'
  | restart (s) : Exec env s → Exec env s.reboot

/-- A node that never stops. -/
inductive ExecUp (env : Env) : St → Prop
  | start (s) : Start env s → ExecUp env s
  | step (s s') : ExecUp env s → Step env s s' → ExecUp env s'

inductive Steps (env : Env) : St → St → Prop
  | refl (s) : Steps env s s
  | tail (s s' s'') : Steps env s s' → Step env s' s'' → Steps env s s''

/-- What a chain guarantees. -/
structure Env.Ok (env : Env) : Prop where
  step_pos : 0 < env.step
  mc_mem : env.mc ∈ env.shards
  prev_shard : ∀ b, 0 < b.seqno → (env.prev b).shard = b.shard
  prev_seqno : ∀ b, 0 < b.seqno → (env.prev b).seqno + 1 = b.seqno
  /-- the cells of a state are those of the previous one and those of the update -/
  update : ∀ b, 0 < b.seqno → ∀ c ∈ env.cells b, c ∈ env.cells (env.prev b) ∨ c ∈ env.new b
  /-- a block refers to masterchain blocks older than itself -/
  minRef_le : ∀ m, env.mcMinRef m ≤ m
  minRef_top : ∀ p m, 0 < p.seqno → m ≤ env.minRef p → env.topSeqno m p.shard ≤ p.seqno
  top_shard : ∀ m sh, (env.top m sh).shard = sh

end Tycho.ShardStates
