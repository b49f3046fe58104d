import Verif.Common.Table

/-!
The block strider: core/src/block_strider/mod.rs (`run`, `process_mc_block`, `download_shard_blocks`,
`process_shard_blocks`) with the persistent state of core/src/block_strider/state.rs, as a transition system.
One step is a piece of the code between two points where another task may run. An error anywhere and a crash
are the same step `stop`: all tasks are dropped (mod.rs: `?` in `run`, `JoinTask` aborts on drop) and the next
`start` begins with what is stored.
-/
namespace Tycho.Strider
open Tycho.Table

/-- `BlockId`. Shards are numbers, 0 is the masterchain. `hash` stands for both hashes. -/
structure BlockId where
  shard : Nat
  seqno : Nat
  hash : Nat
deriving DecidableEq, Repr

/-- `PrevBlockRef` of a block info. -/
inductive PrevRef where
  | single (seqno hash : Nat)
  | afterMerge (lseqno lhash rseqno rhash : Nat)
deriving DecidableEq, Repr

/-- What the strider reads of a shard block (`BlockInfo`). -/
structure ShardBlock where
  afterSplit : Bool
  afterMerge : Bool
  prev : PrevRef
deriving DecidableEq, Repr

/-- What the strider reads of a masterchain block: whether it is a key block, and `custom.shards.latest_blocks()`. -/
structure McBlock where
  key : Bool
  tops : List BlockId
deriving DecidableEq, Repr

/-- The blocks, by id, and the provider. `next p m`: `get_next_block(p)` may return block `m`. A provider must
return the requested block (provider/mod.rs:47), so `get_block` is a function of the id; it fails if there is
no such block. `saves` says whether the subscriber stores blocks in `prepare_block` (block_saver.rs:20-30).
`intersects` of shard idents, and parent and children of a shard. -/
structure World where
  shardBlock : BlockId → Option ShardBlock
  mcBlock : BlockId → McBlock
  next : BlockId → BlockId → Prop
  zerostate : BlockId
  saves : Bool
  intersects : Nat → Nat → Bool
  up : Nat → Nat
  left : Nat → Nat
  right : Nat → Nat

/-- What is stored: the last masterchain block (node state) and block handles with their flag "committed". -/
structure Store where
  lastMc : Option BlockId
  handles : Table BlockId Bool
deriving DecidableEq, Repr

/-- state.rs:60-65 `load_last_mc_block_id`. -/
def Store.last (st : Store) (w : World) : BlockId := st.lastMc.getD w.zerostate

/-- state.rs:67-77 `is_committed`. -/
def Store.isCommitted (st : Store) (w : World) (b : BlockId) : Bool :=
  if b.shard = 0 then decide (b.seqno ≤ (st.last w).seqno) else (get st.handles b).getD false

/-- state.rs:90-104 `commit_shard`: without a handle only a warning. -/
def Store.commitShard (st : Store) (b : BlockId) : Store :=
  match get st.handles b with
  | some _ => { st with handles := put st.handles b true }
  | none => st

/-- state.rs:84-89 `commit_master`. -/
def Store.commitMaster (st : Store) (m : BlockId) : Store := { st with lastMc := some m }

/-- block_saver.rs:87-104 the handle of a saved block is created or loaded (C22). -/
def Store.save (st : Store) (w : World) (b : BlockId) : Store :=
  if w.saves then
    match get st.handles b with
    | some _ => st
    | none => { st with handles := put st.handles b false }
  else st

/-- mod.rs:269-333 `download_shard_blocks`, blocks from the top down; `fuel` is `MAX_DEPTH - depth`. -/
def download (w : World) (st : Store) : Nat → BlockId → Option (List BlockId)
  | 0, _ => none
  | fuel + 1, top =>
    if top.seqno = 0 ∨ st.isCommitted w top = true then some []
    else
      match w.shardBlock top with
      | none => none
      | some info =>
        if info.afterSplit || info.afterMerge then some [top]
        else
          match info.prev with
          | .afterMerge _ _ _ _ => none
          | .single seqno hash =>
            -- mod.rs:326-329 `depth += 1; if depth >= MAX_DEPTH { bail }`
            if fuel = 0 then none
            else (download w st fuel ⟨top.shard, seqno, hash⟩).map (fun l => top :: l)

/-- mod.rs:275 -/
def maxDepth : Nat := 32

/-- mod.rs:206-229: the lists of all top blocks of a masterchain block, or an error. The downloads run
concurrently, nothing else is committed meanwhile. -/
def downloadAll (w : World) (st : Store) : List BlockId → Option (List (List BlockId))
  | [] => some []
  | t :: ts =>
    match download w st maxDepth t with
    | none => none
    | some l =>
      match downloadAll w st ts with
      | none => none
      | some ls => some (l :: ls)

/-- block-util/src/block/top_blocks.rs:14-58 and mod.rs:207-214: heights of the shards. -/
def heights (tops : List BlockId) : Table Nat Nat := putAll [] (tops.map (fun t => (t.shard, t.seqno)))

/-- top_blocks.rs:14-58 `contains`. -/
def heightsContain (w : World) (h : Table Nat Nat) (b : BlockId) : Bool :=
  match get h b.shard with
  | some top => decide (top ≤ b.seqno)
  | none =>
    match h.find? (fun e => w.intersects b.shard e.1) with
    | some e => decide (e.2 ≤ b.seqno)
    | none => false

/-- `BlockSubscriberContext` without the contents of the block. -/
structure Cx where
  mc : BlockId
  mcKey : Bool
  key : Bool
  top : Bool
  block : BlockId
deriving DecidableEq, Repr

/-- mod.rs:185-193 -/
def mcCx (w : World) (m : BlockId) : Cx := ⟨m, (w.mcBlock m).key, (w.mcBlock m).key, true, m⟩

/-- mod.rs:345-353 -/
def shardCx (w : World) (m b : BlockId) : Cx :=
  ⟨m, (w.mcBlock m).key, false, heightsContain w (heights (w.mcBlock m).tops) b, b⟩

/-- Between `handle_block` and the end of `delayed_handle.join()`. -/
inductive Stage where
  | handling
  | joining
deriving DecidableEq, Repr

/-- mod.rs:335-397 one call of `process_shard_blocks`: blocks not started (oldest first), the block being
prepared and whether that is done, the block being handled. -/
structure Task where
  todo : List BlockId
  prep : Option (BlockId × Bool)
  cur : Option (BlockId × Stage)
deriving DecidableEq, Repr

inductive McStage where
  | shards
  | handling
  | joining
  | cleaning
deriving DecidableEq, Repr

/-- One call of `process_mc_block` and the `cleanup_until` after it. -/
structure McRun where
  id : BlockId
  prepared : Bool
  tasks : Option (List Task)
  stage : McStage
deriving DecidableEq, Repr

/-- mod.rs:149-179 `run`: the block after which the next one is fetched, the fetched one, the one in progress. -/
structure Run where
  prev : BlockId
  fetched : Option BlockId
  cur : Option McRun
deriving DecidableEq, Repr

/-- `past` are the earlier contents of the database. -/
structure State where
  store : Store
  run : Option Run
  past : List Store
deriving DecidableEq, Repr

/-- What can be seen from outside. -/
inductive Event where
  | start
  | stop
  | lose
  | gc (b : BlockId)
  | fetched (m : BlockId)
  | prepare (cx : Cx)
  | prepared (b : BlockId)
  | downloaded (m : BlockId)
  | handle (cx : Cx)
  | handled (b : BlockId)
  | commit (b : BlockId)
  | cleanup (seqno : Nat)
deriving DecidableEq, Repr

/-- New contents of the database. -/
def State.write (s : State) (st : Store) : State := { s with store := st, past := s.store :: s.past }

/-- The state with another masterchain block in progress. -/
def State.setCur (s : State) (r : Run) (c : Option McRun) : State := { s with run := some { r with cur := c } }

/-- mod.rs:365 and 371 `blocks.pop().map(start_preparing_block)`: blocks come from the top down, the last one is
the oldest. -/
def newTask (l : List BlockId) : Task := ⟨l.reverse, none, none⟩

/-- mod.rs:367 nothing is left: the loop of `process_shard_blocks` ends. -/
def Task.finished (t : Task) : Bool := t.todo.isEmpty && t.prep.isNone && t.cur.isNone

/-- `m` is `q` or comes after it in the masterchain. -/
inductive Path (w : World) (q : BlockId) : BlockId → Prop
  | refl : Path w q q
  | step (p m) : Path w q p → w.next p m → Path w q m

/-- The steps. -/
inductive Step (w : World) : State → Event → State → Prop
  /-- mod.rs:152 `run`, after a start of the node -/
  | start (s) : s.run = none →
    Step w s .start { s with run := some ⟨s.store.last w, none, none⟩ }
  /-- an error of a provider, of the subscriber or of a delayed task, or a crash -/
  | stop (s r) : s.run = some r → Step w s .stop { s with run := none }
  /-- after a crash of the machine the database may be at an earlier point -/
  | lose (s st) : s.run = none → st ∈ s.past → Step w s .lose { s with store := st }
  /-- core/src/storage/block/mod.rs:466-528 `remove_outdated_blocks` for the masterchain block `q`, which is the last
  committed one or an earlier one: each removed handle is a step. The rule is that of
  core/src/storage/block_handle/mod.rs:346-377; which handles it protects in addition is not modelled. A manual
  trigger for a block after the last committed one is not modelled. -/
  | gc (s b q) : Path w q (s.store.last w) → b.seqno ≠ 0 →
    (if b.shard = 0 then b.seqno < q.seqno else heightsContain w (heights (w.mcBlock q).tops) b = false) →
    Step w s (.gc b) (s.write { s.store with handles := del s.store.handles (fun k => decide (k = b)) })
  /-- mod.rs:399-416 `fetch_next_master_block` in the background -/
  | fetch (s r m) : s.run = some r → r.fetched = none → w.next r.prev m →
    Step w s (.fetched m) { s with run := some { r with fetched := some m } }
  /-- mod.rs:155-161, 182-202 -/
  | take (s r m) : s.run = some r → r.cur = none → r.fetched = some m →
    Step w s (.prepare (mcCx w m)) { s with run := some ⟨m, none, some ⟨m, false, none, .shards⟩⟩ }
  /-- mod.rs:197-201 the background task `prepared_master` ends -/
  | mcPrepared (s r c) : s.run = some r → r.cur = some c → c.prepared = false →
    Step w s (.prepared c.id) ((s.write (s.store.save w c.id)).setCur r (some { c with prepared := true }))
  /-- mod.rs:204-229 -/
  | download (s r c ls) : s.run = some r → r.cur = some c → c.tasks = none →
    downloadAll w s.store (w.mcBlock c.id).tops = some ls →
    Step w s (.downloaded c.id) (s.setCur r (some { c with tasks := some (ls.map newTask) }))
  /-- mod.rs:340-363 `start_preparing_block` -/
  | prep (s r c l t l' b rest) : s.run = some r → r.cur = some c → c.tasks = some (l ++ t :: l') →
    t.prep = none → t.todo = b :: rest →
    Step w s (.prepare (shardCx w c.id b))
      (s.setCur r (some { c with tasks := some (l ++ { t with prep := some (b, false), todo := rest } :: l') }))
  | prepared (s r c l t l' b) : s.run = some r → r.cur = some c → c.tasks = some (l ++ t :: l') →
    t.prep = some (b, false) →
    Step w s (.prepared b) ((s.write (s.store.save w b)).setCur r
      (some { c with tasks := some (l ++ { t with prep := some (b, true) } :: l') }))
  /-- mod.rs:367-377 -/
  | handle (s r c l t l' b) : s.run = some r → r.cur = some c → c.tasks = some (l ++ t :: l') →
    t.prep = some (b, true) → t.cur = none →
    Step w s (.handle (shardCx w c.id b))
      (s.setCur r (some { c with tasks := some (l ++ { t with prep := none, cur := some (b, .handling) } :: l') }))
  /-- mod.rs:377-386 `handle_block` returned -/
  | handled (s r c l t l' b) : s.run = some r → r.cur = some c → c.tasks = some (l ++ t :: l') →
    t.cur = some (b, .handling) →
    Step w s (.handled b) (s.setCur r (some { c with tasks := some (l ++ { t with cur := some (b, .joining) } :: l') }))
  /-- mod.rs:388-394 the delayed tasks are joined -/
  | commit (s r c l t l' b) : s.run = some r → r.cur = some c → c.tasks = some (l ++ t :: l') →
    t.cur = some (b, .joining) →
    Step w s (.commit b) ((s.write (s.store.commitShard b)).setCur r
      (some { c with tasks := some (l ++ { t with cur := none } :: l') }))
  /-- mod.rs:231-240 -/
  | mcHandle (s r c ts) : s.run = some r → r.cur = some c → c.tasks = some ts → (∀ t ∈ ts, t.finished = true) →
    c.prepared = true → c.stage = .shards →
    Step w s (.handle (mcCx w c.id)) (s.setCur r (some { c with stage := .handling }))
  /-- mod.rs:240-248 -/
  | mcHandled (s r c) : s.run = some r → r.cur = some c → c.stage = .handling →
    Step w s (.handled c.id) (s.setCur r (some { c with stage := .joining }))
  /-- mod.rs:250-258 -/
  | mcCommit (s r c) : s.run = some r → r.cur = some c → c.stage = .joining →
    Step w s (.commit c.id) ((s.write (s.store.commitMaster c.id)).setCur r (some { c with stage := .cleaning }))
  /-- mod.rs:170-174 `cleanup_until` -/
  | cleanup (s r c) : s.run = some r → r.cur = some c → c.stage = .cleaning →
    Step w s (.cleanup c.id.seqno) (s.setCur r none)

end Tycho.Strider
