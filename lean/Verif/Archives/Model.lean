/-!
Archives of blocks: core/src/storage/block/blobs/mod.rs, task.rs, writer.rs. Blocks of a masterchain block are added by concurrent calls of
`move_into_archive`; masterchain blocks follow one another (`block_saver.rs:70-80`, the block strider). A step of the model is what is done under one lock or
in one write to the disk. Blocks are numbers, a set of archive ids is a function, a table of events is a function of the archive id.
-/
namespace Tycho.Archives

/-- block-util/src/archive/mod.rs:33 `MAX_MC_BLOCKS_PER_ARCHIVE` -/
def maxMc : Nat := 100

/-- the largest id not above `n`: `items.range(..=n).next_back()` -/
def prevId (items : Nat → Bool) : Nat → Option Nat
  | 0 => if items 0 then some 0 else none
  | n + 1 => if items (n + 1) then some (n + 1) else prevId items n

def add (items : Nat → Bool) (a : Nat) : Nat → Bool := fun x => if x = a then true else items x

def upd {α : Type} (f : Nat → α) (a : Nat) (v : α) : Nat → α := fun x => if x = a then v else f x

/-- mod.rs:930-936 `PreparedArchiveId` -/
structure Prepared where
  id : Nat
  isNew : Bool
  over : Option Nat
  commit : Option Nat
deriving DecidableEq, Repr

/-- mod.rs:885-907, the second part of `prepare_archive_id` -/
def prepareRest (items : Nat → Bool) (over : Option Nat) (prev : Option Nat) (n : Nat) : (Nat → Bool) × Option Nat × Prepared :=
  if prev = none ∨ maxMc ≤ n - prev.getD 0 then
    (add items n, over, ⟨n, !items n, none, if items n then none else prev⟩)
  else (items, over, ⟨prev.getD 0, false, over, none⟩)

/-- mod.rs:856-908 `prepare_archive_id`: new ids, new override and the result -/
def prepare (items : Nat → Bool) (over : Option Nat) (n : Nat) (force : Bool) : (Nat → Bool) × Option Nat × Prepared :=
  let prev := prevId items n
  if force then prepareRest items (some (n + 1)) prev n
  else match over with
    | none => prepareRest items none prev n
    | some x =>
      if n < x then prepareRest items (some x) prev n
      else if n = x then (add items n, some x, ⟨n, !items n, none, if items n then none else prev⟩)
      else prepareRest items none prev n

inductive Ty where
  | block
  | proof
  | diff
deriving DecidableEq, Repr

/-- table `archive_events` -/
structure Events where
  started : Nat → Bool
  over : Nat → Option Nat
  commit : Nat → Bool
  committed : Nat → Bool

structure Disk where
  ev : Events
  /-- `archive_block_ids`: an empty list is no entry -/
  ids : Nat → List Nat
  /-- files of archives (CAS): entries -/
  cas : Nat → Option (List (Ty × Nat))

/-- each id once, as with the hash set of task.rs:78-93 -/
def unique : List Nat → List Nat
  | [] => []
  | x :: l => x :: (unique l).filter (fun y => !decide (y = x))

/-- task.rs:76-141: entries of an archive, by types -/
def entries (ids : List Nat) : List (Ty × Nat) := [Ty.block, Ty.proof, Ty.diff].flatMap (fun t => (unique ids).map (fun x => (t, x)))

/-- task.rs:22-162, writer.rs:48-82: a commit has begun, has read the ids of blocks, has stored the file -/
inductive Phase where
  | begun
  | read (ids : List Nat)
  | stored
deriving DecidableEq, Repr

structure Call where
  blk : Nat
  prep : Prepared
deriving DecidableEq, Repr

/-- mod.rs:664-723 `remove_outdated_archives`, after each of its first two effects -/
inductive Gc where
  | events (t : Nat)
  | cas (t : Nat)
deriving DecidableEq, Repr

structure Mem where
  /-- mod.rs:938-942 `ArchiveIds` -/
  items : Nat → Bool
  over : Option Nat
  /-- calls which have an archive id and have not written yet -/
  calls : List Call
  /-- commits to start, in order -/
  queue : List Nat
  task : Option (Nat × Phase)
  gc : Option Gc
  /-- blocks of the masterchain block whose calls have written since the start of the node -/
  done : List Nat
  /-- history: the block whose call started the archive -/
  fresh : Option Nat
  /-- history: archives below were removed -/
  low : Nat

structure State where
  disk : Disk
  /-- `none`: the node does not run -/
  mem : Option Mem
  /-- the masterchain block being processed: those before it are committed by the strider -/
  n : Nat
  /-- history: the node was stopped after storing a file and before the event of it -/
  gap : Bool
  /-- history: events below were removed -/
  low : Nat

/-! ### Start of the node -/

structure Rec where
  items : Nat → Bool
  over : Option Nat
  queue : List Nat

/-- mod.rs:169-174 -/
def resetOver (o : Option Nat) (a : Nat) : Option Nat :=
  match o with
  | some x => if x < a then none else some x
  | none => none

def Events.any (e : Events) (a : Nat) : Bool := e.started a || (e.over a).isSome || e.commit a || e.committed a

/-- mod.rs:159-218: events of one archive -/
def recStep (d : Disk) (r : Rec) (a : Nat) : Option Rec :=
  if d.ev.any a then
    let items := if d.ev.started a then add r.items a else r.items
    let over := resetOver r.over a
    let over := match d.ev.over a with
      | some y => some y
      | none => over
    let over := if d.ev.commit a || d.ev.committed a then resetOver over a else over
    if d.ev.commit a && !items a then none
    else
      let queue := if d.ev.commit a then r.queue ++ [a] else r.queue
      if d.ev.committed a then
        if queue = [a] ∧ (d.cas a).isSome then some ⟨items, over, []⟩ else none
      else some ⟨items, over, queue⟩
  else some r

def recAll (d : Disk) : Nat → Option Rec
  | 0 => some ⟨fun _ => false, none, []⟩
  | k + 1 => match recAll d k with
    | none => none
    | some r => recStep d r k

/-- mod.rs:139-354 `sync_state_after_init`; ids are below `top` (`2^32`). Commits are done one after another (mod.rs:340-347). -/
def recover (d : Disk) (top low : Nat) : Option Mem :=
  match recAll d top with
  | none => none
  | some r => some ⟨r.items, r.over, [], r.queue, none, none, [], none, low⟩

/-! ### Steps -/

/-- the blocks of the chain: `key n` if the masterchain block `n` is a key block, and all blocks of `n` -/
structure World where
  s : Nat
  key : Nat → Bool
  blocks : Nat → List Nat
  top : Nat

def Mem.prepare (m : Mem) (n : Nat) (force : Bool) (b : Nat) : Mem :=
  let r := Archives.prepare m.items m.over n force
  { m with items := r.1, over := r.2.1, calls := m.calls ++ [⟨b, r.2.2⟩], fresh := if r.2.2.isNew then some b else m.fresh }

/-- mod.rs:536-562: the batch of a call -/
def Disk.write (d : Disk) (c : Call) : Disk :=
  { d with
    ids := upd d.ids c.prep.id (d.ids c.prep.id ++ [c.blk])
    ev := { d.ev with
      started := if c.prep.isNew then add d.ev.started c.prep.id else d.ev.started
      over := match c.prep.over with
        | some x => upd d.ev.over c.prep.id (some x)
        | none => d.ev.over
      commit := match c.prep.commit with
        | some a => add d.ev.commit a
        | none => d.ev.commit } }

/-- mod.rs:567-582 -/
def Mem.wrote (m : Mem) (c : Call) : Mem :=
  { m with calls := m.calls.erase c, done := c.blk :: m.done, queue := m.queue ++ c.prep.commit.toList }

/-- task.rs:27-46 -/
def Mem.spawn (m : Mem) (d : Disk) (a : Nat) (q : List Nat) : Mem :=
  if (d.cas a).isSome then { m with queue := q } else { m with queue := q, task := some (a, .begun) }

/-- writer.rs:61-80 -/
def Disk.finish (d : Disk) (a : Nat) : Disk :=
  { d with ids := upd d.ids a [], ev := { d.ev with committed := add d.ev.committed a } }

/-- mod.rs:667-676: the archive from which archives are kept -/
def gcFrom (items : Nat → Bool) (until_ : Nat) : Option Nat :=
  match until_ with
  | 0 => none
  | u + 1 => prevId items u

def Events.drop (e : Events) (t : Nat) : Events :=
  { started := fun a => if a < t then false else e.started a
    over := fun a => if a < t then none else e.over a
    commit := fun a => if a < t then false else e.commit a
    committed := fun a => if a < t then false else e.committed a }

/-- a commit of the archive is over -/
def Settled (d : Disk) (m : Mem) (a : Nat) : Prop := d.ev.commit a = true ∧ a ∉ m.queue ∧ ∀ p, m.task ≠ some (a, p)

/-- a file was stored and its event was not yet -/
def Mem.half (m : Mem) : Bool :=
  match m.task with
  | some (_, .stored) => true
  | _ => false

inductive Step (w : World) : State → State → Prop where
  /-- mod.rs:87-124 `new`: the node starts -/
  | start {s m} (hm : s.mem = none) (hr : recover s.disk w.top s.low = some m) : Step w s { s with mem := some m }
  /-- mod.rs:524-528 -/
  | prepare {s m b} (hm : s.mem = some m) (hb : b ∈ w.blocks s.n) (hc : ∀ c ∈ m.calls, c.blk ≠ b) (hd : b ∉ m.done) :
      Step w s { s with mem := some (m.prepare s.n (w.key s.n) b) }
  | write {s m c} (hm : s.mem = some m) (hc : c ∈ m.calls) : Step w s { s with mem := some (m.wrote c), disk := s.disk.write c }
  /-- mod.rs:567-582 -/
  | spawn {s m a q} (hm : s.mem = some m) (hq : m.queue = a :: q) (ht : m.task = none) : Step w s { s with mem := some (m.spawn s.disk a q) }
  /-- task.rs:59-68 -/
  | read {s m a} (hm : s.mem = some m) (ht : m.task = some (a, .begun)) (hne : s.disk.ids a ≠ []) :
      Step w s { s with mem := some { m with task := some (a, .read (s.disk.ids a)) } }
  /-- writer.rs:48-56: all parts of the blocks were found -/
  | store {s m a l} (hm : s.mem = some m) (ht : m.task = some (a, .read l)) :
      Step w s { s with mem := some { m with task := some (a, .stored) }, disk := { s.disk with cas := upd s.disk.cas a (some (entries l)) } }
  /-- writer.rs:58-80 -/
  | finish {s m a} (hm : s.mem = some m) (ht : m.task = some (a, .stored)) :
      Step w s { s with mem := some { m with task := none }, disk := s.disk.finish a }
  /-- all calls for the masterchain block have returned, and the strider commits it -/
  | next {s m} (hm : s.mem = some m) (hc : m.calls = []) (hq : m.queue = []) (hd : ∀ b ∈ w.blocks s.n, b ∈ m.done) (hn : s.n + 1 < w.top) :
      Step w s { s with n := s.n + 1, mem := some { m with done := [], fresh := none } }
  /-- mod.rs:664-694. `Settled`: no commit of a removed archive is running or has to be started -/
  | gcMem {s m t} (u : Nat) (hm : s.mem = some m) (hg : m.gc = none) (hf : gcFrom m.items u = some t) (hne : ∃ a < t, m.items a = true)
      (hs : ∀ a < t, m.items a = true → Settled s.disk m a) :
      Step w s { s with mem := some { m with items := fun a => if a < t then false else m.items a, gc := some (.events t), low := t } }
  /-- mod.rs:700-715 -/
  | gcEvents {s m t} (hm : s.mem = some m) (hg : m.gc = some (.events t)) :
      Step w s { s with mem := some { m with gc := some (.cas t) }, disk := { s.disk with ev := s.disk.ev.drop t }, low := t }
  /-- mod.rs:717-718 -/
  | gcCas {s m t} (hm : s.mem = some m) (hg : m.gc = some (.cas t)) :
      Step w s { s with mem := some { m with gc := none }, disk := { s.disk with cas := fun a => if a < t then none else s.disk.cas a } }
  /-- the node is stopped at any moment, or an error stops it -/
  | crash {s m} (hm : s.mem = some m) : Step w s { s with mem := none, gap := s.gap || m.half }

def State.init (w : World) : State :=
  ⟨⟨⟨fun _ => false, fun _ => none, fun _ => false, fun _ => false⟩, fun _ => [], fun _ => none⟩, none, w.s, false, 0⟩

inductive Reach (w : World) : State → Prop where
  | init : Reach w (State.init w)
  | step {s s'} : Reach w s → Step w s s' → Reach w s'

/-! ### Queries -/

inductive ArchiveId where
  | found (id : Nat)
  | tooNew
  | notFound
deriving DecidableEq, Repr

/-- mod.rs:596-613 `get_archive_id` -/
def getArchiveId (items : Nat → Bool) (top n : Nat) : ArchiveId :=
  match prevId items top with
  | none => .tooNew
  | some last =>
    if n < last then
      match prevId items n with
      | some id => if n < id + maxMc then .found id else .notFound
      | none => .notFound
    else .tooNew

/-- mod.rs:828-854 `estimate_archive_id`; `prevKey` is the seqno of the last key block before `n`, 0 if there is none -/
def estimate (prevKey n : Nat) : Nat :=
  if prevKey + 1 < n then n - (n - (prevKey + 1)) % maxMc else n

end Tycho.Archives
