import Mathlib.Tactic.Basic
import Mathlib.Tactic.ByContra

/-!
# When a node makes persistent states

Model of the part of `core/src/block_strider/state_applier.rs` which decides, at each key block,
whether a persistent state (a full snapshot other nodes boot from) has to be made, makes it in a
background task and finishes interrupted ones after a restart, together with what it leaves on
disk. Only the key blocks are followed: a block which is not a key block changes nothing here
(state_applier.rs:177), apart from noticing a failed task earlier. The key blocks are numbered
from `0` (the zerostate) in the order of the chain, `u k` is the generation time of number `k`.
-/

namespace Tycho.PersistentSave

/-- `utime >> 17` (block-util/src/block/block_stuff.rs:28-36, `BlockStuff::compute_is_persistent`
without the test-only environment variable). -/
def bucket (t : Nat) : Nat := t >>> 17

/-- block-util/src/block/block_stuff.rs:28-36. -/
def computeIsPersistent (blockUtime prevUtime : Nat) : Bool := bucket blockUtime != bucket prevUtime

/-- What survives a crash. -/
structure Disk where
  /-- number of key blocks in the `key_blocks` table (`0 … saved - 1`): filled by
  `BlockSaver::save_block` (core/src/block_strider/block_saver.rs:74-93) through
  `store_block_data` and `store_handle`, and by the cold boot -/
  saved : Nat
  /-- number of key blocks committed by the strider (core/src/block_strider/mod.rs:266-270):
  the next one to process is number `committed` -/
  committed : Nat
  /-- `pending_persistent_state` (core/src/storage/node_state/mod.rs:174-188) -/
  pending : Option Nat
  /-- key blocks whose persistent state is completely stored
  (state_applier.rs:402-417) -/
  stored : List Nat
  /-- history: key blocks for which the making of a persistent state was ever begun -/
  begun : List Nat
deriving DecidableEq, Repr

/-- Where `handle_block` of the key block number `committed` is. -/
inductive Phase where
  /-- not entered: waiting for the next key block -/
  | idle
  /-- `save_block` has returned (state_applier.rs:88) -/
  | saved
  /-- the time of the last key block is swapped and the block found persistent
  (state_applier.rs:180-187), the previous task is not joined yet -/
  | waiting
  /-- the previous task is joined (state_applier.rs:188-190) -/
  | joined
  /-- `begin_persistent_state_store` has returned (state_applier.rs:194) -/
  | begun
  /-- `try_save_persistent_states` has returned (state_applier.rs:206) -/
  | done
deriving DecidableEq, Repr

/-- The state of a background task (state_applier.rs:387-432). -/
inductive TaskSt where
  /-- the files are being written (lines 395-415) -/
  | run
  /-- the files are complete, `reset_pending_persistent_state_id` (line 430) is not yet done -/
  | stored
  /-- returned `Ok` -/
  | ok
  /-- returned an error -/
  | bad
deriving DecidableEq, Repr

/-- The process: `Inner` (state_applier.rs:283-293), the progress of the current block and the
disk. -/
structure St where
  /-- the disk -/
  disk : Disk
  /-- `last_key_block_utime` -/
  last : Nat
  /-- whether `resume_pending_persistent_states` has run -/
  resumed : Bool
  /-- progress of the current key block -/
  phase : Phase
  /-- `prev_state_task`, `none` also when its handle was taken by `join` (lines 541-577) -/
  slot : Option (Nat × TaskSt)
  /-- tasks still running whose handle was dropped: nobody waits for them -/
  orphans : List Nat
  /-- history: key blocks for which this process decided to make a persistent state -/
  started : List Nat
deriving DecidableEq, Repr

/-- `find_last_key_block_utime` (state_applier.rs:58-63, storage/block_handle/mod.rs:260-267):
the time of the last key block on disk, `0` without one. -/
def lastSeen (u : Nat → Nat) (d : Disk) : Nat := if d.saved = 0 then 0 else u (d.saved - 1)

/-- `ShardStateApplier::new_ext` with `store_persistent_states` (state_applier.rs:35-56). -/
def fresh (u : Nat → Nat) (d : Disk) : St :=
  { disk := d, last := lastSeen u d, resumed := false, phase := .idle, slot := none,
    orphans := [], started := [] }

/-- The handle of a running task is lost when its slot is overwritten. -/
def dropped : Option (Nat × TaskSt) → List Nat
  | some (k, .run) => [k]
  | some (k, .stored) => [k]
  | _ => []

/-- `begin_persistent_state_store` (state_applier.rs:339-385): remember the block on disk. The
flags which keep the blocks and states from the collectors are in memory only and not modelled. -/
def beginStore (d : Disk) (k : Nat) : Disk :=
  { d with pending := some k, begun := k :: d.begun }

/-- First `prepare_block` of the process: `resume_pending_persistent_states`
(state_applier.rs:72-81, 210-234). -/
def resume (s : St) : St :=
  match s.disk.pending with
  | none => { s with resumed := true }
  | some k => { s with resumed := true, disk := beginStore s.disk k, slot := some (k, .run) }

/-- The rest of `prepare_block` for the key block number `committed`: `save_block`
(state_applier.rs:88; block_saver.rs:19-41). -/
def save (s : St) : St :=
  { s with disk := { s.disk with saved := max s.disk.saved (s.disk.committed + 1) }, phase := .saved }

/-- `try_save_persistent_states` up to the decision (state_applier.rs:164-187); a finished task is
joined. -/
def swap (u : Nat → Nat) (s : St) : St :=
  let slot := match s.slot with
    | some (_, .ok) => none
    | t => t
  if computeIsPersistent (u s.disk.committed) s.last then
    { s with slot := slot, last := u s.disk.committed, phase := .waiting,
             started := s.disk.committed :: s.started }
  else
    { s with slot := slot, last := u s.disk.committed, phase := .done }

/-- The previous task has ended well or there is none (state_applier.rs:188-191). -/
def join (s : St) : St := { s with slot := none, phase := .joined }

/-- state_applier.rs:193-195. -/
def start (s : St) : St := { s with disk := beginStore s.disk s.disk.committed, phase := .begun }

/-- `*prev_task = Some(..spawn..)` (state_applier.rs:197-202). -/
def spawn (s : St) : St :=
  { s with orphans := s.orphans ++ dropped s.slot, slot := some (s.disk.committed, .run), phase := .done }

/-- The strider commits the block (core/src/block_strider/mod.rs:266-270). -/
def commit (s : St) : St :=
  { s with disk := { s.disk with committed := s.disk.committed + 1 }, phase := .idle }

/-- The task has written and rotated its files (state_applier.rs:395-418). -/
def taskStore (s : St) (k : Nat) : St :=
  { s with disk := { s.disk with stored := k :: s.disk.stored }, slot := some (k, .stored) }

/-- `reset_pending_persistent_state_id` (state_applier.rs:430-431). -/
def taskReset (s : St) (k : Nat) : St :=
  { s with disk := { s.disk with pending := none }, slot := some (k, .ok) }

/-- Whether the slot can be joined without waiting and without an error. -/
def joinable : Option (Nat × TaskSt) → Prop
  | none => True
  | some (_, t) => t = .ok

instance (o) : Decidable (joinable o) := by cases o <;> unfold joinable <;> infer_instance

/-- One step of the process. A step which returns an error stops the node and is a crash. -/
inductive Step (u : Nat → Nat) : St → St → Prop
  /-- first block of the process -/
  | resume (s) : s.resumed = false → s.slot = none → Step u s (resume s)
  /-- the next key block is saved -/
  | save (s) : s.resumed = true → s.phase = .idle → Step u s (save s)
  /-- decision; a failed task would have stopped the node here -/
  | swap (s) : s.phase = .saved → (∀ k, s.slot ≠ some (k, .bad)) → Step u s (swap u s)
  /-- the previous task is over -/
  | join (s) : s.phase = .waiting → joinable s.slot → Step u s (join s)
  /-- the block is remembered on disk -/
  | start (s) : s.phase = .joined → Step u s (start s)
  /-- the task is spawned -/
  | spawn (s) : s.phase = .begun → Step u s (spawn s)
  /-- the block is committed -/
  | commit (s) : s.phase = .done → Step u s (commit s)
  /-- the task completes its files -/
  | taskStore (s k) : s.slot = some (k, .run) → Step u s (taskStore s k)
  /-- the task forgets the pending block -/
  | taskReset (s k) : s.slot = some (k, .stored) → Step u s (taskReset s k)
  /-- the task fails -/
  | taskFail (s k) : s.slot = some (k, .run) → Step u s { s with slot := some (k, .bad) }
  /-- an orphaned task completes its files and forgets whatever block is pending -/
  | orphan (s k) : k ∈ s.orphans →
      Step u s { s with disk := { s.disk with stored := k :: s.disk.stored, pending := none },
                        orphans := s.orphans.erase k }

/-- A run of one process, without a crash. -/
inductive Run (u : Nat → Nat) : St → St → Prop
  /-- nothing happened -/
  | refl (s) : Run u s s
  /-- one more step -/
  | step {s t v} : Run u s t → Step u t v → Run u s v

/-- Everything that can happen from the disk `d`: steps, and crashes with restarts in the states
where `ok` allows them. -/
inductive Reach (u : Nat → Nat) (ok : St → Prop) (d : Disk) : St → Prop
  /-- first start -/
  | init : Reach u ok d (fresh u d)
  /-- one step -/
  | step {s t} : Reach u ok d s → Step u s t → Reach u ok d t
  /-- crash and restart -/
  | crash {s} : Reach u ok d s → ok s → Reach u ok d (fresh u s.disk)

end Tycho.PersistentSave
