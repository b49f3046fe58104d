import Mathlib.Data.List.Basic

/-!
Protection of the blocks a persistent state needs, while it is saved in the background:
core/src/block_strider/state_applier.rs (`begin_persistent_state_store`, `prepare_persistent_queue_diffs_for_shard`,
`save_persistent_states`, `resume_pending_persistent_states`), the flags of core/src/storage/block_handle/{mod,meta}.rs, and the
garbage collection as an environment. The same code protects states (`SKIP_STATES_GC`); `deps m` are the items of the save of
masterchain block `m`. Flags and the pending id are on the disk; a stop keeps them.
-/
namespace Tycho.BlocksGc

/-- The task in memory. -/
inductive Phase where
  | idle
  /-- state_applier.rs:290-386 `begin_persistent_state_store` -/
  | flagging (m : Nat) (todo : List Nat)
  | saving (m : Nat)
  /-- state_applier.rs:413-419 -/
  | finishing (m : Nat) (todo : List Nat)
  | stopped
deriving DecidableEq

structure Save where
  skip : Nat → Bool
  fin : Nat → Bool
  /-- the item is stored -/
  live : Nat → Bool
  /-- the item may be removed unless it is flagged -/
  outdated : Nat → Bool
  pending : Option Nat
  phase : Phase
  /-- ghost: saves that released their items -/
  completed : List Nat

def set (f : Nat → Bool) (b : Nat) (v : Bool) : Nat → Bool := fun x => if x = b then v else f x

inductive SaveStep (deps : Nat → List Nat) : Save → Save → Prop
  /-- state_applier.rs:200-216, 348: a new persistent state. The items are those of the newest masterchain block, so they are
  stored, and not outdated (C76). -/
  | begin (s m) : s.phase = .idle → (∀ b ∈ deps m, s.live b = true ∧ s.outdated b = false) →
    SaveStep deps s { s with pending := some m, phase := .flagging m (deps m) }
  /-- state_applier.rs:311-330, 367-376 -/
  | flag (s m b todo) : s.phase = .flagging m (b :: todo) → s.live b = true →
    SaveStep deps s { s with skip := set s.skip b true, phase := .flagging m todo }
  /-- state_applier.rs:323-325 the handle is not found: an error, the node stops -/
  | missing (s m b todo) : s.phase = .flagging m (b :: todo) → s.live b = false → SaveStep deps s { s with phase := .stopped }
  | save (s m) : s.phase = .flagging m [] → SaveStep deps s { s with phase := .saving m }
  | saved (s m) : s.phase = .saving m → SaveStep deps s { s with phase := .finishing m (deps m), completed := m :: s.completed }
  | finish (s m b todo) : s.phase = .finishing m (b :: todo) →
    SaveStep deps s { s with fin := set s.fin b true, phase := .finishing m todo }
  /-- state_applier.rs:421 `reset_pending_persistent_state_id` -/
  | done (s m) : s.phase = .finishing m [] → SaveStep deps s { s with pending := none, phase := .idle }
  /-- Newer blocks are handled: items become outdated. `handle_block` awaits `begin_persistent_state_store`, and `prepare_block`
  awaits the resumed one, so not while flags are being set. -/
  | advance (s out) : (∀ m todo, s.phase ≠ .flagging m todo) → s.phase ≠ .stopped → (∀ b, s.outdated b = true → out b = true) →
    SaveStep deps s { s with outdated := out }
  /-- garbage collection (util.rs:140-146, meta.rs:164-170) -/
  | gc (s b) : s.outdated b = true → (s.skip b && !s.fin b) = false → SaveStep deps s { s with live := set s.live b false }
  | stop (s) : SaveStep deps s { s with phase := .stopped }
  /-- state_applier.rs:223-248 -/
  | restart (s) : s.phase = .stopped →
    SaveStep deps s { s with phase := match s.pending with | some m => .flagging m (deps m) | none => .idle }

def Save.start : Save := ⟨fun _ => false, fun _ => false, fun _ => true, fun _ => false, none, .idle, []⟩

inductive SaveExec (deps : Nat → List Nat) : Save → Prop
  | init : SaveExec deps .start
  | step (s s') : SaveExec deps s → SaveStep deps s s' → SaveExec deps s'

end Tycho.BlocksGc
