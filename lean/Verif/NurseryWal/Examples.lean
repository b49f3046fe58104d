import Verif.NurseryWal.Props

/-! Concrete cases. -/
namespace Tycho.NurseryWal.Examples
open Tycho.NurseryWal Tycho.Table

/-- A stand-in for BLAKE3. -/
def H (l : List Nat) : List Nat := (List.range 32).map (fun i => (l.foldl (fun a b => (a * 31 + b + i) % 251) 7) % 256)

theorem hH : ∀ x, (H x).length = 32 := fun x => by simp [H]

def key (b : Nat) : List Nat := List.replicate 32 b

/-- Two cells. -/
def d1 : Delta := ⟨[(key 1, ⟨5, 1, [10, 11]⟩), (key 2, ⟨6, 1, []⟩)], []⟩
/-- One more cell, one removed. -/
def d2 : Delta := ⟨[(key 3, ⟨7, 2, [42]⟩)], [key 1]⟩
/-- The cell comes back. -/
def d3 : Delta := ⟨[(key 1, ⟨5, 3, [10, 11]⟩)], [key 2, key 3]⟩

instance (d : Delta) : Decidable (Fits d) :=
  decidable_of_iff ((d.inserts.length < 2 ^ 32 ∧ d.removes.length < 2 ^ 32) ∧
    (∀ e ∈ d.inserts, e.1.length = 32 ∧ e.2.idx < 2 ^ 64 ∧ e.2.born < 2 ^ 32 ∧ e.2.data.length < 2 ^ 16) ∧
    (∀ h ∈ d.removes, h.length = 32) ∧ metaLen d.inserts.length d.removes.length + cellBytes d + 8 < 2 ^ 64)
    ⟨fun h => ⟨h.1, h.2.1, h.2.2.1, h.2.2.2⟩, fun h => ⟨h.counts, h.recs, h.hashes, h.total⟩⟩

/-- The guard, decided. -/
def guardB (s : Sys) : Action → Bool
  | .commit d => decide (Fits d) && decide (s.hist.length + 1 < 2 ^ 64) && match s.proc with
    | some (m, _) => (applyCommit m.nursery d).isSome
    | none => true
  | .ckBegin snap => decide (Fits ⟨snap, []⟩) && match s.proc with
    | some (m, _) => decide (snap.Perm m.nursery.entries)
    | none => true
  | _ => true

theorem guardB_sound {s : Sys} {a : Action} (h : guardB s a = true) : Guard s a := by
  cases a with
  | commit d =>
    simp only [guardB, Bool.and_eq_true, decide_eq_true_eq] at h
    refine ⟨h.1.1, h.1.2, ?_⟩
    intro m p hp
    have := h.2
    rw [hp] at this
    exact this
  | ckBegin snap =>
    simp only [guardB, Bool.and_eq_true, decide_eq_true_eq] at h
    refine ⟨h.1, ?_⟩
    intro m p hp
    have := h.2
    rw [hp] at this
    simpa using this
  | _ => trivial

def run (t : Nat) : Sys → List Action → Option Sys
  | s, [] => some s
  | s, a :: l => if guardB s a then (act H t s a).bind (fun s' => run t s' l) else none

theorem run_exec {t : Nat} (l : List Action) {s s' : Sys} (he : Exec H t s) (h : run t s l = some s') : Exec H t s' := by
  induction l generalizing s with
  | nil => cases h; exact he
  | cons a l ih =>
    unfold run at h
    split at h
    · rename_i hg
      cases ha : act H t s a with
      | none => rw [ha] at h; cases h
      | some s1 => rw [ha] at h; exact ih (he.step a (guardB_sound hg) ha) h
    · cases h

def commit (d : Delta) : List Action := [.commit d, .append 1000, .stage, .write]

/-- The second commit is torn after 50 bytes; the restart keeps the first only, and goes on. -/
def torn : List Action := [.openIt] ++ commit d1 ++ [.commit d2, .append 50, .crash, .openIt] ++ commit d2
/-- The record of the second commit is complete, but its batch is not written. -/
def notWritten : List Action := [.openIt] ++ commit d1 ++ [.commit d2, .append 1000, .stage, .crash]
/-- The snapshot after the first two commits, in an order of its own. -/
def snap2 : List Rec := [(key 2, ⟨6, 1, []⟩), (key 3, ⟨7, 2, [42]⟩)]
/-- A checkpoint, then a crash before the log is cut, then another commit and a crash. -/
def checkpointed : List Action :=
  [.openIt] ++ commit d1 ++ commit d2 ++ [.ckBegin snap2, .ckAppend 40, .ckAppend 1000, .ckRename, .ckState, .crash,
    .openIt] ++ commit d3 ++ [.crash]
/-- A crash in the checkpoint file; the next checkpoint writes it again. -/
def halfCheckpoint : List Action :=
  [.openIt] ++ commit d1 ++ commit d2 ++ [.ckBegin snap2, .ckAppend 40, .crash, .openIt, .ckBegin snap2, .ckAppend 1000,
    .ckRename, .crash, .openIt, .ckBegin snap2, .ckAppend 1000, .ckRename, .ckState, .ckReset, .clean 1, .cleanTmp 2, .ckEnd]
    ++ commit d3 ++ [.crash]

/-- The committed ids and the entries that a restart finds. -/
def found (l : List Action) : Option (Nat × List (List Nat)) :=
  (run 0 Sys.init l).bind (fun s => (openNursery H s.disk).map (fun p => (p.2.committed, p.2.nursery.entries.map (·.1))))

example : found (torn.take 8) = some (1, [key 2, key 1]) := by decide +kernel
example : found torn = some (2, [key 3, key 2]) := by decide +kernel
example : found notWritten = some (1, [key 2, key 1]) := by decide +kernel
example : found checkpointed = some (3, [key 1]) := by decide +kernel
example : found halfCheckpoint = some (3, [key 1]) := by decide +kernel

/-- These are executions, so `restart_recovers` applies to them. -/
theorem halfCheckpoint_exec : ∃ s, run 0 Sys.init halfCheckpoint = some s ∧ Exec H 0 s ∧ s.hist = [d1, d2, d3] := by
  have h : (run 0 Sys.init halfCheckpoint).map (fun s => s.hist) = some [d1, d2, d3] := by decide +kernel
  cases hr : run 0 Sys.init halfCheckpoint with
  | none => rw [hr] at h; cases h
  | some s =>
    rw [hr] at h
    exact ⟨s, rfl, run_exec _ .init hr, Option.some.inj h⟩

theorem idle_exec : ∃ s m, Exec H 0 s ∧ s.proc = some (m, .idle) ∧ s.hist = [d1, d2] := by
  have h : (run 0 Sys.init torn).map (fun s => (s.hist, s.proc.map (·.2))) = some ([d1, d2], some .idle) := by decide +kernel
  cases hr : run 0 Sys.init torn with
  | none => rw [hr] at h; cases h
  | some s =>
    rw [hr] at h
    simp only [Option.map_some, Option.some.injEq, Prod.mk.injEq, Option.map_eq_some_iff] at h
    obtain ⟨h1, ⟨m, p⟩, h2, rfl⟩ := h
    exact ⟨s, m, run_exec _ .init hr, h2, h1⟩

/-- Fields have the boundaries of the format. -/
example : Fits d3 ∧ (encRecord H 3 d3).length = 40 + 16 + 48 + 64 := by decide +kernel
example : rdRecord H ((encRecord H 3 d3).take 167) = none ∧ (rdRecord H (encRecord H 3 d3 ++ [1, 2])).isSome := by decide +kernel

end Tycho.NurseryWal.Examples
