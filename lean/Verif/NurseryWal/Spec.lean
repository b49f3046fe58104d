import Verif.NurseryWal.Model

/-!
What the log is for: a restart finds the nursery of the last batch that RocksDB has.
-/
namespace Tycho.NurseryWal
open Tycho.Table

/-- The entries after a list of commits. -/
def replay : List Delta → Option Nursery
  | ds => ds.foldl (fun o d => o.bind (fun n => applyCommit n d)) (some Nursery.empty)

/-- The same entries. -/
def SameEntries (a b : Nursery) : Prop := Same a.entries b.entries

/-- What callers and the machine guarantee: commits and snapshots can be encoded, ids stay below 2^64, a commit inserts cells
that are not in the nursery (proved of the callers in `CellStore`), a snapshot lists the nursery. -/
def Guard (s : Sys) : Action → Prop
  | .commit d => Fits d ∧ s.hist.length + 1 < 2 ^ 64 ∧ ∀ m p, s.proc = some (m, p) → (applyCommit m.nursery d).isSome
  | .ckBegin snap => Fits ⟨snap, []⟩ ∧ ∀ m p, s.proc = some (m, p) → snap.Perm m.nursery.entries
  | _ => True

/-- An execution: any sequence of actions, with crashes anywhere. -/
inductive Exec (H : List Nat → List Nat) (threshold : Nat) : Sys → Prop
  | init : Exec H threshold Sys.init
  | step {s s' : Sys} (a : Action) : Exec H threshold s → Guard s a → act H threshold s a = some s' → Exec H threshold s'

end Tycho.NurseryWal
