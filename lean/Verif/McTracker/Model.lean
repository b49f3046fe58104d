import Verif.Common.Table

/-!
`MinRefMcStateTracker`: block-util/src/state/min_ref_mc_state.rs. Handles are created and dropped by many threads at once. The lock is
taken for reading first and then, separately, for writing; a step below is what happens under one acquisition of the lock. Counters do not
overflow.
-/
namespace Tycho.McTracker
open Tycho.Table

structure St where
  /-- `StateIds::min_seqno` -/
  min : Option Nat
  /-- `StateIds::refs` -/
  refs : Table Nat Nat
  /-- handles that exist: `insert` returned them, or has counted them, and their drop has not begun -/
  handles : List Nat
  /-- threads in `insert` between the locks -/
  inserting : List Nat
  /-- threads in `remove` between the locks -/
  removing : List Nat

def St.init : St := ⟨none, [], [], [], []⟩

/-- min_ref_mc_state.rs:27-29 -/
def St.seqno (s : St) : Option Nat := s.min

/-- min_ref_mc_state.rs:31-40 `insert`: the seqno that is tracked -/
def trackedSeqno (seqno minRef : Nat) : Option Nat := if seqno = 0 ∨ minRef = 4294967295 then none else some minRef

/-- min_ref_mc_state.rs:96-106 the first lock of `insert` -/
def St.insertRead (s : St) (m : Nat) : St :=
  match get s.refs m with
  | some c => { s with refs := put s.refs m (c + 1), handles := m :: s.handles }
  | none => { s with inserting := m :: s.inserting }

/-- min_ref_mc_state.rs:114-118 -/
def lower (min : Option Nat) (m : Nat) : Option Nat :=
  match min with
  | some x => if m < x then some m else some x
  | none => some m

/-- min_ref_mc_state.rs:108-133 the second lock of `insert` -/
def St.insertWrite (s : St) (m : Nat) : St :=
  match get s.refs m with
  | none => { s with refs := put s.refs m 1, min := lower s.min m, handles := m :: s.handles, inserting := s.inserting.erase m }
  | some c => { s with refs := put s.refs m (c + 1), handles := m :: s.handles, inserting := s.inserting.erase m }

/-- min_ref_mc_state.rs:136-145 the first lock of `remove` -/
def St.removeRead (s : St) (m : Nat) : St :=
  match get s.refs m with
  | none => { s with handles := s.handles.erase m }
  | some c =>
    let s := { s with refs := put s.refs m (c - 1), handles := s.handles.erase m }
    if 1 < c then s else { s with removing := m :: s.removing }

/-- min_ref_mc_state.rs:147-163 the second lock of `remove` -/
def St.removeWrite (s : St) (m : Nat) : St :=
  match get s.refs m with
  | some 0 =>
    let refs := del s.refs (fun k => decide (k = m))
    { s with refs := refs, removing := s.removing.erase m
             min := if s.min = some m then (refs.map (·.1)).min? else s.min }
  | _ => { s with removing := s.removing.erase m }

inductive Step : St → St → Prop
  | insertRead (s m) : Step s (s.insertRead m)
  | insertWrite (s m) : m ∈ s.inserting → Step s (s.insertWrite m)
  | removeRead (s m) : m ∈ s.handles → Step s (s.removeRead m)
  | removeWrite (s m) : m ∈ s.removing → Step s (s.removeWrite m)

inductive Run : St → Prop
  | init : Run .init
  | step (s s') : Run s → Step s s' → Run s'

/-- min_ref_mc_state.rs:61-75 `min_safe`: the seqno of the handle it returns -/
def minSafe (a b : Option Nat) : Option Nat :=
  match a, b with
  | a, none => a
  | none, some y => some y
  | some x, some y => if y < x then some y else some x

end Tycho.McTracker
