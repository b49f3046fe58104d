import Verif.CellStore.Props
import Mathlib.Algebra.BigOperators.Group.Finset.Piecewise

/-!
Concrete stores: the hypotheses of the theorems are met, and what happens at their borders.
-/
namespace Tycho.CellStore.Examples
open Tycho.Table Tycho.CellStore

/-- Two parents of a shared cell with a child: 0 → 1, 2; 1 → 4, 3; 2 → 4; 4 → 5. -/
def refs : Nat → List Nat
  | 0 => [1, 2]
  | 1 => [4, 3]
  | 2 => [4]
  | 4 => [5]
  | _ => []

def size : Nat → Nat
  | 0 => 16
  | 1 => 8
  | 2 => 5
  | 4 => 3
  | _ => 1

theorem size_ok : ∀ h, ((refs h).map (fun c => size c + 1)).sum < size h
  | 0 => by decide
  | 1 => by decide
  | 2 => by decide
  | 3 => by decide
  | 4 => by decide
  | _ + 5 => by simp [refs, size]

def world : World := { refs, size, size_spec := size_ok, fp := fun h => h % 2 }

def noSplit : Nat → Bool := fun _ => false
def split2 : Nat → Bool := fun h => h == 2
def split4 : Nat → Bool := fun h => h == 4

theorem noSplit_once (root : Nat) : SplitOnce world root noSplit := by
  intro h hs; cases hs

/-- The second child of the root occurs once. -/
theorem split2_once : SplitOnce world 0 split2 := by
  intro h hs L _
  have h2 : h = 2 := by simpa [split2] using hs
  subst h2
  unfold inDeg
  have hle : ∀ c ∈ L, (world.refs c).count 2 ≤ if c = 0 then 1 else 0 := by
    intro c _
    match c with
    | 0 => decide
    | 1 => decide
    | 2 => decide
    | 3 => decide
    | 4 => decide
    | n + 5 => simp [world, refs]
  refine Nat.le_trans (Finset.sum_le_sum hle) ?_
  rw [Finset.sum_ite_eq']
  split <;> omega

/-- The operations of a run: two trees that share cells, a store in which everything is promoted, loads, evictions, a flush, a
restart and a removal. -/
def history : List Op :=
  [.store 0 split4 (fun _ => 1) 5, .write, .store 1 noSplit (fun _ => 0) 6, .write,
   .store 2 noSplit (fun n => n * 7) 200, .load 4, .write, .evict 4, .load 4, .flush, .reopen [(1, 2)],
   .remove 0 split2 (fun n => n + 3), .load 1, .write, .load 3]

def runOps (s : Store) : List Op → Option Store
  | [] => some s
  | op :: ops => (step world s op).bind (fun s' => runOps s' ops)

def rootsAfter (ops : List Op) : Nat → Nat := ops.foldl specStep (fun _ => 0)

/-- Are the side conditions met (all but `SplitOnce`)? -/
def allowedB (s : Store) (roots : Nat → Nat) : Op → Bool
  | .store _ _ _ _ => s.batch.isNone
  | .remove root _ _ => s.batch.isNone && decide (0 < roots root)
  | .load h => match s.batch with
    | some b => !b.deletes.contains h
    | none => true
  | .flush => s.batch.isNone
  | .reopen _ => s.batch.isNone
  | .importTree _ _ _ => s.batch.isNone && s.nursery.isEmpty
  | _ => true

def checkOps (s : Store) (roots : Nat → Nat) : List Op → Bool
  | [] => true
  | op :: ops => allowedB s roots op && match step world s op with
    | some s' => checkOps s' (specStep roots op) ops
    | none => false

def splitOk : Op → Prop
  | .remove root split _ => SplitOnce world root split
  | .importTree root temp _ => ∀ h, Reach world root h → temp h = some (world.refs h)
  | _ => True

theorem allowed_of {s : Store} {roots : Nat → Nat} {op : Op} (h : allowedB s roots op = true) (hs : splitOk op) :
    Allowed world s roots op := by
  cases op with
  | store => simpa [allowedB, Allowed, Option.isNone_iff_eq_none] using h
  | remove root split sched =>
    simp only [allowedB, Bool.and_eq_true, Option.isNone_iff_eq_none, decide_eq_true_eq] at h
    exact ⟨h.1, h.2, hs⟩
  | write => trivial
  | load x =>
    intro b hb hm
    simp [allowedB, hb, hm] at h
  | evict => trivial
  | flush => simpa [allowedB, Allowed, Option.isNone_iff_eq_none] using h
  | reopen _ => simpa [allowedB, Allowed, Option.isNone_iff_eq_none] using h
  | importTree root temp limit =>
    simp only [allowedB, Bool.and_eq_true, Option.isNone_iff_eq_none, List.isEmpty_iff] at h
    exact ⟨h.1, h.2, hs⟩

theorem run_of : ∀ (ops : List Op) (s : Store) (roots : Nat → Nat), Run world s roots → checkOps s roots ops = true →
    (∀ op ∈ ops, splitOk op) → ∃ s', runOps s ops = some s' ∧ Run world s' (ops.foldl specStep roots) := by
  intro ops
  induction ops with
  | nil => intro s roots h _ _; exact ⟨s, rfl, h⟩
  | cons op ops ih =>
    intro s roots h hc hs
    simp only [checkOps, Bool.and_eq_true] at hc
    cases hst : step world s op with
    | none => rw [hst] at hc; cases hc.2
    | some s1 =>
      rw [hst] at hc
      obtain ⟨s', h1, h2⟩ := ih s1 _ (.step op h (allowed_of hc.1 (hs op (by simp))) hst) hc.2
        (fun o ho => hs o (by simp [ho]))
      exact ⟨s', by simp [runOps, hst, h1], h2⟩

/-- The run exists; what is left are the trees of 1 and 2. -/
example : ∃ s, runOps Store.empty history = some s ∧ Run world s (rootsAfter history) ∧
    Sound world s (rootsAfter history) ∧ rootsAfter history 1 = 1 ∧ rootsAfter history 2 = 1 ∧
    rootsAfter history 0 = 0 := by
  obtain ⟨s, h1, h2⟩ := run_of history Store.empty _ .init (by decide +kernel) (by
    intro op ho
    simp only [history, List.mem_cons, List.not_mem_nil, or_false] at ho
    rcases ho with rfl | rfl | rfl | rfl | rfl | rfl | rfl | rfl | rfl | rfl | rfl | rfl | rfl | rfl | rfl
    all_goals first
      | trivial
      | exact split2_once)
  exact ⟨s, h1, h2, run_sound h2, by decide, by decide, by decide⟩

/-- What the counters say in that state: the shared cell 4 has two uses, its child one. -/
example : ((runOps Store.empty history).map (fun s =>
    ([0, 1, 2, 3, 4, 5].map (fun h => (rowIdx s h).map (Counters.get s.counters)), s.counters.liveCells))) =
    some ([none, some 1, some 1, some 1, some 2, some 1], 5) := by decide +kernel

/-- The temporary table with all cells. -/
def temp : Nat → Option (List Nat) := fun h => some (refs h)

/-- A tree is imported beside a stored one with which it shares cells, with batches of two rows; then the first is removed. -/
def history2 : List Op :=
  [.store 1 noSplit (fun _ => 0) 5, .write, .flush, .importTree 0 temp 2, .load 5, .reopen [], .remove 1 noSplit (fun _ => 0), .write]

example : ∃ s, runOps Store.empty history2 = some s ∧ Run world s (rootsAfter history2) ∧
    Sound world s (rootsAfter history2) ∧ rootsAfter history2 0 = 1 ∧ rootsAfter history2 1 = 0 := by
  obtain ⟨s, h1, h2⟩ := run_of history2 Store.empty _ .init (by decide +kernel) (by
    intro op ho
    simp only [history2, List.mem_cons, List.not_mem_nil, or_false] at ho
    rcases ho with rfl | rfl | rfl | rfl | rfl | rfl | rfl | rfl
    all_goals first
      | trivial
      | exact noSplit_once 1
      | exact fun _ _ => rfl)
  exact ⟨s, h1, h2, run_sound h2, by decide, by decide⟩

/-- All six cells are stored, cell 4 has two uses. -/
example : ((runOps Store.empty history2).map (fun s =>
    ([0, 1, 2, 3, 4, 5].map (fun h => (rowIdx s h).map (Counters.get s.counters)), s.counters.liveCells))) =
    some ([some 1, some 1, some 1, some 1, some 2, some 1], 6) := by decide +kernel

/-! ### Borders -/

/-- The store after a crash in the middle of an import (outside of the bootstrap, where a marker makes the next start delete
everything, db_state.rs:103-147): the rows of full batches are there, the snapshot of the counters is the old one. -/
def crashed (s : Store) (root limit n : Nat) : Option Store :=
  (importRun world s temp limit n (importStart s root)).map (fun t => reopen world { s with cells := t.cells } [])

/-- Finding: an interrupted import cannot be repeated. Beside a stored cell 3, the import of 0 stops after the rows of 0, 1 and 4;
it runs again and ends well, but the row of the root is taken as that of a stored tree, so nothing is walked and cells 2 and 5 are
missing. -/
theorem interrupted_import_breaks :
    (((runOps Store.empty [.store 3 noSplit (fun _ => 0) 1, .write, .flush]).bind (fun s => crashed s 0 1 3)).bind
      (fun s => importTree world s 0 temp 1)).map (fun s => ([0, 1, 4, 2, 5].map (fun h => (load s h).1), [0, 1].map (rowIdx s))) =
      some ([some [1, 2], some [4, 3], some [5], none, none], [some 1, some 2]) := by decide +kernel


/-- Finding: a split point that occurs twice in the removed tree. `finalize` adds the delayed removal and drops the references
`add_removes` returns (cell_storage.rs:1022-1030), so cell 4 is deleted and its child 5 stays for ever, with a count, although
nothing is stored any more. -/
theorem delayed_removal_leaks :
    ((runOps Store.empty [.store 0 noSplit (fun _ => 0) 1, .write, .remove 0 split4 (fun _ => 0), .write]).map (fun s =>
      (decide (4 ∈ live s), decide (5 ∈ live s), s.counters.liveCells, (load s 5).1))) =
      some (false, true, 1, some []) := by decide +kernel

/-- The same removal without splitting leaves nothing. -/
example : ((runOps Store.empty [.store 0 noSplit (fun _ => 0) 1, .write, .remove 0 noSplit (fun _ => 0), .write]).map (fun s =>
      (live s, s.counters.liveCells))) = some (∅, 0) := by decide +kernel

/-- Finding: a reader that loads a cell between the return of `remove_cell_mt` and the write of its batch puts the deleted
row back into the cache, where it stays: the cell still loads when it is gone from the database. -/
theorem read_of_deleted_cell_stays :
    ((runOps Store.empty [.store 0 noSplit (fun _ => 0) 1, .write, .flush, .remove 0 noSplit (fun _ => 0), .evict 5,
      .load 5, .write]).map (fun s => (decide (5 ∈ live s), (load s 5).1, get s.cells 5))) =
      some (false, some [], none) := by decide +kernel

/-- Finding: such a stale row can be taken for a stored cell. A tree is stored that contains the cell 5 at depth 4, the
fingerprint of 5 is in the filter because of another cell, and the cache has the stale row: no row is written for 5. -/
def refs' : Nat → List Nat
  | 0 => [1]
  | 1 => [2]
  | 2 => [3]
  | 3 => [5]
  | _ => []

def size' : Nat → Nat
  | 0 => 9
  | 1 => 7
  | 2 => 5
  | 3 => 3
  | _ => 1

theorem size_ok' : ∀ h, ((refs' h).map (fun c => size' c + 1)).sum < size' h
  | 0 => by decide
  | 1 => by decide
  | 2 => by decide
  | 3 => by decide
  | _ + 4 => by simp [refs', size']

def world' : World := { refs := refs', size := size', size_spec := size_ok', fp := fun h => h % 2 }

def runOps' (s : Store) : List Op → Option Store
  | [] => some s
  | op :: ops => (step world' s op).bind (fun s' => runOps' s' ops)

theorem stale_row_is_reused :
    ((runOps' Store.empty [.store 5 noSplit (fun _ => 0) 1, .write, .store 7 noSplit (fun _ => 0) 1, .write, .flush,
      .remove 5 noSplit (fun _ => 0), .load 5, .evict 5, .load 5, .write, .store 0 noSplit (fun _ => 0) 2, .write,
      .evict 5]).map (fun s => ((load s 3).1, (load s 5).1))) = some (some [5], none) := by decide +kernel

/-- Finding: a cell that a store moves from the nursery to its batch cannot be loaded between the return of `store_cell_mt` and
the write, if the cache drops it in between. -/
theorem promoted_cell_disappears_for_a_while :
    ((runOps Store.empty [.store 0 noSplit (fun _ => 0) 1, .write, .store 3 noSplit (fun _ => 0) 101, .evict 5]).map
      (fun s => (decide (5 ∈ live s), (load s 5).1, (load (write s) 5).1))) = some (true, none, some []) := by
  decide +kernel

end Tycho.CellStore.Examples
