import Verif.CellStore.Model
import Mathlib.Algebra.BigOperators.Group.Finset.Basic

/-!
What the cell store is for: it holds the cells of the trees that were stored and not removed since, once each, with their
reference counts.
-/
namespace Tycho.CellStore
open Tycho.Table

/-- `h` is in the tree of `r`. -/
inductive Reach (w : World) : Nat → Nat → Prop
  | refl (r : Nat) : Reach w r r
  | step {r c h : Nat} : Reach w r c → h ∈ w.refs c → Reach w r h

/-- The keys of a table. -/
def keys {ν : Type} (t : Table Nat ν) : Finset Nat := (t.map (·.1)).toFinset

/-- The database as it will be when the current batch is written. -/
def durable (s : Store) : Table Nat Row := match s.batch with
  | none => s.cells
  | some b => applyBatch s.cells b

/-- The stored cells: rows of the nursery and of the database. -/
def live (s : Store) : Finset Nat := keys s.nursery ∪ keys (durable s)

/-- The number of the row of a stored cell. -/
def rowIdx (s : Store) (h : Nat) : Option Nat := match get s.nursery h with
  | some e => some e.idx
  | none => (get (durable s) h).map (·.idx)

/-- How often cells of `L` refer to `x`. -/
def inDeg (w : World) (L : Finset Nat) (x : Nat) : Nat := ∑ h ∈ L, (w.refs h).count x

/-- What must be true of a store after the trees `roots` (with multiplicity) were stored and not removed:
the stored cells are exactly the cells of these trees; the count of a cell is the number of its uses, as a root and from stored
cells; the total of the counters is the number of stored cells; when no batch is on its way, loading gives exactly the stored
cells, with their references; and while a batch is on its way loading gives every stored cell, except one that the batch
is about to write and that the cache dropped. -/
structure Sound (w : World) (s : Store) (roots : Nat → Nat) : Prop where
  liveIff : ∀ h, h ∈ live s ↔ ∃ r, 0 < roots r ∧ Reach w r h
  count : ∀ h ∈ live s, ∃ i, rowIdx s h = some i ∧ Counters.get s.counters i = roots h + inDeg w (live s) h
  total : s.counters.liveCells = (live s).card
  loads : s.batch = none → ∀ h, (load s h).1 = if h ∈ live s then some (w.refs h) else none
  loadsLive : ∀ h ∈ live s, (∀ b, s.batch = some b → h ∈ b.puts.map (·.1) → (get s.cache h).isSome) →
    (load s h).1 = some (w.refs h)

/-- Operations on the store. -/
inductive Op
  | store (root : Nat) (split : Nat → Bool) (sched : Nat → Nat) (round : Nat)
  | remove (root : Nat) (split : Nat → Bool) (sched : Nat → Nat)
  | write
  | load (h : Nat)
  | evict (h : Nat)
  | flush
  | reopen (stale : List (Nat × Nat))
  | importTree (root : Nat) (temp : Nat → Option (List Nat)) (limit : Nat)

/-- The store after an operation; `none` is an error or a panic. -/
def step (w : World) (s : Store) : Op → Option Store
  | .store root split sched round => store w s root split sched round
  | .remove root split sched => remove w s root split sched
  | .write => some (write s)
  | .load h => some (load s h).2
  | .evict h => some (evict s h)
  | .flush => some (flush w s)
  | .reopen stale => some (reopen w s stale)
  | .importTree root temp limit => importTree w s root temp limit

/-- The stored trees after an operation. -/
def specStep (roots : Nat → Nat) : Op → Nat → Nat
  | .store root _ _ _ => fun h => if h = root then roots h + 1 else roots h
  | .remove root _ _ => fun h => if h = root then roots h - 1 else roots h
  | .importTree root _ _ => fun h => if h = root then roots h + 1 else roots h
  | _ => roots

/-- Each subtree in `split` is referred to at most once from the tree of `root`. -/
def SplitOnce (w : World) (root : Nat) (split : Nat → Bool) : Prop :=
  ∀ h, split h = true → ∀ L : Finset Nat, (∀ c ∈ L, Reach w root c) → inDeg w L h ≤ 1

/-- How the callers use the store: one operation at a time (the GC lock is held until the batch is written), only stored trees
are removed, splitting at subtrees that occur once; a tree is
imported when the nursery was flushed and its cells are in the temporary table; while a batch is on its way, readers do not read cells it deletes. -/
def Allowed (w : World) (s : Store) (roots : Nat → Nat) : Op → Prop
  | .store _ _ _ _ => s.batch = none
  | .remove root split _ => s.batch = none ∧ 0 < roots root ∧ SplitOnce w root split
  | .write => True
  | .load h => ∀ b, s.batch = some b → h ∉ b.deletes
  | .evict _ => True
  | .flush => s.batch = none
  | .reopen _ => s.batch = none
  | .importTree root temp _ => s.batch = none ∧ s.nursery = [] ∧ ∀ h, Reach w root h → temp h = some (w.refs h)

/-- A run of allowed operations. -/
inductive Run (w : World) : Store → (Nat → Nat) → Prop
  | init : Run w Store.empty (fun _ => 0)
  | step {s s' : Store} {roots : Nat → Nat} (op : Op) : Run w s roots → Allowed w s roots op → step w s op = some s' →
      Run w s' (specStep roots op)

end Tycho.CellStore
