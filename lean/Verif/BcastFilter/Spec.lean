import Verif.BcastFilter.Model
import Mathlib.Data.Finset.Card
import Mathlib.Data.Finset.Dedup
/-! What the broadcast filter is meant to keep and report, from the list of points heard for a round. -/
namespace Tycho.BcastFilter
open Tycho.Table (Table get put del)

/-- The first point of an author. -/
def firstBy (l : List Pt) (a : Nat) : Option Pt := l.find? (fun p => decide (p.author = a))

/-- The first point of an author that is not a copy of the first one. -/
def forkBy (l : List Pt) (a : Nat) : Option Pt := match firstBy l a with
  | none => none
  | some f => l.find? (fun p => decide (p.author = a) && decide (p.digest ≠ f.digest))

/-- How often a point was heard. -/
def times (l : List Pt) (a d : Nat) : Nat := l.countP (fun p => decide (p.author = a) && decide (p.digest = d))

/-- One of the first two points of the author is well-formed. -/
def WellBy (l : List Pt) (a : Nat) : Prop :=
  (∃ p, firstBy l a = some p ∧ p.well = true) ∨ ∃ p, forkBy l a = some p ∧ p.well = true

open Classical in
/-- The authors with a well-formed point among their first two. -/
noncomputable def goodAuthors (l : List Pt) : Finset Nat := (l.map (·.author)).toFinset.filter (WellBy l)

/-- A verified call that is not below the bottom: the round and the point. -/
def Op.heard (keep : Nat) : Op → Option (Nat × Pt)
  | .add h round author digest v _ (some _) =>
    if round < h.bottom then none
    else match v with
      | .ok => some (round, ⟨author, digest, true, !decide (round > h.next + keep)⟩)
      | .illFormed => some (round, ⟨author, digest, false, !decide (round > h.next + keep)⟩)
      | _ => none
  | _ => none

/-- The points heard for a cached round since it was created, after a step. -/
def logStep (c : Conf) (s : St) (L : Nat → List Pt) (o : Op) (r : Nat) : List Pt :=
  match get (step c s o).rounds r with
  | none => []
  | some _ => match o.heard c.keep with
    | some (r', p) => if r' = r then L r ++ [p] else L r
    | none => L r

/-- The points heard for every cached round since it was created. -/
def logAux (c : Conf) : St → (Nat → List Pt) → List Op → (Nat → List Pt)
  | _, L, [] => L
  | s, L, o :: ops => logAux c (step c s o) (logStep c s L o) ops

/-- The points heard for every cached round since it was created. -/
def log (c : Conf) (ops : List Op) : Nat → List Pt := logAux c St.init (fun _ => []) ops

end Tycho.BcastFilter
