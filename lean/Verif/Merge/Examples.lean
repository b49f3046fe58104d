import Verif.Merge.Refcount
import Verif.Merge.StatusApi
import Verif.Merge.JournalPoint

/-! ## Concrete cases -/
namespace Tycho.Merge

/-! ### Reference counts -/

/-- A cell is stored, referenced twice more without data, released down to nothing and stored again. -/
def rcOps : List RcOp := [.add 1 (some [7, 7, 7]), .add 2 none, .sub 3, .add 1 (some [7, 7, 7])]

example : RcHistory [7, 7, 7] 0 rcOps := by simp [rcOps, RcHistory, RcOp.delta]

/-- The second and third operand are merged to a value below zero, in between. -/
example : Regroup (mergeRc none) (rcOps.map RcOp.enc)
    [(RcOp.add 1 (some [7, 7, 7])).enc, encI64 (-1), (RcOp.add 1 (some [7, 7, 7])).enc] :=
  .step (ops := rcOps.map RcOp.enc) (a := [(RcOp.add 1 (some [7, 7, 7])).enc]) (g := [(RcOp.add 2 none).enc, (RcOp.sub 3).enc])
    (b := [(RcOp.add 1 (some [7, 7, 7])).enc]) (.refl _) (by simp) (by decide +kernel)

example : stripRc ((mergeRc none (rcOps.map RcOp.enc)).getD []) = some [7, 7, 7] ∧ rcTotal rcOps = 1 := by decide +kernel
example : mergeRc none ((rcOps.take 3).map RcOp.enc) = some [] := by decide +kernel

/-! ### Statuses -/

def exIds : Ids := ⟨1, 2, 3, 4, 5⟩
example : exIds.Ok := ⟨by decide, by decide, by decide, by decide, by decide, by decide⟩

def exLink (n : Nat) : Link := ⟨9, List.replicate 32 n, List.replicate 32 8, false, List.replicate 32 6⟩

def exFound : Status := .found true
def exValid : Status := .valid true false 3 none
def exCommitted : Status := .valid false false 0 (some (12, 1))
def exTrans (n : Nat) : Status := .transInvalid false true 1 none (exLink n)

theorem exTrans_fits (n : Nat) : (exTrans n).Fits :=
  ⟨by decide, fun p h => (by cases h), ⟨by simp [exLink], by simp [exLink], by simp [exLink], by simp [exLink]⟩⟩

example : exFound.Fits ∧ exValid.Fits ∧ exCommitted.Fits :=
  ⟨trivial, ⟨by decide, fun p h => by cases h⟩, ⟨by decide, fun p h => by cases h; decide⟩⟩

/-- The proof flag comes from one, the validity and anchor flags from another, the commit from a third. -/
example : (mergeStatus ([exFound, exValid, exCommitted].map (Status.enc exIds))).bind (decodeStatus exIds) =
    some (.valid true true 3 (some (12, 1))) := by decide +kernel

/-- Finding: of two causes of a `TransInvalid` the one that remains depends on how the merges are grouped, because it is the greatest of
the whole bytes, with flags merged before that count. -/
theorem cause_depends_on_grouping :
    ∃ ops ops', Regroup mergeStatus ops ops' ∧ (∀ a ∈ ops, readable a = true) ∧ mergeStatus ops ≠ mergeStatus ops' := by
  refine ⟨[(exTrans 1).enc exIds, (Status.proven true).enc exIds, (exTrans 2).enc exIds],
    [((mergeStatus [(exTrans 1).enc exIds, (Status.proven true).enc exIds]).getD []), (exTrans 2).enc exIds], ?_, ?_, ?_⟩
  · exact .step (a := []) (g := [(exTrans 1).enc exIds, (Status.proven true).enc exIds]) (b := [(exTrans 2).enc exIds]) (.refl _)
      (by simp) (by decide +kernel)
  · decide +kernel
  · decide +kernel

/-! ### Journal points -/

def exJ : JIds := ⟨10, 11, 12⟩
theorem exJ_ok : exJ.Ok := ⟨by decide, by decide, by decide, by decide⟩

def jOps : List JOp := [.add 2, .add 1, .sub 2, .sub 1]

example : JHistory 0 jOps := ⟨by decide, by decide, by decide, by decide, by decide, by decide, by decide, by decide, trivial⟩

/-- An increase and a greater decrease are merged to a decrease, without data. -/
example : Regroup (mergeJ exJ) (jOps.map (JOp.enc exJ [5, 5])) [encJ exJ 2 (some [5, 5]), encJ exJ 1 none, encJ exJ 1 none] :=
  .step (ops := jOps.map (JOp.enc exJ [5, 5])) (a := [encJ exJ 2 (some [5, 5])]) (g := [encJ exJ 1 (some [5, 5]), encJ exJ 2 none])
    (b := [encJ exJ 1 none]) (.refl _) (by simp) (by decide +kernel)

example : mergeJ exJ ((jOps.take 3).map (JOp.enc exJ [5, 5])) = some (encJ exJ 1 (some [5, 5])) := by decide +kernel

end Tycho.Merge
