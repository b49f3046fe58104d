import Verif.Cert.Props
import Verif.Cert.Word
/-! Concrete histories: the hypotheses of the theorems are met. -/
namespace Tycho.Cert.Examples

/-- Steps of task `k`. -/
def work (k n : Nat) : List Op := (List.replicate n (.task k 0))

/-- 3 includes 2 and witnesses 1; 2 includes 1; 1 includes 0. -/
def deps : List Op :=
  [.setStart 3, .setFinish 3 ⟨[2], [1]⟩, .setStart 2, .setFinish 2 ⟨[1], []⟩, .setStart 1, .setFinish 1 ⟨[0], []⟩]

/-- Dependencies first, then the certification. -/
def before : List Op := deps ++ [.certify 3] ++ work 0 8

/-- Certification first, and the dependencies from the bottom up, in pieces, with the traversals at the end. -/
def after : List Op :=
  [.certify 3, .setStart 1, .setFinish 1 ⟨[0], []⟩, .setStart 3, .setStart 2, .setFinish 2 ⟨[1], []⟩,
    .setFinish 3 ⟨[2], [1]⟩] ++ work 0 8

theorem before_quiet : (run 2 before).Quiet := by unfold St.Quiet; decide +kernel
theorem after_quiet : (run 2 after).Quiet := by unfold St.Quiet; decide +kernel

/-- Two rounds below: 3, 2, 1 are certified, 0 is not; only 3 has a direct proof. -/
example : [0, 1, 2, 3].map (run 2 before).isCertified = [false, true, true, true] ∧
    [0, 1, 2, 3].map (run 2 before).hasProof = [false, false, false, true] ∧
    [0, 1, 2, 3].map (run 2 before).height = [0, 1, 2, 3] := by decide +kernel

example : [0, 1, 2, 3].map (run 2 after).height = [0, 1, 2, 3] := by decide +kernel

theorem before_noDrop : NoDrop before := by intro i; simp [before, deps, work]
theorem after_noDrop : NoDrop after := by intro i; simp [after, work]

/-- The hypotheses of `order_does_not_matter` are met by these two. -/
example (q : Nat) : (run 2 before).height q = (run 2 after).height q :=
  (order_does_not_matter 2 before after before_noDrop after_noDrop before_quiet after_quiet
    (by intro i; simp [before, after, deps, work])
    (by
      intro i
      have : ∀ i, i < 4 → (run 2 before).known i = (run 2 after).known i := by decide +kernel
      by_cases h : i < 4
      · exact this i h
      · have h0 : i ≠ 0 := by omega
        have h1 : i ≠ 1 := by omega
        have h2 : i ≠ 2 := by omega
        have h3 : i ≠ 3 := by omega
        have b : ((run 2 before).nodes i).known = none := by
          simp [before, deps, work, run, step, St.setStart, St.setFinish, St.edit, St.certify, St.spawn, St.stepTask,
            St.init, Node.init, Node.deeper, Word.raise, Deps.refs, St.extend, List.replicate, h0, h1, h2, h3, Node.known]
        have a : ((run 2 after).nodes i).known = none := by
          simp [after, work, run, step, St.setStart, St.setFinish, St.edit, St.certify, St.spawn, St.stepTask,
            St.init, Node.init, Node.deeper, Word.raise, Deps.refs, St.extend, List.replicate, h0, h1, h2, h3, Node.known]
        exact b.trans a.symm) q).1

/-- While the traversal is at work, the certification is not complete yet. -/
example : (run 2 (deps ++ [.certify 3])).isCertified 2 = false := by decide +kernel

/-- A dropped cert in the middle cuts the path that goes over it: 2 is gone, so 0 is not reached. -/
theorem dropped_cuts : (run 3 ([.setStart 3, .setFinish 3 ⟨[2], []⟩, .setStart 2, .setFinish 2 ⟨[1], []⟩, .drop 2,
    .certify 3] ++ work 0 8)).isCertified 1 = false := by decide +kernel

/-- Two traversals at once. -/
example : [0, 1, 2, 3].map (run 2 (deps ++ [.certify 3, .certify 2] ++ work 1 3 ++ work 0 8 ++ work 1 8)).height =
    [1, 2, 3, 3] := by decide +kernel

/-- A point is committed once, after its certification. -/
example : ((run 2 before).commit 1).2 = true ∧ ((run 2 before).commit 0).2 = false ∧
    ((run 2 (before ++ [.commit 1])).commit 1).2 = false := by decide +kernel

/-- Packed words. -/
example : raisePacked 0x6002 5 TOP = some 0xE005 ∧ raisePacked 0x6005 5 TOP = none ∧ raisePacked 0xF005 4 0 = none := by
  decide +kernel

end Tycho.Cert.Examples
