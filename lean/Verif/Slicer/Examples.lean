import Verif.Slicer.History

/-!
# Concrete cases of the slicer
-/

namespace Tycho.Slicer

/-- The constraints of the test in the code, in small numbers: one exact and two of a
lower priority, of which the last has ten times the share but a low maximum. -/
def ex1 : List Constraint := [⟨0, 1, 40, 40⟩, ⟨1, 1, 10, umax⟩, ⟨1, 10, 5, 10⟩]

example : Valid ex1 := by
  refine ⟨?_, by decide, by decide⟩
  simp [ex1, umax]

/-- Not enough for the minimums: `required` is their sum. -/
example : (solve 54 ex1) = some (false, [40, 10, 5]) := by decide +kernel

/-- Enough, and the last gets its maximum first. -/
example : (solve 80 ex1) = some (true, [40, 30, 10]) := by decide +kernel

/-- The rounding of one group goes to the next one. -/
example : solve 8 [⟨0, 1, 0, 5⟩, ⟨0, 2, 0, 100⟩, ⟨1, 1, 0, 9⟩] = some (true, [2, 5, 1]) := by
  decide +kernel

/-- `overflow` names what is missing. -/
example : ∃ s r, overflowingAlloc (new 50) ex1 = some (s, r) ∧ s.available = 0 ∧
    r.result = [40, 10, 5] ∧ r.overflow = some 5 :=
  ⟨⟨50, 0⟩, ⟨[40, 10, 5], 55, some 5⟩, by decide +kernel, rfl, rfl, rfl⟩

example : ∃ x, InRange (.excl 3) (.excl 9) x ∧ x ≤ umax := ⟨5, by simp [InRange], by decide⟩

example : allocInRange (new 100) (.excl 3) (.excl 9) = some (⟨100, 92⟩, some 8) := by
  decide +kernel

example : allocInRange (new 3) (.excl 3) (.excl 9) = some (⟨3, 3⟩, none) := by
  decide +kernel

/-- A range without a number in it may still be "served", with nothing: that is why the
theorem asks for a range that is not empty. -/
example : allocInRange (new 3) .unb (.excl 0) = some (⟨3, 3⟩, some 0) := by
  decide +kernel

/-- A history: two thirds of a slicer are made a slicer of its own, of which 8 are
taken. -/
example : Reach 30 [⟨30, 10⟩, ⟨20, 12⟩] 8 := by
  have h1 : Reach 30 [⟨30, 10⟩, ⟨20, 20⟩] 0 :=
    Reach.call 0 (new 30) ⟨30, 10⟩ (.subRatio 2 3) 0 [new 20] Reach.init trivial rfl
      (by decide +kernel)
  exact Reach.call 1 ⟨20, 20⟩ ⟨20, 12⟩ (.fixed 8) 8 [] h1 trivial rfl (by decide +kernel)

end Tycho.Slicer
