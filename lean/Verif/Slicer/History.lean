import Verif.Slicer.Props

/-!
# The allocations of a slicer, and of a tree of slicers (C184, C185)
-/

namespace Tycho.Slicer

/-- An amount is in a range. -/
def InRange (lo hi : Bnd) (x : Nat) : Prop :=
  (match lo with | .incl b => b ≤ x | .excl b => b < x | .unb => True) ∧
  (match hi with | .incl b => x ≤ b | .excl b => x < b | .unb => True)

/-- The bounds of a range are `u64`. -/
def BndOk : Bnd → Prop
  | .incl b => b ≤ umax
  | .excl b => b ≤ umax
  | .unb => True

theorem fits_min_le {cs : List Constraint} {out : List Nat} (h : Fits cs out) :
    (cs.map (·.min)).sum ≤ out.sum := by
  unfold Fits at h
  induction h with
  | nil => simp
  | cons h _ ih => simp only [List.map_cons, List.sum_cons]; omega

/-- **C184.** `alloc_constraints`: it gives sizes if and only if the minimums fit, and
takes their sum; else it names the sum of the minimums and takes nothing. -/
theorem allocConstraints_spec {cs : List Constraint} (hv : Valid cs) {s : Slicer}
    (hs : s.available ≤ umax) :
    ((cs.map (·.min)).sum ≤ s.available →
      ∃ s' out, allocConstraints s cs = some (s', .ok out) ∧ Fits cs out ∧ ByRatio cs out ∧
        s'.available + out.sum = s.available ∧ s'.total = s.total ∧
        (s.available < 2 ^ 48 → ByPriority s.available cs out)) ∧
    (s.available < (cs.map (·.min)).sum →
      allocConstraints s cs = some (s, .err (cs.map (·.min)).sum)) := by
  obtain ⟨out, h1, h2, h3⟩ := solve_spec hv hs
  constructor
  · intro h
    have ⟨a, d, b, c⟩ := h2 h
    refine ⟨{ s with available := s.available - out.sum }, out, ?_, a, d, ?_, rfl, c⟩
    · simp [allocConstraints, h1, sumU, show out.sum ≤ umax by omega, h, b]
    · simp only; omega
  · intro h
    have e := h3 h
    subst e
    simp [allocConstraints, h1, sumU, hv.mins, show ¬ (cs.map (·.min)).sum ≤ s.available by omega]

/-- **C184.** `overflowing_alloc_constraints`: as `alloc_constraints` if the minimums
fit; else it gives the minimums, takes all there is and names the lack. -/
theorem overflowingAlloc_spec {cs : List Constraint} (hv : Valid cs) {s : Slicer}
    (hs : s.available ≤ umax) :
    ((cs.map (·.min)).sum ≤ s.available →
      ∃ s' out, overflowingAlloc s cs = some (s', ⟨out, out.sum, none⟩) ∧ Fits cs out ∧ ByRatio cs out ∧
        s'.available + out.sum = s.available ∧ s'.total = s.total ∧
        (s.available < 2 ^ 48 → ByPriority s.available cs out)) ∧
    (s.available < (cs.map (·.min)).sum →
      overflowingAlloc s cs = some ({ s with available := 0 },
        ⟨cs.map (·.min), (cs.map (·.min)).sum,
          some ((cs.map (·.min)).sum - s.available)⟩)) := by
  obtain ⟨out, h1, h2, h3⟩ := solve_spec hv hs
  constructor
  · intro h
    have ⟨a, d, b, c⟩ := h2 h
    have hm : min out.sum s.available = out.sum := Nat.min_eq_left b
    refine ⟨{ s with available := s.available - out.sum }, out, ?_, a, d, ?_, rfl, c⟩
    · simp [overflowingAlloc, h1, sumU, show out.sum ≤ umax by omega, hm, subU_some b]
    · simp only; omega
  · intro h
    have e := h3 h
    subst e
    have hm : min (cs.map (·.min)).sum s.available = s.available := Nat.min_eq_right (by omega)
    simp [overflowingAlloc, h1, sumU, hv.mins, hm, subU, h]

/-- **C185.** `alloc_in_range`: the greatest amount of the range that is available is
taken, and none is given only when no amount of the range is available. A range that
holds no number at all is left out. -/
theorem allocInRange_spec {s : Slicer} {lo hi : Bnd} (hs : s.available ≤ umax)
    (hl : BndOk lo) (hh : BndOk hi) (hne : ∃ x, InRange lo hi x ∧ x ≤ umax) :
    (∃ s' x, allocInRange s lo hi = some (s', some x) ∧ InRange lo hi x ∧
      s'.available + x = s.available ∧ s'.total = s.total ∧
      ∀ y, InRange lo hi y → y ≤ s.available → y ≤ x) ∨
    (allocInRange s lo hi = some (s, none) ∧
      ∀ y, InRange lo hi y → s.available < y) := by
  obtain ⟨w, hw, hw'⟩ := hne
  have hin : ∀ y, y ≤ umax → (InRange lo hi y ↔ lowOf lo ≤ y ∧ y ≤ highOf hi) := by
    intro y hy
    unfold InRange lowOf highOf satAdd
    unfold InRange at hw
    cases lo <;> cases hi <;> simp only [BndOk, true_and, and_true, Nat.zero_le, hy] at * <;>
      omega
  have hww := (hin w hw').1 hw
  by_cases hc : min (highOf hi) s.available < lowOf lo
  · right
    refine ⟨by simp [allocInRange, hc], ?_⟩
    intro y hy
    by_contra hle
    have := (hin y (by omega)).1 hy
    omega
  · left
    refine ⟨{ s with available := s.available - min (highOf hi) s.available },
      min (highOf hi) s.available, ?_, ?_, ?_, rfl, ?_⟩
    · simp [allocInRange, hc, subU_some (Nat.min_le_right _ _)]
    · rw [hin _ (by omega)]; omega
    · simp only; omega
    · intro y hy hle
      have := (hin y (by omega)).1 hy
      omega

/-- **C185.** `alloc_ratio`: a share of what is available, never more than it. -/
theorem allocRatio_spec (s : Slicer) (nom denom : Nat) :
    ∃ s' r, allocRatio s nom denom = some (s', r) ∧ s'.total = s.total ∧
      s'.available + r.getD 0 = s.available ∧ r ≠ some 0 ∧
      (s.available * nom ≤ umax → 0 < denom → nom ≤ denom →
        r.getD 0 = s.available * nom / denom) := by
  unfold allocRatio
  by_cases h : denom < nom ∨ denom = 0
  · exact ⟨s, none, by simp [h], rfl, by simp, by simp, by omega⟩
  · have hx : satMul s.available nom / denom ≤ s.available := by
      have h1 : satMul s.available nom ≤ s.available * denom :=
        le_trans (Nat.min_le_left _ _) (Nat.mul_le_mul_left _ (by omega))
      exact Nat.div_le_of_le_mul (by rw [Nat.mul_comm]; exact h1)
    rw [if_neg h]
    simp only [subU_some hx, Option.map_some]
    refine ⟨_, _, rfl, rfl, ?_, ?_, ?_⟩
    · split
      · simp only [Option.getD_some]; omega
      · simp only [Option.getD_none]; omega
    · split
      · next h0 => simp only [ne_eq, Option.some.injEq]; exact h0
      · simp
    · intro hu _ _
      have e : satMul s.available nom = s.available * nom := Nat.min_eq_left hu
      rw [e]
      split
      · simp
      · simp only [Option.getD_none]; omega

/-- The calls of a slicer that take memory. -/
inductive Op where
  | fixed (bytes : Nat)
  | ratio (nom denom : Nat)
  | inRange (lo hi : Bnd)
  | constraints (cs : List Constraint)
  | overflowing (cs : List Constraint)
  | sub (bytes : Nat)
  | subRatio (nom denom : Nat)
  | subInRange (lo hi : Bnd)

/-- The arguments are within `u64`, as the constructors make them. -/
def Op.Ok : Op → Prop
  | .inRange lo hi => BndOk lo ∧ BndOk hi
  | .subInRange lo hi => BndOk lo ∧ BndOk hi
  | .constraints cs => Valid cs
  | .overflowing cs => Valid cs
  | _ => True

/-- A call: the slicer after it, the amount given to the caller and the slicers made.
What a caller of `overflowing_alloc_constraints` is given is the total less the
overflow it is told of. `none` is a panic. -/
def call (s : Slicer) : Op → Option (Slicer × Nat × List Slicer)
  | .fixed b => match allocFixed s b with
    | (s', true) => some (s', b, [])
    | (s', false) => some (s', 0, [])
  | .ratio n d => (allocRatio s n d).map fun (s', r) => (s', r.getD 0, [])
  | .inRange lo hi => (allocInRange s lo hi).map fun (s', r) => (s', r.getD 0, [])
  | .constraints cs => (allocConstraints s cs).map fun (s', r) =>
      (s', (match r with | .ok l => l.sum | .err _ => 0), [])
  | .overflowing cs => (overflowingAlloc s cs).map fun (s', r) =>
      (s', r.total - r.overflow.getD 0, [])
  | .sub b => match subdivide s b with | (s', r) => some (s', 0, r.toList)
  | .subRatio n d => (subdivideRatio s n d).map fun (s', r) => (s', 0, r.toList)
  | .subInRange lo hi => (subdivideInRange s lo hi).map fun (s', r) => (s', 0, r.toList)

/-- What is available in all the slicers. -/
def availSum (l : List Slicer) : Nat := (l.map (·.available)).sum

theorem allocInRange_conserve (s : Slicer) (lo hi : Bnd) :
    ∃ s' r, allocInRange s lo hi = some (s', r) ∧ s'.available + r.getD 0 = s.available := by
  unfold allocInRange
  by_cases h : min (highOf hi) s.available < lowOf lo
  · exact ⟨s, none, by simp [h], by simp⟩
  · refine ⟨{ s with available := s.available - min (highOf hi) s.available },
      some (min (highOf hi) s.available), ?_, ?_⟩
    · simp [h, subU_some (Nat.min_le_right _ _)]
    · simp only [Option.getD_some]; omega

/-- One call neither panics nor loses or makes memory. -/
theorem call_spec (s : Slicer) (o : Op) (hs : s.available ≤ umax) (ho : o.Ok) :
    ∃ s' x new, call s o = some (s', x, new) ∧
      s'.available + x + availSum new = s.available := by
  cases o with
  | fixed b =>
    by_cases h : b ≤ s.available
    · refine ⟨_, b, [], by simp only [call, allocFixed, if_pos h]; rfl, ?_⟩
      simp only [availSum, List.map_nil, List.sum_nil]; omega
    · exact ⟨s, 0, [], by simp [call, allocFixed, h], by simp [availSum]⟩
  | ratio n d =>
    obtain ⟨s', r, h1, _, h2, _⟩ := allocRatio_spec s n d
    exact ⟨s', r.getD 0, [], by simp [call, h1], by simpa [availSum] using h2⟩
  | inRange lo hi =>
    obtain ⟨s', r, h1, h2⟩ := allocInRange_conserve s lo hi
    exact ⟨s', r.getD 0, [], by simp [call, h1], by simpa [availSum] using h2⟩
  | constraints cs =>
    have ⟨g1, g2⟩ := allocConstraints_spec ho hs
    by_cases h : (cs.map (·.min)).sum ≤ s.available
    · obtain ⟨s', out, h1, _, _, h2, _⟩ := g1 h
      exact ⟨s', out.sum, [], by simp [call, h1], by simpa [availSum] using h2⟩
    · exact ⟨s, 0, [], by simp [call, g2 (by omega)], by simp [availSum]⟩
  | overflowing cs =>
    have ⟨g1, g2⟩ := overflowingAlloc_spec ho hs
    by_cases h : (cs.map (·.min)).sum ≤ s.available
    · obtain ⟨s', out, h1, _, _, h2, _⟩ := g1 h
      exact ⟨s', out.sum, [], by simp [call, h1], by simpa [availSum] using h2⟩
    · refine ⟨_, _, [], by simp only [call, g2 (by omega), Option.map_some]; rfl, ?_⟩
      simp only [availSum, List.map_nil, List.sum_nil, Option.getD_some]
      omega
  | sub b =>
    by_cases h : b ≤ s.available
    · refine ⟨_, 0, [new b], by simp only [call, subdivide, allocFixed, if_pos h]; rfl, ?_⟩
      simp only [availSum, new, List.map_cons, List.map_nil, List.sum_cons, List.sum_nil]
      omega
    · exact ⟨s, 0, [], by simp [call, subdivide, allocFixed, h], by simp [availSum]⟩
  | subRatio n d =>
    obtain ⟨s', r, h1, _, h2, _⟩ := allocRatio_spec s n d
    refine ⟨s', 0, (r.map new).toList, by simp [call, subdivideRatio, h1], ?_⟩
    cases r <;> simp_all [availSum, new]
  | subInRange lo hi =>
    obtain ⟨s', r, h1, h2⟩ := allocInRange_conserve s lo hi
    refine ⟨s', 0, (r.map new).toList, by simp [call, subdivideInRange, h1], ?_⟩
    cases r <;> simp_all [availSum, new]

/-- The slicers made from one, and all that their callers were given, after any
history of calls. -/
inductive Reach (capacity : Nat) : List Slicer → Nat → Prop
  | init : Reach capacity [new capacity] 0
  | call {l given} (i : Nat) (s s' : Slicer) (o : Op) (x : Nat) (new : List Slicer) :
      Reach capacity l given → o.Ok → l[i]? = some s → call s o = some (s', x, new) →
      Reach capacity (l.set i s' ++ new) (given + x)

theorem availSum_set {l : List Slicer} {i : Nat} {s s' : Slicer} (h : l[i]? = some s) :
    availSum (l.set i s') + s.available = availSum l + s'.available := by
  induction l generalizing i with
  | nil => simp at h
  | cons a l ih =>
    cases i with
    | zero => simp at h; subst h; simp [availSum]; omega
    | succ i =>
      have := ih (i := i) (by simpa using h)
      simp [availSum] at *; omega

/-- **C185.** Whatever is called on a slicer and on the slicers made from it, what was
given and what is still available in all of them is exactly the capacity, and no call
panics. -/
theorem conserved {capacity : Nat} (hcap : capacity ≤ umax) {l : List Slicer} {given : Nat}
    (h : Reach capacity l given) :
    given + availSum l = capacity ∧
      ∀ s ∈ l, ∀ o : Op, o.Ok → (call s o).isSome := by
  have hmain : given + availSum l = capacity ∧ ∀ s ∈ l, s.available ≤ capacity := by
    induction h with
    | init => simp [availSum, new]
    | @call l given i s s' o x new _ ho hi hc ih =>
      have hmem := List.mem_of_getElem? hi
      have hb := ih.2 s hmem
      obtain ⟨s1, x1, n1, e1, e2⟩ := call_spec s o (by omega) ho
      rw [hc] at e1
      simp only [Option.some.injEq, Prod.mk.injEq] at e1
      obtain ⟨rfl, rfl, rfl⟩ := e1
      have hset := availSum_set (s' := s') hi
      have hsum : ∀ (l' : List Slicer), ∀ a ∈ l', a.available ≤ availSum l' := by
        intro l' a ha
        induction l' with
        | nil => simp at ha
        | cons b l' ih' =>
          rcases List.mem_cons.1 ha with rfl | ha
          · simp [availSum]
          · have := ih' ha
            simp only [availSum, List.map_cons, List.sum_cons] at *
            omega
      have htot : given + x + 0 + availSum (l.set i s' ++ new) = capacity := by
        have : availSum (l.set i s' ++ new) = availSum (l.set i s') + availSum new := by
          simp [availSum]
        omega
      refine ⟨by omega, ?_⟩
      intro a ha
      have := hsum _ a ha
      omega
  refine ⟨hmain.1, ?_⟩
  intro s hs o ho
  obtain ⟨s', x, n, e, _⟩ := call_spec s o (by have := hmain.2 s hs; omega) ho
  simp [e]

/-- The constructors of constraints make what the theorems ask of each. -/
theorem exact_valid {p b : Nat} (hb : b ≤ umax) :
    (exact p b).min ≤ (exact p b).max ∧ (exact p b).max ≤ umax ∧ 1 ≤ (exact p b).ratio := by
  simp [exact, hb]

/-- And so does `range`, whenever its assertion holds. -/
theorem range_valid {p r : Nat} {lo hi : Bnd} (hh : BndOk hi) {c : Constraint}
    (h : range p r lo hi = some c) : c.min ≤ c.max ∧ c.max ≤ umax ∧ 1 ≤ c.ratio := by
  unfold range at h
  split at h
  · simp only [Option.some.injEq] at h
    subst h
    refine ⟨by assumption, ?_, ?_⟩
    · cases hi <;> simp only [highOf, BndOk] at * <;> omega
    · simp only; split <;> omega
  · simp at h

end Tycho.Slicer
