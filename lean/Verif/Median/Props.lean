import Verif.Median.Model
import Mathlib.Data.List.Sort

/-! C02 (streaming median) and C21 (running average). -/
namespace Tycho.Median

theorem pushMin_perm (x : Nat) (l : List Nat) : (pushMin x l).Perm (x :: l) := by
  induction l with
  | nil => exact List.Perm.refl _
  | cons y ys ih =>
    unfold pushMin
    split
    · exact List.Perm.refl _
    · exact (ih.cons y).trans (List.Perm.swap x y ys)

theorem pushMax_perm (x : Nat) (l : List Nat) : (pushMax x l).Perm (x :: l) := by
  induction l with
  | nil => exact List.Perm.refl _
  | cons y ys ih =>
    unfold pushMax
    split
    · exact List.Perm.refl _
    · exact (ih.cons y).trans (List.Perm.swap x y ys)

theorem pushMin_sorted (x : Nat) (l : List Nat) (h : l.Pairwise (· ≤ ·)) :
    (pushMin x l).Pairwise (· ≤ ·) := by
  induction l with
  | nil => exact List.pairwise_singleton _ _
  | cons y ys ih =>
    have hy := List.pairwise_cons.1 h
    unfold pushMin
    split
    · rename_i hxy
      refine List.pairwise_cons.2 ⟨?_, h⟩
      intro a ha
      rcases List.mem_cons.1 ha with rfl | ha
      · exact hxy
      · exact Nat.le_trans hxy (hy.1 a ha)
    · refine List.pairwise_cons.2 ⟨?_, ih hy.2⟩
      intro a ha
      rcases List.mem_cons.1 ((pushMin_perm x ys).mem_iff.1 ha) with rfl | ha
      · omega
      · exact hy.1 a ha

theorem pushMax_sorted (x : Nat) (l : List Nat) (h : l.Pairwise (· ≥ ·)) :
    (pushMax x l).Pairwise (· ≥ ·) := by
  induction l with
  | nil => exact List.pairwise_singleton _ _
  | cons y ys ih =>
    have hy := List.pairwise_cons.1 h
    unfold pushMax
    split
    · rename_i hxy
      refine List.pairwise_cons.2 ⟨?_, h⟩
      intro a ha
      rcases List.mem_cons.1 ha with rfl | ha
      · exact hxy
      · exact Nat.le_trans (hy.1 a ha) hxy
    · refine List.pairwise_cons.2 ⟨?_, ih hy.2⟩
      intro a ha
      rcases List.mem_cons.1 ((pushMax_perm x ys).mem_iff.1 ha) with rfl | ha
      · simp only [ge_iff_le]; omega
      · exact hy.1 a ha

/-- Invariant: the two heaps split the inserted values into a low and a high half. -/
structure Inv (m : Median) (xs : List Nat) : Prop where
  lo : m.lo.Pairwise (· ≥ ·)
  hi : m.hi.Pairwise (· ≤ ·)
  le : ∀ a ∈ m.lo, ∀ b ∈ m.hi, a ≤ b
  size : m.lo.length = m.hi.length ∨ m.lo.length = m.hi.length + 1
  perm : (m.lo ++ m.hi).Perm xs

theorem insert_inv (m : Median) (xs : List Nat) (v : Nat) (h : Inv m xs) :
    Inv (m.insert v) (v :: xs) := by
  obtain ⟨h1, h2, h3, h4, h5⟩ := h
  unfold Median.insert
  have hp := pushMin_perm v m.hi
  have hs := pushMin_sorted v m.hi h2
  have hl := hp.length_eq
  cases hpm : pushMin v m.hi with
  | nil => rw [hpm] at hl; simp at hl
  | cons x rest =>
    rw [hpm] at hp hs hl
    dsimp only
    have hs' := List.pairwise_cons.1 hs
    have qp := pushMax_perm x m.lo
    have qs := pushMax_sorted x m.lo h1
    have ql := qp.length_eq
    simp only [List.length_cons] at hl ql
    have hle : ∀ a ∈ pushMax x m.lo, ∀ b ∈ rest, a ≤ b := by
      intro a ha b hb
      rcases List.mem_cons.1 (qp.mem_iff.1 ha) with rfl | ha
      · exact hs'.1 b hb
      · rcases List.mem_cons.1 (hp.mem_iff.1 (List.mem_cons_of_mem x hb)) with rfl | hb'
        · rcases List.mem_cons.1 (hp.mem_iff.1 (List.mem_cons_self (a := x) (l := rest))) with rfl | hx
          · -- x = v = b: then v occurs twice in x :: rest; v in m.hi
            have : x ∈ m.hi := by
              have := (List.perm_cons x).1 hp
              exact this.mem_iff.1 hb
            exact h3 a ha _ this
          · exact Nat.le_trans (h3 a ha x hx) (hs'.1 b hb)
        · exact h3 a ha b hb'
    have hperm : (pushMax x m.lo ++ rest).Perm (v :: xs) := by
      have e1 : (pushMax x m.lo ++ rest).Perm (m.lo ++ x :: rest) :=
        (qp.append_right rest).trans (List.perm_middle.symm)
      have e2 : (m.lo ++ x :: rest).Perm (m.lo ++ v :: m.hi) := hp.append_left m.lo
      exact e1.trans (e2.trans (List.perm_middle.trans (h5.cons v)))
    split
    · rename_i hgt
      cases hlo : pushMax x m.lo with
      | nil => rw [hlo] at hgt; simp at hgt
      | cons y ys =>
        rw [hlo] at hgt qs ql hle hperm
        dsimp only
        have qs' := List.pairwise_cons.1 qs
        have rp := pushMin_perm y rest
        refine ⟨qs'.2, pushMin_sorted y rest hs'.2, ?_, ?_, ?_⟩
        · intro a ha b hb
          rcases List.mem_cons.1 (rp.mem_iff.1 hb) with rfl | hb
          · exact qs'.1 a ha
          · exact hle a (List.mem_cons_of_mem _ ha) b hb
        · have := rp.length_eq
          simp only [List.length_cons] at *
          omega
        · have e : (ys ++ pushMin y rest).Perm (y :: ys ++ rest) :=
            (rp.append_left ys).trans List.perm_middle
          exact e.trans hperm
    · rename_i hgt
      refine ⟨qs, hs'.2, hle, ?_, hperm⟩
      dsimp only
      omega

theorem foldl_inv (vs : List Nat) (m : Median) (xs : List Nat) (h : Inv m xs) :
    Inv (vs.foldl Median.insert m) (vs.reverse ++ xs) := by
  induction vs generalizing m xs with
  | nil => exact h
  | cons v vs ih =>
    have := ih (m.insert v) (v :: xs) (insert_inv m xs v h)
    simpa using this

/-- C02. `sorted` is any ascending arrangement of the inserted values. Nothing for no values, the
middle one for an odd number, half the (saturated) sum of the two middle ones for an even number. -/
theorem median_is_median (vs sorted : List Nat) (hperm : sorted.Perm vs)
    (hs : sorted.Pairwise (· ≤ ·)) :
    (vs.foldl Median.insert {}).get =
      if vs.length = 0 then none
      else if vs.length % 2 = 1 then sorted[vs.length / 2]?
      else match sorted[vs.length / 2 - 1]?, sorted[vs.length / 2]? with
        | some a, some b => some (min (a + b) (2 ^ 128 - 1) / 2)
        | _, _ => none := by
  have hi : Inv {} [] := ⟨List.Pairwise.nil, List.Pairwise.nil, by simp, Or.inl rfl, List.Perm.refl _⟩
  have inv := foldl_inv vs {} [] hi
  simp only [List.append_nil] at inv
  generalize vs.foldl Median.insert {} = m at inv
  obtain ⟨h1, h2, h3, h4, h5⟩ := inv
  have hso : sorted = m.lo.reverse ++ m.hi := by
    apply List.Perm.eq_of_pairwise (le := (· ≤ ·)) (fun a b _ _ hab hba => Nat.le_antisymm hab hba) hs
    · rw [List.pairwise_append]
      refine ⟨List.pairwise_reverse.2 h1, h2, ?_⟩
      intro a ha b hb
      exact h3 a (List.mem_reverse.1 ha) b hb
    · exact hperm.trans ((List.reverse_perm vs).symm.trans (h5.symm.trans
        ((List.reverse_perm m.lo).symm.append_right m.hi)))
  have hlen : vs.length = m.lo.length + m.hi.length := by
    rw [← hperm.length_eq, hso]; simp
  rw [hso]
  unfold Median.get
  cases hl : m.lo with
  | nil =>
    rw [hl] at h4 hlen
    simp only [List.length_nil] at h4 hlen
    have : vs.length = 0 := by omega
    rw [if_pos this]
  | cons a as =>
    rw [hl] at h4 hlen
    simp only [List.length_cons] at h4 hlen
    rw [if_neg (by omega)]
    dsimp only
    split
    · rename_i hgt
      simp only [List.length_cons] at hgt
      rw [if_pos (by omega)]
      have : vs.length / 2 = as.length := by omega
      rw [this, List.getElem?_append_left (by simp)]
      simp
    · rename_i hgt
      simp only [List.length_cons] at hgt
      rw [if_neg (by omega)]
      have e1 : vs.length / 2 = as.length + 1 := by omega
      rw [e1, Nat.add_sub_cancel, List.getElem?_append_left (by simp),
        List.getElem?_append_right (by simp)]
      cases hh : m.hi with
      | nil => rw [hh] at h4 hgt; simp only [List.length_nil] at h4 hgt; omega
      | cons b bs =>
        simp [u128Max]

/-- When the two middle values do not overflow together, the even case is the floored mean. -/
theorem median_even_exact (a b : Nat) (h : a + b < 2 ^ 128) :
    min (a + b) (2 ^ 128 - 1) / 2 = (a + b) / 2 := by
  rw [Nat.min_eq_left (by omega)]

/-- Otherwise the code understates it: two equal values can have a "median" below both. -/
theorem median_overflow_understates :
    ∃ a, a < 2 ^ 128 ∧ ([a, a].foldl Median.insert {}).get = some (2 ^ 127 - 1) ∧ 2 ^ 127 - 1 < a := by
  refine ⟨2 ^ 128 - 1, by decide, by decide, by decide⟩

example : ([5, 1, 4, 2].foldl Median.insert {}).get = some 3 := by decide
example : ([5, 1, 4].foldl Median.insert {}).get = some 4 := by decide

/-! ### C21: running average -/

/-- While the total of the samples fits in 128 bits the reported average is their floored mean. -/
theorem avg_exact_partial (vs : List Nat) (hv : vs.sum ≤ 2 ^ 128 - 1) :
    (vs.foldl Avg.accum {}).get = if vs = [] then none else some (vs.sum / vs.length) := by
  have key : ∀ (vs : List Nat) (s : Avg), s.sum + vs.sum ≤ 2 ^ 128 - 1 →
      vs.foldl Avg.accum s = { sum := s.sum + vs.sum, counter := s.counter + vs.length } := by
    intro vs
    induction vs with
    | nil => intro s _; rfl
    | cons v vs ih =>
      intro s h
      simp only [List.sum_cons] at h
      have : s.accum v = { sum := s.sum + v, counter := s.counter + 1 } := by
        unfold Avg.accum u128Max
        rw [if_pos (by omega)]
      simp only [List.foldl_cons, this]
      rw [ih _ (by simp only; omega)]
      simp only [List.sum_cons, List.length_cons, Avg.mk.injEq]
      omega
  rw [key vs {} (by simpa using hv)]
  unfold Avg.get
  cases vs with
  | nil => rfl
  | cons v vs =>
    have h1 : (v :: vs) ≠ [] := by simp
    rw [if_neg h1]
    cases vs with
    | nil => simp
    | cons w ws => simp

/-- The full claim (the average always lies between the least and the greatest sample) is false of
the code: when the running total overflows, the restarted total is the old average plus the new
sample but is counted as one sample, so the reported average can exceed every sample. -/
theorem avg_overflow_exceeds_all_samples :
    ∃ vs : List Nat, (∀ v ∈ vs, v ≤ 2 ^ 127) ∧ (vs.foldl Avg.accum {}).get = some (2 ^ 128 - 1) := by
  refine ⟨[2 ^ 127, 2 ^ 127], by simp, by decide⟩

example : ([3, 4, 6].foldl Avg.accum {}).get = some 4 := by decide

end Tycho.Median
