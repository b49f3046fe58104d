import Verif.Merge.Status

namespace Tycho.Merge
open Tycho.Bytes Tycho.Codec

/-! ### What a merge is, field by field -/

/-- The highest kind among the readable values. -/
def topKind (ops : List (List Nat)) : Nat := (ops.filter readable).foldl (fun m a => max m (a.getD 0 0)) 0

theorem sizeOf_some {k n : Nat} (h : sizeOf k = some n) :
    (k = 0x80 ∧ n = 11) ∨ (k = 0x40 ∧ n = 131) ∨ (k = 0x20 ∧ n = 11) ∨ (k = 0x08 ∧ n = 2) ∨ (k = 0x04 ∧ n = 2) ∨
      (k = 0x02 ∧ n = 2) ∨ (k = 0x01 ∧ n = 38) ∨ (k = 0 ∧ n = 2) := by
  unfold sizeOf at h
  split at h
  · simp only [Option.some.injEq] at h; omega
  split at h
  · simp only [Option.some.injEq, linkBytes] at h; omega
  split at h
  · simp only [Option.some.injEq] at h; omega
  split at h
  · simp only [Option.some.injEq] at h; omega
  split at h
  · simp only [Option.some.injEq] at h; omega
  split at h
  · simp only [Option.some.injEq] at h; omega
  split at h
  · simp only [Option.some.injEq] at h; omega
  split at h
  · simp only [Option.some.injEq] at h; omega
  · cases h

theorem readable_iff {a : List Nat} : readable a = true ↔ 2 ≤ a.length ∧ sizeOf (a.getD 0 0) = some a.length := by
  simp [readable]

/-- A readable value is committable exactly from kind 0x20 on. -/
theorem committable_iff {a : List Nat} (h : readable a = true) : isCommittable a = true ↔ 0x20 ≤ a.getD 0 0 := by
  obtain ⟨_, hs⟩ := readable_iff.1 h
  unfold isCommittable
  rcases sizeOf_some hs with h | h | h | h | h | h | h | h <;> rw [h.1] <;> decide

theorem committable_length {a : List Nat} (h : readable a = true) (hc : isCommittable a = true) : 11 ≤ a.length := by
  have hk := (committable_iff h).1 hc
  obtain ⟨_, hs⟩ := readable_iff.1 h
  have := sizeOf_some hs
  omega

theorem foldl_or_init (l : List (List Nat)) (f : List Nat → Nat) (s : Nat) :
    l.foldl (fun s a => s ||| f a) s = s ||| l.foldl (fun s a => s ||| f a) 0 := by
  induction l generalizing s with
  | nil => simp
  | cons a l ih =>
    simp only [List.foldl_cons]
    rw [ih (s ||| f a), ih (0 ||| f a), Nat.zero_or, Nat.or_assoc]

theorem foldl_max_init (l : List (List Nat)) (f : List Nat → Nat) (s : Nat) :
    l.foldl (fun s a => max s (f a)) s = max s (l.foldl (fun s a => max s (f a)) 0) := by
  induction l generalizing s with
  | nil => simp
  | cons a l ih =>
    simp only [List.foldl_cons]
    rw [ih (max s (f a)), ih (max 0 (f a))]
    omega

theorem orSecond_append (a b : List (List Nat)) : orSecond (a ++ b) = orSecond a ||| orSecond b := by
  simp only [orSecond, List.foldl_append]
  rw [foldl_or_init b]

theorem topKind_append (a b : List (List Nat)) : topKind (a ++ b) = max (topKind a) (topKind b) := by
  simp only [topKind, List.filter_append, List.foldl_append]
  rw [foldl_max_init (b.filter readable)]

/-- The anchor flags of one value. -/
def anchorOf (a : List Nat) : Nat := if isCommittable a then a.getD 2 0 else 0

theorem orAnchor_eq (l : List (List Nat)) : orAnchor l = l.foldl (fun s a => s ||| anchorOf a) 0 := by
  unfold orAnchor
  congr 1
  funext s a
  unfold anchorOf
  split
  · rfl
  · simp

theorem orAnchor_append (a b : List (List Nat)) : orAnchor (a ++ b) = orAnchor a ||| orAnchor b := by
  simp only [orAnchor_eq, List.foldl_append]
  rw [foldl_or_init b]

/-- The commit part of one value. -/
def commitOf (a : List Nat) : List Nat := if isCommittable a then commitPart a else List.replicate 8 0

theorem max_def' (c d : List Nat) : (if c < d then d else c) = max c d := by
  rcases lt_or_ge c d with h | h
  · rw [if_pos h, max_eq_right h.le]
  · rw [if_neg (not_lt.2 h), max_eq_left h]

theorem cons_le' {x y : Nat} {a b : List Nat} : x :: a ≤ y :: b ↔ x < y ∨ (x = y ∧ a ≤ b) := by
  have h : y :: b < x :: a ↔ y < x ∨ (y = x ∧ b < a) := List.cons_lt_cons_iff
  rw [← not_lt, h, ← not_lt (b := a)]
  constructor
  · intro hn
    rcases Nat.lt_trichotomy x y with h1 | h1 | h1
    · exact Or.inl h1
    · exact Or.inr ⟨h1, fun hb => hn (Or.inr ⟨h1.symm, hb⟩)⟩
    · exact absurd (Or.inl h1) hn
  · rintro (h1 | ⟨h1, h2⟩) (h3 | ⟨h3, h4⟩)
    · omega
    · omega
    · omega
    · exact h2 h4

theorem replicate_le (n : Nat) (l : List Nat) (h : l.length = n) : List.replicate n 0 ≤ l := by
  induction l generalizing n with
  | nil => subst h; exact le_refl _
  | cons x l ih =>
    subst h
    simp only [List.length_cons, List.replicate_succ]
    rw [cons_le']
    rcases Nat.eq_zero_or_pos x with h0 | h0
    · right; exact ⟨h0.symm, ih _ rfl⟩
    · left; exact h0

theorem commitPart_length {a : List Nat} (h : readable a = true) (hc : isCommittable a = true) :
    (commitPart a).length = 8 := by
  have := committable_length h hc
  simp only [commitPart, List.length_take, List.length_drop]
  omega

/-- The zero part is the least. -/
theorem zero_le_commitOf {a : List Nat} (h : readable a = true) : List.replicate 8 0 ≤ commitOf a := by
  unfold commitOf
  split
  · rename_i hc; exact replicate_le 8 _ (commitPart_length h hc)
  · exact le_refl _

theorem maxCommit_from (l : List (List Nat)) (hl : ∀ a ∈ l, readable a = true) (c : List Nat) (hc : List.replicate 8 0 ≤ c) :
    l.foldl (fun c a => if isCommittable a then (if c < commitPart a then commitPart a else c) else c) c =
      l.foldl (fun c a => max c (commitOf a)) c := by
  induction l generalizing c with
  | nil => rfl
  | cons a l ih =>
    simp only [List.foldl_cons]
    have e : (if isCommittable a then (if c < commitPart a then commitPart a else c) else c) = max c (commitOf a) := by
      unfold commitOf
      split
      · rename_i hca
        exact max_def' _ _
      · rename_i hca
        rw [max_eq_left hc]
    rw [e]
    exact ih (fun x hx => hl x (by simp [hx])) _ (le_trans hc (le_max_left _ _))

theorem maxCommit_eq (l : List (List Nat)) (hl : ∀ a ∈ l, readable a = true) :
    maxCommit l = l.foldl (fun c a => max c (commitOf a)) (List.replicate 8 0) :=
  maxCommit_from l hl _ (le_refl _)

theorem foldl_lmax_init (l : List (List Nat)) (c d : List Nat) :
    l.foldl (fun c a => max c (commitOf a)) (max c d) = max c (l.foldl (fun c a => max c (commitOf a)) d) := by
  induction l generalizing c d with
  | nil => rfl
  | cons a l ih =>
    simp only [List.foldl_cons]
    rw [← ih, max_assoc]

theorem maxCommit_append (a b : List (List Nat)) (ha : ∀ x ∈ a, readable x = true) (hb : ∀ x ∈ b, readable x = true) :
    maxCommit (a ++ b) = max (maxCommit a) (maxCommit b) := by
  rw [maxCommit_eq _ (by intro x hx; rcases List.mem_append.1 hx with h | h; exacts [ha x h, hb x h]), maxCommit_eq a ha,
    maxCommit_eq b hb, List.foldl_append, ← foldl_lmax_init, max_eq_left]
  have : ∀ (l : List (List Nat)) (c : List Nat), List.replicate 8 0 ≤ c →
      List.replicate 8 0 ≤ l.foldl (fun c a => max c (commitOf a)) c := by
    intro l
    induction l with
    | nil => intro c hc; exact hc
    | cons x l ih => intro c hc; exact ih _ (le_trans hc (le_max_left _ _))
  exact this a _ (le_refl _)

/-- The greatest value. -/
theorem maxBytes_some {l : List (List Nat)} {m : List Nat} (h : maxBytes l = some m) : m ∈ l ∧ ∀ a ∈ l, a ≤ m := by
  cases l with
  | nil => cases h
  | cons a l =>
    simp only [maxBytes, Option.some.injEq] at h
    have e : ∀ (l : List (List Nat)) (a : List Nat), l.foldl (fun m x => if x < m then m else x) a =
        l.foldl (fun m x => max x m) a := by
      intro l a
      congr 1
      funext m x
      exact max_def' _ _
    rw [e] at h
    clear e
    subst h
    induction l generalizing a with
    | nil => simp
    | cons x l ih =>
      simp only [List.foldl_cons]
      obtain ⟨h1, h2⟩ := ih (max x a)
      constructor
      · rcases List.mem_cons.1 h1 with h1 | h1
        · rcases le_total x a with hx | hx
          · rw [max_eq_right hx] at h1 ⊢; rw [h1]; simp
          · rw [max_eq_left hx] at h1 ⊢; rw [h1]; simp
        · simp [h1]
      · have h3 := h2 (max x a) (by simp)
        intro y hy
        rcases List.mem_cons.1 hy with rfl | hy
        · exact le_trans (le_max_right _ _) h3
        · rcases List.mem_cons.1 hy with rfl | hy
          · exact le_trans (le_max_left _ _) h3
          · exact h2 y (by simp [hy])

theorem maxBytes_isSome (l : List (List Nat)) : (maxBytes l).isSome ↔ l ≠ [] := by
  cases l <;> simp [maxBytes]

/-- Greater bytes have a greater kind. -/
theorem head_le {a m : List Nat} (ha : a ≠ []) (h : a ≤ m) : a.getD 0 0 ≤ m.getD 0 0 := by
  cases a with
  | nil => exact absurd rfl ha
  | cons x a =>
    cases m with
    | nil => exact absurd h (by simp)
    | cons y m =>
      rw [cons_le'] at h
      simp only [List.getD_cons_zero]
      rcases h with h | h
      · exact h.le
      · omega

theorem foldl_max_spec (l : List (List Nat)) (f : List Nat → Nat) {m : List Nat} (hm : m ∈ l) (h : ∀ a ∈ l, f a ≤ f m) :
    l.foldl (fun s a => max s (f a)) 0 = f m := by
  have up : ∀ (l : List (List Nat)) (s B : Nat), s ≤ B → (∀ a ∈ l, f a ≤ B) → l.foldl (fun s a => max s (f a)) s ≤ B := by
    intro l
    induction l with
    | nil => intro s B h _; exact h
    | cons a l ih => intro s B h1 h2; exact ih _ _ (Nat.max_le.2 ⟨h1, h2 a (by simp)⟩) (fun x hx => h2 x (by simp [hx]))
  have lo : ∀ (l : List (List Nat)) (s : Nat), s ≤ l.foldl (fun s a => max s (f a)) s ∧
      ∀ a ∈ l, f a ≤ l.foldl (fun s a => max s (f a)) s := by
    intro l
    induction l with
    | nil => intro s; simp
    | cons a l ih =>
      intro s
      obtain ⟨h1, h2⟩ := ih (max s (f a))
      simp only [List.foldl_cons]
      refine ⟨by omega, ?_⟩
      intro x hx
      rcases List.mem_cons.1 hx with rfl | hx
      · omega
      · exact h2 x hx
  exact Nat.le_antisymm (up l 0 _ (by omega) h) ((lo l 0).2 m hm)

/-- What is stored behind the flags and the commit part: the cause of a `TransInvalid`, the author of a `NotFound`. -/
def tailOf (a : List Nat) : List Nat := if isCommittable a then a.drop 11 else a.drop 2

theorem or_absorb (l : List (List Nat)) (f : List Nat → Nat) {m : List Nat} (hm : m ∈ l) :
    f m ||| l.foldl (fun s a => s ||| f a) 0 = l.foldl (fun s a => s ||| f a) 0 := by
  obtain ⟨a, b, rfl⟩ := List.append_of_mem hm
  simp only [List.foldl_append, List.foldl_cons]
  rw [foldl_or_init b]
  generalize List.foldl (fun s a => s ||| f a) 0 a = x
  generalize List.foldl (fun s a => s ||| f a) 0 b = y
  rw [← Nat.or_assoc, Nat.or_comm x (f m), ← Nat.or_assoc, Nat.or_self]

/-- The fields of the merge of readable values with greatest value `m`. -/
theorem mergeResult_fields {l : List (List Nat)} (hl : ∀ a ∈ l, readable a = true) {m : List Nat} (hm : maxBytes l = some m) :
    let v := mergeResult m (orSecond l) (orAnchor l) (maxCommit l)
    readable v = true ∧ v.getD 0 0 = m.getD 0 0 ∧ v.getD 1 0 = orSecond l ∧ isCommittable v = isCommittable m ∧
      anchorOf v = orAnchor l ∧ commitOf v = maxCommit l ∧ tailOf v = tailOf m := by
  obtain ⟨hmem, hmax⟩ := maxBytes_some hm
  have hr := hl m hmem
  obtain ⟨hlen, hsize⟩ := readable_iff.1 hr
  intro v
  have h0 : v.getD 0 0 = m.getD 0 0 := rfl
  have hc : isCommittable v = isCommittable m := by unfold isCommittable; rw [h0]
  have h1 : v.getD 1 0 = orSecond l := by
    show m.getD 1 0 ||| orSecond l = _
    exact or_absorb l (fun a => a.getD 1 0) hmem
  have hzero : ∀ a ∈ l, isCommittable m = false → isCommittable a = false := by
    intro a ha hcm
    cases hca : isCommittable a with
    | false => rfl
    | true =>
      have hk := (committable_iff (hl a ha)).1 hca
      have hle := head_le (a := a) (by
        have := (readable_iff.1 (hl a ha)).1
        intro h; rw [h] at this; simp at this) (hmax a ha)
      have : isCommittable m = true := (committable_iff hr).2 (by omega)
      rw [this] at hcm; cases hcm
  have hcl : (maxCommit l).length = 8 := by
    rw [maxCommit_eq l hl]
    have key : ∀ (l : List (List Nat)) (c : List Nat), (∀ a ∈ l, readable a = true) → c.length = 8 →
        (l.foldl (fun c a => max c (commitOf a)) c).length = 8 := by
      intro l
      induction l with
      | nil => intro c _ h; exact h
      | cons a l ih =>
        intro c h1 h2
        apply ih _ (fun x hx => h1 x (by simp [hx]))
        have : (commitOf a).length = 8 := by
          unfold commitOf
          split
          · rename_i hca; exact commitPart_length (h1 a (by simp)) hca
          · simp
        show (max c (commitOf a)).length = 8
        rcases le_total c (commitOf a) with h | h
        · rw [max_eq_right h]; exact this
        · rw [max_eq_left h]; exact h2
    exact key l _ hl (by simp)
  cases hcm : isCommittable m with
  | true =>
    have hv : v = [m.getD 0 0, m.getD 1 0 ||| orSecond l] ++ ([m.getD 2 0 ||| orAnchor l] ++ maxCommit l ++ m.drop 11) := by
      show mergeResult _ _ _ _ = _
      unfold mergeResult; rw [if_pos hcm]
    have hml := committable_length hr hcm
    have hlv : v.length = m.length := by
      rw [hv]; simp only [List.length_append, List.length_cons, List.length_nil, hcl, List.length_drop]; omega
    refine ⟨?_, h0, h1, by rw [hc, hcm], ?_, ?_, ?_⟩
    · rw [readable_iff, hlv, h0]; exact ⟨hlen, hsize⟩
    · unfold anchorOf
      rw [hc, hcm, if_pos rfl]
      have : v.getD 2 0 = m.getD 2 0 ||| orAnchor l := by rw [hv]; rfl
      rw [this]
      have := or_absorb l anchorOf hmem
      rw [orAnchor_eq]
      unfold anchorOf at this ⊢
      rw [if_pos hcm] at this
      exact this
    · unfold commitOf
      rw [hc, hcm, if_pos rfl]
      unfold commitPart
      rw [hv]
      simp only [List.cons_append, List.nil_append, List.drop_succ_cons, List.drop_zero]
      rw [List.take_append_of_le_length (by omega), List.take_of_length_le (by omega)]
    · unfold tailOf
      rw [hc, hcm, if_pos rfl, if_pos rfl, hv]
      have e : [m.getD 0 0, m.getD 1 0 ||| orSecond l] ++ ([m.getD 2 0 ||| orAnchor l] ++ maxCommit l ++ m.drop 11) =
          ([m.getD 0 0, m.getD 1 0 ||| orSecond l] ++ [m.getD 2 0 ||| orAnchor l] ++ maxCommit l) ++ m.drop 11 := by simp
      rw [e, List.drop_left' (by simp [hcl])]
  | false =>
    have hv : v = [m.getD 0 0, m.getD 1 0 ||| orSecond l] ++ m.drop 2 := by
      show mergeResult _ _ _ _ = _
      unfold mergeResult; rw [if_neg (by rw [hcm]; simp)]
    have hlv : v.length = m.length := by
      rw [hv]; simp only [List.length_append, List.length_cons, List.length_nil, List.length_drop]; omega
    refine ⟨?_, h0, h1, by rw [hc, hcm], ?_, ?_, ?_⟩
    · rw [readable_iff, hlv, h0]; exact ⟨hlen, hsize⟩
    · unfold anchorOf
      rw [hc, hcm, if_neg (by simp)]
      have : ∀ (l : List (List Nat)), (∀ a ∈ l, isCommittable a = false) → orAnchor l = 0 := by
        intro l
        induction l with
        | nil => intro _; rfl
        | cons a l ih =>
          intro h
          rw [show a :: l = [a] ++ l from rfl, orAnchor_append, ih (fun x hx => h x (by simp [hx]))]
          simp [orAnchor, h a (by simp)]
      exact (this l (fun a ha => hzero a ha hcm)).symm
    · unfold commitOf
      rw [hc, hcm, if_neg (by simp)]
      have : ∀ (l : List (List Nat)) (c : List Nat), (∀ a ∈ l, isCommittable a = false) →
          l.foldl (fun c a => if isCommittable a then (if c < commitPart a then commitPart a else c) else c) c = c := by
        intro l
        induction l with
        | nil => intro _ _; rfl
        | cons a l ih =>
          intro c h
          simp only [List.foldl_cons]
          rw [h a (by simp), if_neg (by simp)]
          exact ih c (fun x hx => h x (by simp [hx]))
      exact (this l _ (fun a ha => hzero a ha hcm)).symm
    · unfold tailOf
      rw [hc, hcm, if_neg (by simp), if_neg (by simp), hv]
      rfl

end Tycho.Merge
