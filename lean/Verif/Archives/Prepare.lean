import Verif.Archives.Lemmas

namespace Tycho.Archives

variable {w : World}

/-- what the override in memory is before a call for `n` -/
structure OverOk (w : World) (n : Nat) (items : Nat → Bool) (over : Option Nat) : Prop where
  le : w.key n = false → ∀ x, over = some x → x ≤ n
  key : w.key n = false → over = some n → w.s < n ∧ w.key (n - 1) = true
  split : w.key n = false → w.s < n → w.key (n - 1) = true → over = some n ∨ items n = true

/-- what a call gets: the archive of the block -/
structure PrepOk (w : World) (n : Nat) (items : Nat → Bool) (r : (Nat → Bool) × Option Nat × Prepared) : Prop where
  id : r.2.2.id = arch w n
  added : r.1 = add items (arch w n)
  new : r.2.2.isNew = !items (arch w n)
  newId : r.2.2.isNew = true → arch w n = n
  commit : ∀ a, r.2.2.commit = some a → r.2.2.isNew = true ∧ w.s < n ∧ a = arch w (n - 1)
  commit' : r.2.2.isNew = true → w.s < n → r.2.2.commit = some (arch w (n - 1))
  over : ∀ x, r.2.2.over = some x → w.key n = true ∧ x = n + 1
  over' : w.key n = true → r.2.2.isNew = false → r.2.2.over = some (n + 1)
  memKey : w.key n = true → r.2.1 = some (n + 1)
  memLe : w.key n = false → ∀ x, r.2.1 = some x → x ≤ n
  memN : w.key n = false → r.2.1 = some n → w.s < n ∧ w.key (n - 1) = true

theorem add_self {items : Nat → Bool} {a : Nat} (h : items a = true) : add items a = items := by
  funext x; unfold add; split
  · rename_i e; rw [e, h]
  · rfl

theorem rest_old {items : Nat → Bool} {n a : Nat} {o : Option Nat} (hle : n < a + maxMc) :
    prepareRest items o (some a) n = (items, o, ⟨a, false, o, none⟩) := by
  unfold prepareRest
  rw [if_neg]
  · rfl
  · simp only [reduceCtorEq, Option.getD_some, false_or, maxMc] at *
    omega

theorem rest_new {items : Nat → Bool} {n : Nat} {o p : Option Nat} (hn : items n = false) (hp : p = none ∨ ∃ a, p = some a ∧ a + maxMc ≤ n) :
    prepareRest items o p n = (add items n, o, ⟨n, true, none, p⟩) := by
  unfold prepareRest
  rw [if_pos]
  · simp [hn]
  · rcases hp with h | ⟨a, h1, h2⟩
    · exact .inl h
    · right; rw [h1]; simp only [Option.getD_some]; omega

theorem prepare_spec {n : Nat} {items : Nat → Bool} {over : Option Nat} (hs : w.s ≤ n)
    (h1 : ∀ a, items a = true → ∃ m, w.s ≤ m ∧ m ≤ n ∧ arch w m = a)
    (h2 : items (arch w n) = true ∨ n = w.s ∨ (w.s < n ∧ items (arch w (n - 1)) = true)) (ho : OverOk w n items over) :
    PrepOk w n items (prepare items over n (w.key n)) := by
  have hb := arch_bounds (w := w) n hs
  by_cases hi : items (arch w n) = true
  · have hp : prevId items n = some (arch w n) := by
      refine prevId_eq hi hb.2.1 (fun x hx hxn => ?_)
      cases hix : items x with
      | false => rfl
      | true =>
        obtain ⟨m, hm1, hm2, rfl⟩ := h1 x hix
        have := arch_mono (w := w) hm1 hm2
        omega
    unfold prepare
    simp only [hp]
    cases hk : w.key n with
    | true =>
      simp only [if_true]
      rw [rest_old hb.2.2]
      constructor <;> simp [hi, add_self hi, hk]
    | false =>
      simp only [Bool.false_eq_true, if_false]
      cases over with
      | none =>
        simp only
        rw [rest_old hb.2.2]
        constructor <;> simp [hi, add_self hi, hk]
      | some x =>
        have hx := ho.le hk x rfl
        simp only
        rw [if_neg (by omega)]
        by_cases hxn : n = x
        · subst hxn
          obtain ⟨h3, h4⟩ := ho.key hk rfl
          have : arch w n = n := by
            obtain ⟨k, rfl⟩ : ∃ k, n = k + 1 := ⟨n - 1, by omega⟩
            rw [arch_succ (by omega), if_pos (.inl ⟨by simpa using h4, hk⟩)]
          rw [this] at hi
          rw [if_pos rfl]
          constructor <;> simp [hi, hk, this, h3, h4]
        · rw [if_neg hxn, rest_old hb.2.2]
          constructor <;> simp [hi, add_self hi, hk]
  · have hi' : items (arch w n) = false := by simpa using hi
    rcases h2 with h2 | h2 | ⟨hlt, h2⟩
    · exact absurd h2 hi
    · have hp : prevId items n = none := by
        cases hp : prevId items n with
        | none => rfl
        | some a =>
          obtain ⟨g1, g2, _⟩ := prevId_some hp
          obtain ⟨m, hm1, hm2, rfl⟩ := h1 a g1
          obtain rfl : m = n := by omega
          exact absurd g1 hi
      have han : arch w n = n := by rw [h2, arch_start]
      rw [han] at hi'
      have hrest : ∀ o, prepareRest items o none n = (add items n, o, ⟨n, true, none, none⟩) := fun o => rest_new hi' (.inl rfl)
      unfold prepare
      simp only [hp]
      cases hk : w.key n with
      | true =>
        simp only [if_true, hrest]
        constructor <;> simp [hi', hk, han]
        omega
      | false =>
        simp only [Bool.false_eq_true, if_false]
        cases over with
        | none =>
          simp only [hrest]
          constructor <;> simp [hi', hk, han]
          omega
        | some x =>
          have hx := ho.le hk x rfl
          have hxn : n ≠ x := by
            rintro rfl
            have := (ho.key hk rfl).1
            omega
          simp only
          rw [if_neg (by omega), if_neg hxn, hrest]
          constructor <;> simp [hi', hk, han]
          omega
    · obtain ⟨k, rfl⟩ : ∃ k, n = k + 1 := ⟨n - 1, by omega⟩
      simp only [Nat.add_sub_cancel] at h2 
      have hsk : w.s ≤ k := by omega
      have hne : arch w (k + 1) ≠ arch w k := by
        intro e; rw [e] at hi; exact hi h2
      have hd := arch_succ (w := w) hsk
      have han : arch w (k + 1) = k + 1 := (arch_step hsk).resolve_left hne
      have hcond : (w.key k = true ∧ w.key (k + 1) = false) ∨ arch w k + maxMc ≤ k + 1 := by
        by_cases h : (w.key k = true ∧ w.key (k + 1) = false) ∨ arch w k + maxMc ≤ k + 1
        · exact h
        · rw [if_neg h] at hd; exact absurd hd hne
      have hbk := arch_bounds (w := w) k hsk
      have hp : prevId items (k + 1) = some (arch w k) := by
        refine prevId_eq h2 (by omega) (fun x hx hxn => ?_)
        cases hix : items x with
        | false => rfl
        | true =>
          obtain ⟨m, hm1, hm2, rfl⟩ := h1 x hix
          by_cases hm : m = k + 1
          · subst hm; exact absurd hix hi
          · have := arch_mono (w := w) hm1 (show m ≤ k by omega)
            omega
      rw [han] at hi'
      unfold prepare
      simp only [hp]
      have hs1 : w.s < k + 1 := by omega
      cases hk : w.key (k + 1) with
      | true =>
        have hl : arch w k + maxMc ≤ k + 1 := hcond.resolve_left (by simp [hk])
        simp only [if_true]
        rw [rest_new hi' (.inr ⟨_, rfl, hl⟩)]
        constructor <;> simp [hi', hk, han, hs1]
      | false =>
        simp only [Bool.false_eq_true, if_false]
        cases hk1 : w.key k with
        | true =>
          have : over = some (k + 1) := (ho.split hk hs1 (by simpa using hk1)).resolve_right (by simp [hi'])
          subst this
          simp only [Nat.lt_irrefl, if_false, if_true]
          constructor <;> simp [hi', hk, han, hs1, hk1]
        | false =>
          have hl : arch w k + maxMc ≤ k + 1 := hcond.resolve_left (by simp [hk1])
          have hr : ∀ o, prepareRest items o (some (arch w k)) (k + 1) = (add items (k + 1), o, ⟨k + 1, true, none, some (arch w k)⟩) :=
            fun o => rest_new hi' (.inr ⟨_, rfl, hl⟩)
          cases over with
          | none =>
            simp only [hr]
            constructor <;> simp [hi', hk, han, hs1]
          | some x =>
            have hx := ho.le hk x rfl
            have hxn : k + 1 ≠ x := by
              rintro rfl
              have := (ho.key hk rfl).2
              simp [hk1] at this
            simp only
            rw [if_neg (by omega), if_neg hxn, hr]
            constructor <;> simp [hi', hk, han, hs1]

end Tycho.Archives
