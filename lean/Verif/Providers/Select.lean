import Verif.Providers.Model
import Mathlib.Tactic.ByContra

namespace Tycho.Providers

/-- `fs[i]` has a block `x` after `k` polls; no other one has a block earlier, or at the same time but further left. -/
def Winner {α : Type} (fs : List (Option (Fut α))) (i k : Nat) (x : α) : Prop :=
  fs[i]? = some (some ⟨k, some x⟩) ∧
  ∀ j f, fs[j]? = some (some f) → f.result.isSome → k < f.pending ∨ (k = f.pending ∧ i ≤ j)

/-- Every future ends without a block, the last one after `k` polls. -/
def AllNone {α : Type} (fs : List (Option (Fut α))) (k : Nat) : Prop :=
  (∀ (j : Nat) f, fs[j]? = some (some f) → f.result = none ∧ f.pending ≤ k) ∧
  (0 < k → ∃ (j : Nat) (f : Fut α), fs[j]? = some (some f) ∧ f.pending = k)

def ready {α : Type} : Option (Fut α) → Option α
  | some ⟨0, some x⟩ => some x
  | _ => none

def after {α : Type} : Option (Fut α) → Option (Fut α)
  | some ⟨k + 1, r⟩ => some ⟨k, r⟩
  | _ => none

theorem poll_eq {α : Type} (fs : List (Option (Fut α))) :
    poll fs = match fs.findSome? ready with
      | some x => .inl (some x)
      | none => .inr (fs.map after, fs.all (fun f => (after f).isNone)) := by
  induction fs with
  | nil => rfl
  | cons f fs ih =>
    cases f with
    | none =>
      simp only [poll, ih, List.findSome?_cons, ready]
      cases fs.findSome? ready <;> simp [after]
    | some f =>
      obtain ⟨p, r⟩ := f
      cases p with
      | zero =>
        cases r with
        | some x => simp [poll, List.findSome?_cons, ready]
        | none =>
          simp only [poll, ih, List.findSome?_cons, ready]
          cases fs.findSome? ready <;> simp [after]
      | succ k =>
        simp only [poll, ih, List.findSome?_cons, ready]
        cases fs.findSome? ready <;> simp [after]

theorem ready_some {α : Type} (f : Option (Fut α)) (x : α) : ready f = some x ↔ f = some ⟨0, some x⟩ := by
  cases f with
  | none => simp [ready]
  | some f =>
    obtain ⟨p, r⟩ := f
    cases p <;> cases r <;> simp [ready]

theorem after_some {α : Type} (f : Option (Fut α)) (k : Nat) (r : Option α) : after f = some ⟨k, r⟩ ↔ f = some ⟨k + 1, r⟩ := by
  cases f with
  | none => simp [after]
  | some f =>
    obtain ⟨p, r⟩ := f
    cases p <;> simp [after]

theorem found {α : Type} (fs : List (Option (Fut α))) (x : α) :
    fs.findSome? ready = some x ↔ ∃ i, Winner fs i 0 x := by
  induction fs with
  | nil => simp [Winner]
  | cons f fs ih =>
    rw [List.findSome?_cons]
    cases hr : ready f with
    | some y =>
      have hf := (ready_some f y).1 hr
      subst hf
      constructor
      · intro h
        cases h
        refine ⟨0, rfl, fun j g _ _ => ?_⟩
        by_cases hg : g.pending = 0
        · right; omega
        · left; omega
      · rintro ⟨i, h1, h2⟩
        have := h2 0 ⟨0, some y⟩ rfl rfl
        have hi : i = 0 := by simp at this; omega
        subst hi
        simp at h1
        rw [h1]
    | none =>
      dsimp only
      rw [ih]
      constructor
      · rintro ⟨i, h1, h2⟩
        refine ⟨i + 1, by simpa using h1, ?_⟩
        intro j g hj hg
        cases j with
        | zero =>
          simp only [List.getElem?_cons_zero, Option.some.injEq] at hj
          subst hj
          obtain ⟨p, r⟩ := g
          cases p with
          | zero => cases r with
            | none => simp at hg
            | some z => simp [ready] at hr
          | succ p => simp
        | succ j =>
          have := h2 j g (by simpa using hj) hg
          omega
      · rintro ⟨i, h1, h2⟩
        cases i with
        | zero =>
          simp only [List.getElem?_cons_zero, Option.some.injEq] at h1
          subst h1
          simp [ready] at hr
        | succ i =>
          refine ⟨i, by simpa using h1, fun j g hj hg => ?_⟩
          have := h2 (j + 1) g (by simpa using hj) hg
          omega

theorem getElem?_after {α : Type} (fs : List (Option (Fut α))) (j k : Nat) (r : Option α) :
    (fs.map after)[j]? = some (some ⟨k, r⟩) ↔ fs[j]? = some (some ⟨k + 1, r⟩) := by
  rw [List.getElem?_map]
  cases fs[j]? with
  | none => simp
  | some f => simp only [Option.map_some, Option.some.injEq]; exact after_some f k r

theorem winner_after {α : Type} (fs : List (Option (Fut α))) (hn : fs.findSome? ready = none) (i k : Nat) (x : α) :
    Winner (fs.map after) i k x ↔ Winner fs i (k + 1) x := by
  unfold Winner
  rw [getElem?_after]
  refine and_congr_right fun _ => ⟨fun h j f hj hf => ?_, fun h j f hj hf => ?_⟩
  · obtain ⟨p, r⟩ := f
    cases p with
    | zero =>
      cases r with
      | none => simp at hf
      | some z =>
        have := List.findSome?_eq_none_iff.1 hn _ (List.mem_of_getElem? hj)
        simp [ready] at this
    | succ p =>
      have := h j ⟨p, r⟩ ((getElem?_after fs j p r).2 hj) hf
      simp only at this ⊢
      omega
  · obtain ⟨p, r⟩ := f
    have := h j ⟨p + 1, r⟩ ((getElem?_after fs j p r).1 hj) hf
    simp only at this ⊢
    omega

theorem allNone_after {α : Type} (fs : List (Option (Fut α))) (hn : fs.findSome? ready = none)
    (hd : fs.all (fun f => (after f).isNone) = false) (k : Nat) :
    AllNone fs k ↔ ∃ k', k = k' + 1 ∧ AllNone (fs.map after) k' := by
  obtain ⟨f0, hf0, hf0'⟩ : ∃ f ∈ fs, (after f).isNone = false := by
    have : ¬ (∀ f ∈ fs, (after f).isNone = true) := by
      intro h
      rw [List.all_eq_true.2 h] at hd
      cases hd
    by_contra hc
    apply this
    intro f hf
    cases hb : (after f).isNone with
    | true => rfl
    | false => exact absurd ⟨f, hf, hb⟩ hc
  obtain ⟨p0, r0, rfl⟩ : ∃ p r, f0 = some ⟨p + 1, r⟩ := by
    cases f0 with
    | none => simp [after] at hf0'
    | some f =>
      obtain ⟨p, r⟩ := f
      cases p with
      | zero => simp [after] at hf0'
      | succ p => exact ⟨p, r, rfl⟩
  obtain ⟨j0, hj0⟩ := List.mem_iff_getElem?.1 hf0
  constructor
  · rintro ⟨h1, h2⟩
    have hk := (h1 j0 _ hj0).2
    simp only at hk
    obtain ⟨k', rfl⟩ : ∃ k', k = k' + 1 := ⟨k - 1, by omega⟩
    refine ⟨k', rfl, ?_, ?_⟩
    · rintro j ⟨p, r⟩ hj
      have := h1 j _ ((getElem?_after fs j p r).1 hj)
      simp only at this ⊢
      exact ⟨this.1, by omega⟩
    · intro _
      obtain ⟨j, ⟨p, r⟩, hj, hp⟩ := h2 (by omega)
      simp only at hp
      subst hp
      exact ⟨j, ⟨k', r⟩, (getElem?_after fs j k' r).2 hj, rfl⟩
  · rintro ⟨k', rfl, h1, h2⟩
    refine ⟨?_, ?_⟩
    · rintro j ⟨p, r⟩ hj
      cases p with
      | zero =>
        cases r with
        | none => exact ⟨rfl, by simp⟩
        | some z =>
          have := List.findSome?_eq_none_iff.1 hn _ (List.mem_of_getElem? hj)
          simp [ready] at this
      | succ p =>
        have := h1 j ⟨p, r⟩ ((getElem?_after fs j p r).2 hj)
        simp only at this ⊢
        exact ⟨this.1, by omega⟩
    · intro _
      by_cases hk : 0 < k'
      · obtain ⟨j, ⟨p, r⟩, hj, hp⟩ := h2 hk
        simp only at hp
        subst hp
        exact ⟨j, _, (getElem?_after fs j p r).1 hj, rfl⟩
      · have := (h1 j0 _ ((getElem?_after fs j0 p0 r0).2 hj0)).2
        simp only at this
        exact ⟨j0, _, hj0, by simp only; omega⟩

/-- Select: the first future that ends with a block wins (the leftmost one if several end at once). -/
theorem select_some {α : Type} (fuel : Nat) (fs : List (Option (Fut α))) (x : α) (k : Nat) :
    select fuel fs = some (some x, k) ↔ k < fuel ∧ ∃ i, Winner fs i k x := by
  induction fuel generalizing fs k with
  | zero => simp [select]
  | succ fuel ih =>
    unfold select
    rw [poll_eq]
    cases hr : fs.findSome? ready with
    | some y =>
      dsimp only
      obtain ⟨i, hw⟩ := (found fs y).1 hr
      constructor
      · intro h; cases h; exact ⟨Nat.succ_pos _, i, hw⟩
      · rintro ⟨_, i', hw'⟩
        have a := hw.2 i' _ hw'.1 rfl
        have b := hw'.2 i _ hw.1 rfl
        simp only at a b
        have hii : i = i' := by omega
        have hk : k = 0 := by omega
        subst hii; subst hk
        have := hw.1.symm.trans hw'.1
        simp at this
        rw [this]
    | none =>
      dsimp only
      have h0 : ∀ i, ¬ Winner fs i 0 x := fun i hi => by
        have := (found fs x).2 ⟨i, hi⟩; rw [hr] at this; cases this
      cases hd : fs.all (fun f => (after f).isNone) with
      | true =>
        simp only
        constructor
        · intro h; cases h
        · rintro ⟨_, i, hw⟩
          cases k with
          | zero => exact absurd hw (h0 i)
          | succ k =>
            have := List.all_eq_true.1 hd _ (List.mem_of_getElem? hw.1)
            simp [after] at this
      | false =>
        simp only [Option.map_eq_some_iff, Prod.exists, Prod.mk.injEq]
        constructor
        · rintro ⟨a, b, h, rfl, rfl⟩
          obtain ⟨h1, i, h2⟩ := (ih _ _).1 h
          exact ⟨by omega, i, (winner_after fs hr i b x).1 h2⟩
        · rintro ⟨h1, i, hw⟩
          cases k with
          | zero => exact absurd hw (h0 i)
          | succ k => exact ⟨_, k, (ih _ _).2 ⟨by omega, i, (winner_after fs hr i k x).2 hw⟩, rfl, rfl⟩

/-- Select: no block is reported only after every future has ended without one. -/
theorem select_none {α : Type} (fuel : Nat) (fs : List (Option (Fut α))) (k : Nat) :
    select fuel fs = some (none, k) ↔ k < fuel ∧ AllNone fs k := by
  induction fuel generalizing fs k with
  | zero => simp [select]
  | succ fuel ih =>
    unfold select
    rw [poll_eq]
    cases hr : fs.findSome? ready with
    | some y =>
      dsimp only
      obtain ⟨i, hw⟩ := (found fs y).1 hr
      constructor
      · intro h; cases h
      · rintro ⟨_, h, _⟩
        have := (h i _ hw.1).1
        cases this
    | none =>
      dsimp only
      cases hd : fs.all (fun f => (after f).isNone) with
      | true =>
        simp only [Option.some.injEq, Prod.mk.injEq, true_and]
        have hz : ∀ (j : Nat) (f : Fut α), fs[j]? = some (some f) → f.result = none ∧ f.pending = 0 := by
          rintro j ⟨p, r⟩ hj
          have h1 := List.all_eq_true.1 hd _ (List.mem_of_getElem? hj)
          have h2 := List.findSome?_eq_none_iff.1 hr _ (List.mem_of_getElem? hj)
          cases p <;> cases r <;> simp [after, ready] at h1 h2 ⊢
        constructor
        · rintro rfl
          exact ⟨Nat.succ_pos _, fun j f hj => ⟨(hz j f hj).1, Nat.le_of_eq (hz j f hj).2⟩, fun h => absurd h (Nat.lt_irrefl _)⟩
        · rintro ⟨_, _, h⟩
          by_contra hk
          obtain ⟨j, f, hj, hp⟩ := h (by omega)
          have := (hz j f hj).2
          omega
      | false =>
        simp only [Option.map_eq_some_iff, Prod.exists, Prod.mk.injEq]
        rw [allNone_after fs hr hd]
        constructor
        · rintro ⟨a, b, h, rfl, rfl⟩
          obtain ⟨h1, h2⟩ := (ih _ _).1 h
          exact ⟨by omega, b, rfl, h2⟩
        · rintro ⟨h1, k', rfl, h2⟩
          exact ⟨_, k', (ih _ _).2 ⟨by omega, h2⟩, rfl, rfl⟩

end Tycho.Providers
