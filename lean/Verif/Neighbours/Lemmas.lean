import Mathlib.Data.List.Perm.Basic
import Verif.Neighbours.Model

namespace Tycho.Neighbours

/-- The neighbours of an index with their weights. -/
def weights (stats : Nat → Stats) (l : List Nb) : List (Nb × Nat) :=
  l.filterMap fun n => ((stats n.id).selection).map fun w => (n, w)

/-- Cumulative weights. -/
def cumul (a : Nat) : List (Nb × Nat) → List (Nb × Nat)
  | [] => []
  | e :: l => (e.1, a + e.2) :: cumul (a + e.2) l

def sumW (l : List (Nb × Nat)) : Nat := (l.map (·.2)).sum

theorem buildFrom_eq (stats : Nat → Stats) (l : List Nb) (a : Nat) :
    buildFrom stats a l = cumul a (weights stats l) := by
  induction l generalizing a with
  | nil => rfl
  | cons n l ih =>
    unfold buildFrom weights
    cases hs : (stats n.id).selection with
    | none => simp only [hs, List.filterMap_cons, Option.map_none]; exact ih a
    | some w => simp only [hs, List.filterMap_cons, Option.map_some, cumul]; rw [ih]; rfl

theorem cumul_last (a : Nat) (l : List (Nb × Nat)) :
    ((cumul a l).getLast?.map (·.2)).getD a = a + sumW l := by
  induction l generalizing a with
  | nil => simp [cumul, sumW]
  | cons e l ih =>
    have := ih (a + e.2)
    cases l with
    | nil => simp [cumul, sumW]
    | cons f l =>
      have h1 : ∀ x, ((cumul a (e :: f :: l)).getLast?.map (·.2)).getD x = ((cumul (a + e.2) (f :: l)).getLast?.map (·.2)).getD (a + e.2) := by
        intro x
        simp only [cumul, List.getLast?_cons_cons]
        simp [List.getLast?_cons]
      rw [h1, this]; simp only [sumW, List.map_cons, List.sum_cons]; omega

theorem build_items (stats : Nat → Stats) (l : List Nb) : (build stats l).items = cumul 0 (weights stats l) := by
  unfold build; exact buildFrom_eq stats l 0

theorem build_total (stats : Nat → Stats) (l : List Nb) : (build stats l).total = sumW (weights stats l) := by
  unfold build
  dsimp only
  rw [buildFrom_eq]
  have := cumul_last 0 (weights stats l)
  simpa using this

theorem pick_cons (e : Nb × Nat) (l : List (Nb × Nat)) (r : Nat) :
    pick (e :: l) r = if r < e.2 then some e.1 else pick l r := by
  unfold pick
  rw [List.findIdx_cons]
  by_cases h : r < e.2
  · have : ¬ e.2 ≤ r := by omega
    simp [this, h]
  · have : e.2 ≤ r := by omega
    simp [this, h]

/-- How many of the random numbers choose a neighbour: as many as its weight. -/
theorem share (n : Nb) (ws : List (Nb × Nat)) (a : Nat) :
    ((List.range' a (sumW ws)).countP fun r => pick (cumul a ws) r = some n) =
      ((ws.filter fun e => e.1 = n).map (·.2)).sum := by
  induction ws generalizing a with
  | nil => simp [sumW]
  | cons e ws ih =>
    have hs : sumW (e :: ws) = e.2 + sumW ws := by simp [sumW]
    rw [hs, ← List.range'_append_1, List.countP_append]
    have h1 : ((List.range' a e.2).countP fun r => pick (cumul a (e :: ws)) r = some n) = if e.1 = n then e.2 else 0 := by
      have : ∀ r ∈ List.range' a e.2, (decide (pick (cumul a (e :: ws)) r = some n)) = decide (e.1 = n) := by
        intro r hr
        rw [List.mem_range'_1] at hr
        simp only [cumul, pick_cons, if_pos hr.2, Option.some.injEq]
      rw [List.countP_congr (p := _) (q := fun _ => decide (e.1 = n)) (fun r hr => by rw [this r hr])]
      by_cases h : e.1 = n
      · simp [h]
      · simp [h]
    have h2 : ((List.range' (a + e.2) (sumW ws)).countP fun r => pick (cumul a (e :: ws)) r = some n) =
        ((List.range' (a + e.2) (sumW ws)).countP fun r => pick (cumul (a + e.2) ws) r = some n) := by
      refine List.countP_congr (fun r hr => ?_)
      rw [List.mem_range'_1] at hr
      simp only [cumul, pick_cons]
      rw [if_neg (by omega)]
    rw [h1, h2, ih]
    by_cases h : e.1 = n
    · simp [h]
    · simp [h]

theorem pick_some (ws : List (Nb × Nat)) (a r : Nat) (h0 : a ≤ r) (h : r < a + sumW ws) :
    ∃ e ∈ ws, pick (cumul a ws) r = some e.1 := by
  induction ws generalizing a with
  | nil => simp [sumW] at h; omega
  | cons e ws ih =>
    simp only [cumul, pick_cons]
    by_cases hr : r < a + e.2
    · exact ⟨e, by simp, by rw [if_pos hr]⟩
    · rw [if_neg hr]
      obtain ⟨f, h1, h2⟩ := ih (a + e.2) (by omega) (by simp only [sumW, List.map_cons, List.sum_cons] at h ⊢; omega)
      exact ⟨f, by simp [h1], h2⟩

theorem cumul_nil {a : Nat} {l : List (Nb × Nat)} : cumul a l = [] ↔ l = [] := by
  cases l <;> simp [cumul]

theorem cumul_map (a : Nat) (l : List (Nb × Nat)) : (cumul a l).map (·.1) = l.map (·.1) := by
  induction l generalizing a with
  | nil => rfl
  | cons e l ih => simp [cumul, ih]

/-- The weights less the fines, at least 1. -/
def fined (fine : Nat → Nat) (l : List (Nb × Nat)) : List (Nb × Nat) :=
  l.map fun e => (e.1, max (e.2 - fine e.1.peer) 1)

theorem adjustFrom_eq (fine : Nat → Nat) (ws : List (Nb × Nat)) (hp : ∀ e ∈ ws, 0 < e.2) (a b : Nat) :
    adjustFrom fine a b (cumul a ws) = some (cumul b (fined fine ws)) := by
  induction ws generalizing a b with
  | nil => rfl
  | cons e ws ih =>
    have he := hp e (by simp)
    simp only [cumul, adjustFrom]
    rw [if_neg (by omega), ih (fun f hf => hp f (by simp [hf]))]
    simp only [Option.map_some, fined, List.map_cons, cumul, Option.some.injEq, List.cons.injEq, Prod.mk.injEq, true_and]
    rw [show a + e.2 - a = e.2 by omega]
    exact ⟨rfl, rfl⟩

theorem mem_weights {stats : Nat → Stats} {l : List Nb} {n : Nb} {w : Nat} :
    (n, w) ∈ weights stats l ↔ n ∈ l ∧ (stats n.id).selection = some w := by
  unfold weights
  rw [List.mem_filterMap]
  constructor
  · rintro ⟨m, hm, h⟩
    cases hs : (stats m.id).selection with
    | none => rw [hs] at h; cases h
    | some v => rw [hs] at h; cases h; exact ⟨hm, hs⟩
  · rintro ⟨hm, hs⟩
    exact ⟨n, hm, by rw [hs]; rfl⟩

theorem weights_map (stats : Nat → Stats) (l : List Nb) :
    (weights stats l).map (·.1) = l.filter fun n => ((stats n.id).selection).isSome := by
  induction l with
  | nil => rfl
  | cons n l ih =>
    unfold weights at ih ⊢
    cases hs : (stats n.id).selection with
    | none => simp [List.filterMap_cons, hs, ih]
    | some w => simp [List.filterMap_cons, hs, ih]

/-! ## Scores -/

theorem digits_le (b : Nat) : (digits b).1 ≤ (digits b).2 * 65535 := by
  induction b using Nat.strong_induction_on with
  | _ b ih =>
    unfold digits
    by_cases h : b = 0
    · simp [h]
    · rw [dif_neg h]
      have := ih (b / 65536) (by omega)
      dsimp only
      omega

theorem avg_le {b v : Nat} (h : avgTime b = some v) : v < 65536 := by
  unfold avgTime at h
  dsimp only at h
  split at h
  · cases h
  · cases h; omega

/-- The bounds of a selection score. -/
theorem selection_bounds {s : Stats} (hs : s.score ≤ 128) {w : Nat} (h : s.selection = some w) : 16 ≤ w ∧ w ≤ 144 := by
  have key : ∀ x, (if threshold ≤ x then some x else none) = some w → x ≤ 144 → 16 ≤ w ∧ w ≤ 144 := by
    intro x hx hle
    by_cases h : threshold ≤ x
    · rw [if_pos h] at hx; cases hx; exact ⟨h, hle⟩
    · rw [if_neg h] at hx; cases hx
  unfold Stats.selection at h
  refine key _ h ?_
  split
  · omega
  · split
    · split
      · split <;> omega
      · omega
    · omega

/-! ## The set -/

theorem swapRemove_sub {l : List Nb} {i : Nat} : ∀ x ∈ swapRemove l i, x ∈ l := by
  intro x hx
  unfold swapRemove at hx
  cases hl : l.getLast? with
  | none => rw [hl] at hx; exact hx
  | some e =>
    rw [hl] at hx
    have := (List.dropLast_sublist _).subset hx
    rcases List.mem_or_eq_of_mem_set this with h | h
    · exact h
    · rw [h]; exact List.mem_of_getLast? hl

/-- Taking out of the middle, the last entry takes the place. -/
theorem swapRemove_perm {l : List Nb} {i : Nat} (hi : i < l.length) : (swapRemove l i).Perm (l.eraseIdx i) := by
  obtain ⟨e, hl⟩ : ∃ e, l.getLast? = some e := by
    cases l with
    | nil => simp at hi
    | cons a l => exact ⟨_, List.getLast?_cons⟩
  obtain ⟨k, hk⟩ := List.getLast?_eq_some_iff.mp hl
  unfold swapRemove
  rw [hl]
  subst hk
  dsimp only
  by_cases h : i < k.length
  · rw [List.set_append_left _ _ h, List.dropLast_concat, List.eraseIdx_append_of_lt_length h]
    have h1 : (k.set i e).Perm (e :: k.eraseIdx i) := by
      exact List.set_perm_cons_eraseIdx h e
    exact h1.trans (List.perm_append_singleton e (k.eraseIdx i)).symm
  · have : i = k.length := by simp at hi; omega
    subst this
    rw [List.set_append_right _ _ (Nat.le_refl _), List.eraseIdx_append_of_length_le (Nat.le_refl _)]
    simp

end Tycho.Neighbours
