import Verif.Archives.Spec
import Mathlib.Data.Nat.Init
import Mathlib.Data.List.Nodup

namespace Tycho.Archives

theorem prevId_some {items : Nat → Bool} {n a : Nat} (h : prevId items n = some a) : items a = true ∧ a ≤ n ∧ ∀ x, a < x → x ≤ n → items x = false := by
  induction n with
  | zero =>
    unfold prevId at h
    split at h
    · cases h; rename_i hi; exact ⟨hi, Nat.le_refl _, fun x h1 h2 => by omega⟩
    · cases h
  | succ n ih =>
    unfold prevId at h
    split at h
    · cases h; rename_i hi; exact ⟨hi, Nat.le_refl _, fun x h1 h2 => by omega⟩
    · rename_i hi
      obtain ⟨h1, h2, h3⟩ := ih h
      refine ⟨h1, by omega, fun x h4 h5 => ?_⟩
      by_cases hx : x = n + 1
      · subst hx; simpa using hi
      · exact h3 x h4 (by omega)

theorem prevId_none {items : Nat → Bool} {n : Nat} (h : prevId items n = none) : ∀ x ≤ n, items x = false := by
  induction n with
  | zero =>
    unfold prevId at h
    split at h
    · cases h
    · rename_i hi; intro x hx; obtain rfl : x = 0 := by omega
      simpa using hi
  | succ n ih =>
    unfold prevId at h
    split at h
    · cases h
    · rename_i hi
      intro x hx
      by_cases e : x = n + 1
      · subst e; simpa using hi
      · exact ih h x (by omega)

theorem prevId_eq {items : Nat → Bool} {n a : Nat} (h1 : items a = true) (h2 : a ≤ n) (h3 : ∀ x, a < x → x ≤ n → items x = false) : prevId items n = some a := by
  cases h : prevId items n with
  | none => rw [prevId_none h a h2] at h1; cases h1
  | some b =>
    obtain ⟨g1, g2, g3⟩ := prevId_some h
    rcases Nat.lt_trichotomy a b with hl | hl | hl
    · rw [h3 b hl g2] at g1; cases g1
    · rw [hl]
    · rw [g3 a hl h2] at h1; cases h1

theorem add_true {items : Nat → Bool} {a x : Nat} : add items a x = true ↔ x = a ∨ items x = true := by
  unfold add; split <;> simp_all

theorem mem_unique {l : List Nat} {x : Nat} : x ∈ unique l ↔ x ∈ l := by
  induction l with
  | nil => rfl
  | cons y l ih =>
    simp only [unique, List.mem_cons, List.mem_filter, ih, Bool.not_eq_true', decide_eq_false_iff_not]
    by_cases h : x = y <;> simp [h]

theorem nodup_unique (l : List Nat) : (unique l).Nodup := by
  induction l with
  | nil => exact List.nodup_nil
  | cons y l ih =>
    simp only [unique]
    refine List.nodup_cons.2 ⟨by simp, ih.filter _⟩

theorem mem_entries {l : List Nat} {t : Ty} {x : Nat} : (t, x) ∈ entries l ↔ x ∈ l := by
  cases t <;> simp [entries, mem_unique]

theorem nodup_entries (l : List Nat) : (entries l).Nodup := by
  have h := nodup_unique l
  simp only [entries, List.flatMap_cons, List.flatMap_nil, List.append_nil]
  have hm : ∀ t : Ty, ((unique l).map (fun x => (t, x))).Nodup := fun t => h.map (fun a b hab => by simpa using hab)
  refine List.nodup_append.2 ⟨hm _, List.nodup_append.2 ⟨hm _, hm _, ?_⟩, ?_⟩
  · intro a ha b hb hab
    subst hab
    simp only [List.mem_map] at ha hb
    obtain ⟨_, _, rfl⟩ := ha
    obtain ⟨_, _, hb⟩ := hb
    cases hb
  · intro a ha b hb hab
    subst hab
    simp only [List.mem_map, List.mem_append] at ha hb
    obtain ⟨_, _, rfl⟩ := ha
    rcases hb with ⟨_, _, hb⟩ | ⟨_, _, hb⟩ <;> cases hb

theorem good_entries {w : World} {a : Nat} {l : List Nat} (h : ∀ x, x ∈ l ↔ ∃ n, w.s ≤ n ∧ arch w n = a ∧ x ∈ w.blocks n) : Good w a (entries l) :=
  ⟨nodup_entries l, fun t x => by rw [mem_entries, h]⟩

end Tycho.Archives
