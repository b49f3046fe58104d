import Verif.OrderedMap.Model

namespace Tycho.OrderedMap
variable {K V : Type} [LinearOrder K] [LinearOrder V]

/-- Sorted by value and key. -/
def Sorted (l : List (K × V)) : Prop := l.Pairwise fun a b => ord a < ord b

/-- What holds of the entries of every map. -/
structure Ok (m : Map K V) : Prop where
  sorted : Sorted m.inner
  nodup : (m.inner.map (·.1)).Nodup
  len : m.inner.length ≤ m.maxLen

theorem ord_inj {a b : K × V} (h : ord a = ord b) : a = b := by
  simp only [ord, EmbeddingLike.apply_eq_iff_eq, Prod.mk.injEq] at h
  exact Prod.ext h.2 h.1

theorem pos_split (l : List (K × V)) (h : Sorted l) (e : K × V) :
    ∃ a b, l = a ++ b ∧ pos l e = a.length ∧ (∀ x ∈ a, ord x < ord e) ∧ ∀ x ∈ b, ord e ≤ ord x := by
  induction l with
  | nil => exact ⟨[], [], rfl, rfl, by simp, by simp⟩
  | cons x l ih =>
    obtain ⟨h1, h2⟩ := List.pairwise_cons.mp h
    by_cases hx : ord x < ord e
    · obtain ⟨a, b, e1, e2, e3, e4⟩ := ih h2
      refine ⟨x :: a, b, by rw [e1]; rfl, ?_, ?_, e4⟩
      · unfold pos at e2 ⊢
        rw [List.findIdx_cons]
        simp [hx, e2]
      · intro y hy
        rcases List.mem_cons.mp hy with rfl | hy
        · exact hx
        · exact e3 y hy
    · refine ⟨[], x :: l, rfl, ?_, by simp, ?_⟩
      · unfold pos
        rw [List.findIdx_cons]
        simp [hx]
      · intro y hy
        rcases List.mem_cons.mp hy with rfl | hy
        · exact not_lt.mp hx
        · exact le_trans (not_lt.mp hx) (le_of_lt (h1 y hy))

theorem insert_mid (a b : List (K × V)) (e : K × V) : (a ++ b).insertIdx a.length e = a ++ e :: b := by
  induction a with
  | nil => simp
  | cons x a ih => simp [ih]

/-- An entry put between the lesser and the greater ones. -/
theorem sorted_mid {a b : List (K × V)} {e : K × V} (h : Sorted (a ++ b)) (ha : ∀ x ∈ a, ord x < ord e)
    (hb : ∀ x ∈ b, ord e < ord x) : Sorted (a ++ e :: b) := by
  unfold Sorted at *
  rw [List.pairwise_append] at h ⊢
  refine ⟨h.1, List.pairwise_cons.mpr ⟨hb, h.2.1⟩, ?_⟩
  intro x hx y hy
  rcases List.mem_cons.mp hy with rfl | hy
  · exact ha x hx
  · exact h.2.2 x hx y hy

theorem find_of_mem {l : List (K × V)} (hn : (l.map (·.1)).Nodup) {e : K × V} (he : e ∈ l) :
    l.find? (fun x => decide (x.1 = e.1)) = some e := by
  induction l with
  | nil => cases he
  | cons x l ih =>
    simp only [List.map_cons, List.nodup_cons] at hn
    rcases List.mem_cons.mp he with rfl | he
    · simp
    · have : x.1 ≠ e.1 := fun h => hn.1 (h ▸ List.mem_map_of_mem he)
      rw [List.find?_cons_of_neg (by simpa using this)]
      exact ih hn.2 he

/-- Entry and key agree. -/
theorem get_iff {m : Map K V} (h : Ok m) {k v} : get m k = some v ↔ (k, v) ∈ m.inner := by
  unfold get
  constructor
  · intro hg
    obtain ⟨e, he, rfl⟩ := Option.map_eq_some_iff.mp hg
    have h1 := List.mem_of_find?_eq_some he
    have h2 := List.find?_some he
    simp only [decide_eq_true_eq] at h2
    subst h2; exact h1
  · intro hm
    rw [find_of_mem h.nodup hm]; rfl

theorem erase_mem {a b : List (K × V)} {x : K × V} (hn : ((a ++ x :: b).map (·.1)).Nodup) :
    ∀ e, e ∈ a ++ b ↔ e ∈ a ++ x :: b ∧ e.1 ≠ x.1 := by
  intro e
  simp only [List.map_append, List.map_cons, List.nodup_append, List.nodup_cons] at hn
  obtain ⟨_, ⟨h2, _⟩, h3⟩ := hn
  simp only [List.mem_append, List.mem_cons]
  constructor
  · rintro (h | h)
    · exact ⟨.inl h, fun k => h3 e.1 (List.mem_map_of_mem h) x.1 (by simp) k⟩
    · exact ⟨.inr (.inr h), fun k => h2 (k ▸ List.mem_map_of_mem h)⟩
  · rintro ⟨h | rfl | h, hk⟩
    · exact .inl h
    · exact absurd rfl hk
    · exact .inr h

/-- The update of a present key. -/
theorem move_spec {l : List (K × V)} (hs : Sorted l) (hn : (l.map (·.1)).Nodup) {i : Nat} {k : K} {v : V} {old : K × V}
    (hi : l[i]? = some old) (hk : old.1 = k) :
    ∃ t l', (if i < pos l (k, v) then sub1 (pos l (k, v)) else some (pos l (k, v))) = some t ∧
      moveIndex l i t (k, v) = some l' ∧ Sorted l' ∧ (l'.map (·.1)).Nodup ∧ l'.length = l.length ∧
      ∀ e, e ∈ l' ↔ e = (k, v) ∨ (e ∈ l ∧ e.1 ≠ k) := by
  obtain ⟨a, b, e1, e2, e3, e4⟩ := pos_split l hs (k, v)
  obtain ⟨hil, hio⟩ := List.getElem?_eq_some_iff.mp hi
  have fin : ∀ a' b' : List (K × V), (∀ x ∈ a', ord x < ord (k, v)) → (∀ x ∈ b', ord (k, v) ≤ ord x) →
      (a' ++ b').Sublist l → (∀ e, e ∈ a' ++ b' ↔ e ∈ l ∧ e.1 ≠ k) →
      Sorted (a' ++ (k, v) :: b') ∧ ((a' ++ (k, v) :: b').map (·.1)).Nodup ∧
      ∀ e, e ∈ a' ++ (k, v) :: b' ↔ e = (k, v) ∨ (e ∈ l ∧ e.1 ≠ k) := by
    intro a' b' ha hb hsub hmem
    refine ⟨sorted_mid (hs.sublist hsub) ha ?_, ?_, ?_⟩
    · intro x hx
      refine lt_of_le_of_ne (hb x hx) (fun h => ?_)
      have := ord_inj h
      exact ((hmem x).mp (by simp [hx])).2 (by rw [← this])
    · have h1 : ((a' ++ b').map (·.1)).Nodup := hn.sublist (hsub.map _)
      have h2 : k ∉ (a' ++ b').map (·.1) := by
        rintro hm
        obtain ⟨e, he, hek⟩ := List.mem_map.mp hm
        exact ((hmem e).mp he).2 hek
      have hp : (a' ++ (k, v) :: b').Perm ((k, v) :: (a' ++ b')) := List.perm_middle
      exact (hp.map _).nodup_iff.mpr (by simpa using ⟨by simpa using h2, by simpa using h1⟩)
    · intro e
      rw [← hmem]
      simp only [List.mem_append, List.mem_cons]
      tauto
  by_cases hip : i < pos l (k, v)
  · rw [if_pos hip]
    rw [e2] at hip ⊢
    have hao : a[i]? = some old := by rw [e1, List.getElem?_append_left hip] at hi; exact hi
    obtain ⟨a1, a2, ea, hlen⟩ : ∃ a1 a2, a = a1 ++ old :: a2 ∧ a1.length = i := by
      obtain ⟨hi', ho⟩ := List.getElem?_eq_some_iff.mp hao
      exact ⟨a.take i, a.drop (i + 1), by rw [← ho, ← List.drop_eq_getElem_cons hi', List.take_append_drop], by simp; omega⟩
    subst ea; subst hlen; subst e1
    have hl : (a1 ++ old :: a2 ++ b).eraseIdx a1.length = (a1 ++ a2) ++ b := by
      rw [List.append_assoc, List.eraseIdx_append_of_length_le (Nat.le_refl _)]; simp
    refine ⟨(a1 ++ a2).length, (a1 ++ a2) ++ (k, v) :: b, by simp [sub1] <;> omega, ?_, ?_⟩
    · unfold moveIndex
      rw [if_pos (by simp; omega), hl, insert_mid]
    · have := fin (a1 ++ a2) b (fun x hx => e3 x (by simp at hx ⊢; tauto)) e4
        (by simp only [List.append_assoc]; exact List.Sublist.append_left (by simp) _) (by
          intro e
          have := erase_mem (a := a1) (b := a2 ++ b) (x := old) (by simpa using hn) e
          rw [← hk]; simpa using this)
      exact ⟨this.1, this.2.1, by simp <;> omega, this.2.2⟩
  · rw [if_neg hip]
    rw [e2] at hip ⊢
    have hbo : b[i - a.length]? = some old := by rw [e1, List.getElem?_append_right (by omega)] at hi; exact hi
    obtain ⟨b1, b2, eb, hlen⟩ : ∃ b1 b2, b = b1 ++ old :: b2 ∧ b1.length = i - a.length := by
      obtain ⟨hi', ho⟩ := List.getElem?_eq_some_iff.mp hbo
      exact ⟨b.take (i - a.length), b.drop (i - a.length + 1), by rw [← ho, ← List.drop_eq_getElem_cons hi', List.take_append_drop], by simp; omega⟩
    subst eb; subst e1
    have hi' : i = a.length + b1.length := by omega
    have hl : (a ++ (b1 ++ old :: b2)).eraseIdx i = a ++ (b1 ++ b2) := by
      have : i - a.length = b1.length := by omega
      rw [List.eraseIdx_append_of_length_le (by omega), this, List.eraseIdx_append_of_length_le (Nat.le_refl _)]
      simp
    refine ⟨a.length, a ++ (k, v) :: (b1 ++ b2), rfl, ?_, ?_⟩
    · unfold moveIndex
      rw [if_pos (by simp only [List.length_append, List.length_cons]; omega), hl, insert_mid]
    · have := fin a (b1 ++ b2) e3 (fun x hx => e4 x (by simp at hx ⊢; tauto))
        (List.Sublist.append_left (List.Sublist.append_left (by simp) _) _) (by
          intro e
          have := erase_mem (a := a ++ b1) (b := b2) (x := old) (by simpa using hn) e
          rw [← hk]; simpa using this)
      exact ⟨this.1, this.2.1, by simp <;> omega, this.2.2⟩

/-- A new entry put into its place. -/
theorem place_spec {l a b : List (K × V)} (hs : Sorted l) (hn : (l.map (·.1)).Nodup) {k : K} {v : V}
    (hk : k ∉ l.map (·.1)) (e1 : l = a ++ b) (e3 : ∀ x ∈ a, ord x < ord (k, v)) (e4 : ∀ x ∈ b, ord (k, v) ≤ ord x) :
    Sorted (a ++ (k, v) :: b) ∧ ((a ++ (k, v) :: b).map (·.1)).Nodup ∧
      (a ++ (k, v) :: b).length = l.length + 1 ∧ ∀ e, e ∈ a ++ (k, v) :: b ↔ e = (k, v) ∨ e ∈ l := by
  subst e1
  refine ⟨sorted_mid hs e3 ?_, ?_, by simp; omega, ?_⟩
  · intro x hx
    refine lt_of_le_of_ne (e4 x hx) (fun h => hk ?_)
    rw [← ord_inj h] at hx
    exact List.mem_map.mpr ⟨(k, v), by simp [hx], rfl⟩
  · have hp : (a ++ (k, v) :: b).Perm ((k, v) :: (a ++ b)) := List.perm_middle
    exact (hp.map _).nodup_iff.mpr (by simpa using ⟨by simpa using hk, by simpa using hn⟩)
  · intro e; simp only [List.mem_append, List.mem_cons]; tauto

end Tycho.OrderedMap
