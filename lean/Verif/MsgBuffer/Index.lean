import Verif.MsgBuffer.Loops

/-! ## The slot index -/
namespace Tycho.MsgBuffer

open Tycho.Table

theorem presize_getD (ix : List (List Nat)) (len m : Nat) : (presize ix len).getD m [] = ix.getD m [] := by
  unfold presize
  simp only [List.getD_eq_getElem?_getD]
  by_cases h : m < ix.length
  · rw [List.getElem?_append_left h]
  · rw [List.getElem?_append_right (by omega), List.getElem?_eq_none (l := ix) (by omega), List.getElem?_replicate]
    split <;> rfl

theorem presize_length (ix : List (List Nat)) (len : Nat) : len < (presize ix len).length := by
  unfold presize
  rw [List.length_append, List.length_replicate]; omega

theorem mem_insertId (l : List Nat) (x y : Nat) : y ∈ insertId l x ↔ y ∈ l ∨ y = x := by
  unfold insertId
  split
  · constructor
    · exact Or.inl
    · rintro (h | rfl)
      · exact h
      · assumption
  · simp

theorem mem_indexAdd (ix : List (List Nat)) (n sid m x : Nat) : x ∈ (indexAdd ix n sid).getD m [] ↔ x ∈ ix.getD m [] ∨ (m = n ∧ x = sid) := by
  have hl := presize_length ix n
  have hp := presize_getD ix n m
  unfold indexAdd
  simp only [List.getD_eq_getElem?_getD] at hp ⊢
  rw [List.getElem?_modify]
  by_cases h : n = m
  · subst h
    rw [← hp, List.getElem?_eq_getElem hl]
    simp [mem_insertId]
  · rw [← hp]
    have : ¬ m = n := fun h' => h h'.symm
    simp [h, this]

theorem mem_removeIds (ix : List (List Nat)) (e : Nat × List Nat) (m x : Nat) :
    x ∈ (removeIds ix e).getD m [] ↔ x ∈ ix.getD m [] ∧ (m = e.1 → x ∉ e.2) := by
  unfold removeIds
  simp only [List.getD_eq_getElem?_getD]
  rw [List.getElem?_modify]
  by_cases h : e.1 = m
  · subst h
    cases hg : ix[e.1]? with
    | none => simp
    | some l => simp
  · have h' : ¬ m = e.1 := fun h' => h h'.symm
    cases hg : ix[m]? with
    | none => simp
    | some l => simp [h, h']

theorem mem_removeAll (rs : List (Nat × List Nat)) (ix : List (List Nat)) (m x : Nat) :
    x ∈ (rs.foldl removeIds ix).getD m [] ↔ x ∈ ix.getD m [] ∧ ∀ e ∈ rs, m = e.1 → x ∉ e.2 := by
  induction rs generalizing ix with
  | nil => simp
  | cons e rs ih =>
    rw [List.foldl_cons, ih, mem_removeIds]
    simp only [List.mem_cons, forall_eq_or_imp, and_assoc]

theorem applyUpd_index (x : IndexSt) (e : Nat × Upd) (m y : Nat) :
    y ∈ (applyUpd x e).index.getD m [] ↔ y ∈ x.index.getD m [] ∨ (m = e.2.newInt + e.2.newExt ∧ y = e.1) := by
  unfold applyUpd
  split <;> exact mem_indexAdd _ _ _ _ _

theorem applyUpds_index (us : List (Nat × Upd)) (x : IndexSt) (m y : Nat) :
    y ∈ (us.foldl applyUpd x).index.getD m [] ↔ y ∈ x.index.getD m [] ∨ ∃ e ∈ us, m = e.2.newInt + e.2.newExt ∧ y = e.1 := by
  induction us generalizing x with
  | nil => simp
  | cons e us ih =>
    rw [List.foldl_cons, ih, applyUpd_index]
    simp only [List.mem_cons, exists_eq_or_imp, or_assoc]

theorem noteRemoval_mem {r : Table Nat (List Nat)} {n sid : Nat} {e : Nat × List Nat} (h : e ∈ noteRemoval r n sid) {y : Nat} (hy : y ∈ e.2) :
    e ∈ r ∨ (e.1 = n ∧ y = sid) ∨ ∃ e' ∈ r, e'.1 = e.1 ∧ y ∈ e'.2 := by
  unfold noteRemoval at h
  split at h
  · rename_i l hl
    unfold put at h
    rcases List.mem_cons.1 h with rfl | h
    · rcases List.mem_cons.1 hy with rfl | hy
      · exact Or.inr (Or.inl ⟨rfl, rfl⟩)
      · exact Or.inr (Or.inr ⟨_, mem_of_get _ _ _ hl, rfl, hy⟩)
    · exact Or.inl ((mem_del _ _ _).1 h).1
  · unfold put at h
    rcases List.mem_cons.1 h with rfl | h
    · cases hy
    · exact Or.inl ((mem_del _ _ _).1 h).1

/-- Only slots with an update are removed, and only from the bucket of their old count. -/
theorem applyUpds_removals (us : List (Nat × Upd)) (x : IndexSt) (P : Nat → Nat → Prop)
    (hx : ∀ e ∈ x.removals, ∀ y ∈ e.2, P e.1 y) (hu : ∀ e ∈ us, P (e.2.oldInt + e.2.oldExt) e.1) :
    ∀ e ∈ (us.foldl applyUpd x).removals, ∀ y ∈ e.2, P e.1 y := by
  induction us generalizing x with
  | nil => exact hx
  | cons u us ih =>
    rw [List.foldl_cons]
    apply ih
    · intro e he y hy
      unfold applyUpd at he
      split at he
      · rcases noteRemoval_mem he hy with h | ⟨h1, rfl⟩ | ⟨e', he', h1, h2⟩
        · exact hx e h y hy
        · rw [h1]; exact hu u (by simp)
        · rw [← h1]; exact hx e' he' y h2
      · exact hx e he y hy
    · exact fun e he => hu e (by simp [he])

theorem applyUpds_int (us : List (Nat × Upd)) (x : IndexSt) (h1 : ∀ e ∈ us, e.2.oldInt ≤ e.2.newInt) (h2 : ∀ e ∈ us, e.2.oldInt ≤ x.int) :
    (us.foldl applyUpd x).int + (us.map (·.2.oldInt)).sum = x.int + (us.map (·.2.newInt)).sum := by
  induction us generalizing x with
  | nil => rfl
  | cons e us ih =>
    have e1 : (applyUpd x e).int + e.2.oldInt = x.int + e.2.newInt := by
      have := h2 e (by simp)
      unfold applyUpd
      split
      · simp only; omega
      · simp only; omega
    have a1 := h1 e (by simp)
    have := ih (applyUpd x e) (fun u hu => h1 u (by simp [hu])) (fun u hu => by have := h2 u (by simp [hu]); omega)
    rw [List.foldl_cons, List.map_cons, List.sum_cons, List.map_cons, List.sum_cons]
    omega

theorem applyUpds_ext (us : List (Nat × Upd)) (x : IndexSt) (h1 : ∀ e ∈ us, e.2.oldExt ≤ e.2.newExt) (h2 : ∀ e ∈ us, e.2.oldExt ≤ x.ext) :
    (us.foldl applyUpd x).ext + (us.map (·.2.oldExt)).sum = x.ext + (us.map (·.2.newExt)).sum := by
  induction us generalizing x with
  | nil => rfl
  | cons e us ih =>
    have e1 : (applyUpd x e).ext + e.2.oldExt = x.ext + e.2.newExt := by
      have := h2 e (by simp)
      unfold applyUpd
      split
      · simp only; omega
      · simp only; omega
    have a1 := h1 e (by simp)
    have := ih (applyUpd x e) (fun u hu => h1 u (by simp [hu])) (fun u hu => by have := h2 u (by simp [hu]); omega)
    rw [List.foldl_cons, List.map_cons, List.sum_cons, List.map_cons, List.sum_cons]
    omega

theorem le_sum {t : Table Nat Slot} (f : Slot → Nat) {k : Nat} {s : Slot} (h : get t k = some s) : f s ≤ (t.map (fun e => f e.2)).sum := by
  have hm := mem_of_get _ _ _ h
  obtain ⟨a, b, rfl⟩ := List.append_of_mem hm
  simp; omega

theorem mem_buckets (ix : List (List Nat)) (v x : Nat) : x ∈ ((presize ix v).take v).flatten ↔ ∃ m, m < v ∧ x ∈ ix.getD m [] := by
  have hl := presize_length ix v
  rw [List.mem_flatten]
  constructor
  · rintro ⟨l, hl1, hx⟩
    obtain ⟨m, hm, rfl⟩ := List.getElem_of_mem hl1
    rw [List.length_take] at hm
    refine ⟨m, by omega, ?_⟩
    rw [← presize_getD ix v, List.getD_eq_getElem?_getD, List.getElem?_eq_getElem (by omega)]
    simpa using hx
  · rintro ⟨m, hm, hx⟩
    rw [← presize_getD ix v, List.getD_eq_getElem?_getD, List.getElem?_eq_getElem (by omega)] at hx
    refine ⟨(presize ix v)[m], ?_, by simpa using hx⟩
    rw [List.mem_take_iff_getElem]
    exact ⟨m, by omega, rfl⟩

end Tycho.MsgBuffer
