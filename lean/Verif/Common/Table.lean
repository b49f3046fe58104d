/-!
A key-value table (a RocksDB column family, a hash map, a B-tree map) as an association list with at most one entry per
key. Only `get`, `put` and the deletion of a set of keys change it; iteration is a filter over the entries.
-/
namespace Tycho.Table

/-- Entries of a table. -/
abbrev Table (κ ν : Type) := List (κ × ν)

variable {κ ν : Type} [DecidableEq κ]

/-- Point lookup. -/
def get (t : Table κ ν) (k : κ) : Option ν := match t with
  | [] => none
  | e :: t => if e.1 = k then some e.2 else get t k

/-- Removal of all keys satisfying `p`. -/
def del (t : Table κ ν) (p : κ → Bool) : Table κ ν := t.filter (fun e => !p e.1)

/-- Insertion, overwriting. -/
def put (t : Table κ ν) (k : κ) (v : ν) : Table κ ν := (k, v) :: del t (fun j => decide (j = k))

/-- Insertions in order. -/
def putAll (t : Table κ ν) (l : List (κ × ν)) : Table κ ν := l.foldl (fun t e => put t e.1 e.2) t

/-- At most one entry per key. -/
def Uniq (t : Table κ ν) : Prop := (t.map (·.1)).Nodup

theorem get_del (t : Table κ ν) (p : κ → Bool) (k : κ) :
    get (del t p) k = if p k then none else get t k := by
  induction t with
  | nil => simp [del, get]
  | cons e t ih =>
    unfold del at *
    by_cases h : p e.1
    · rw [List.filter_cons_of_neg (by simp [h]), ih]
      by_cases hk : e.1 = k
      · subst hk; simp [h]
      · simp [get, hk]
    · rw [List.filter_cons_of_pos (by simp [h])]
      simp only [get, ih]
      by_cases hk : e.1 = k
      · subst hk; simp [h]
      · simp [hk]

theorem get_put (t : Table κ ν) (k j : κ) (v : ν) :
    get (put t k v) j = if j = k then some v else get t j := by
  unfold put
  simp only [get, get_del]
  by_cases h : j = k
  · subst h; simp
  · simp [h, Ne.symm h]

theorem get_putAll_not (t : Table κ ν) (l : List (κ × ν)) (k : κ) (h : ∀ e ∈ l, e.1 ≠ k) :
    get (putAll t l) k = get t k := by
  induction l generalizing t with
  | nil => rfl
  | cons e l ih =>
    have h1 := h e (by simp)
    simp only [putAll, List.foldl_cons] at *
    rw [ih _ (fun x hx => h x (by simp [hx])), get_put, if_neg (Ne.symm h1)]

theorem get_putAll_mem (t : Table κ ν) (l : List (κ × ν)) (hl : (l.map (·.1)).Nodup) (e : κ × ν) (he : e ∈ l) :
    get (putAll t l) e.1 = some e.2 := by
  induction l generalizing t with
  | nil => simp at he
  | cons x l ih =>
    simp only [List.map_cons, List.nodup_cons] at hl
    rcases List.mem_cons.mp he with rfl | he
    · have := get_putAll_not (put t e.1 e.2) l e.1 (by
        intro y hy heq; apply hl.1; rw [← heq]; exact List.mem_map_of_mem hy)
      simp only [putAll, List.foldl_cons] at *
      rw [this, get_put]; simp
    · simp only [putAll, List.foldl_cons] at *
      exact ih _ hl.2 he

theorem get_putAll_some (t : Table κ ν) (l : List (κ × ν)) (k : κ) (v : ν) (h : get (putAll t l) k = some v) :
    (k, v) ∈ l ∨ get t k = some v := by
  induction l generalizing t with
  | nil => exact Or.inr h
  | cons e l ih =>
    simp only [putAll, List.foldl_cons] at *
    rcases ih _ h with h2 | h2
    · left; simp [h2]
    · rw [get_put] at h2
      split at h2
      · rename_i hk
        left
        simp only [Option.some.injEq] at h2
        subst hk; subst h2; simp
      · exact Or.inr h2

theorem mem_of_get (t : Table κ ν) (k : κ) (v : ν) (h : get t k = some v) : (k, v) ∈ t := by
  induction t with
  | nil => simp [get] at h
  | cons e t ih =>
    unfold get at h
    split at h
    · rename_i hk
      simp only [Option.some.injEq] at h
      subst hk; subst h; simp
    · simp [ih h]

theorem get_of_mem (t : Table κ ν) (hu : Uniq t) (k : κ) (v : ν) (h : (k, v) ∈ t) : get t k = some v := by
  induction t with
  | nil => simp at h
  | cons e t ih =>
    unfold Uniq at *
    simp only [List.map_cons, List.nodup_cons] at hu
    rcases List.mem_cons.mp h with h | h
    · subst h; simp [get]
    · have : e.1 ≠ k := by
        intro he; apply hu.1; rw [he]
        exact List.mem_map_of_mem (f := (·.1)) h
      simp [get, this, ih hu.2 h]

theorem mem_iff_get (t : Table κ ν) (hu : Uniq t) (k : κ) (v : ν) : (k, v) ∈ t ↔ get t k = some v :=
  ⟨get_of_mem t hu k v, mem_of_get t k v⟩

theorem get_some_of_mem (t : Table κ ν) (k : κ) (v : ν) (h : (k, v) ∈ t) : (get t k).isSome := by
  induction t with
  | nil => simp at h
  | cons e t ih =>
    unfold get
    split
    · rfl
    · rename_i hk
      rcases List.mem_cons.mp h with h | h
      · subst h; exact absurd rfl hk
      · exact ih h

omit [DecidableEq κ] in
theorem uniq_del (t : Table κ ν) (p : κ → Bool) (h : Uniq t) : Uniq (del t p) := by
  unfold Uniq del at *
  exact List.Nodup.sublist (List.Sublist.map _ List.filter_sublist) h

omit [DecidableEq κ] in
theorem mem_del (t : Table κ ν) (p : κ → Bool) (e : κ × ν) : e ∈ del t p ↔ e ∈ t ∧ p e.1 = false := by
  simp [del]

theorem uniq_put (t : Table κ ν) (k : κ) (v : ν) (h : Uniq t) : Uniq (put t k v) := by
  have := uniq_del t (fun j => decide (j = k)) h
  unfold Uniq put at *
  simp only [List.map_cons, List.nodup_cons]
  refine ⟨?_, this⟩
  intro hm
  obtain ⟨e, he, hk⟩ := List.mem_map.mp hm
  rw [mem_del] at he
  simp [hk] at he

theorem uniq_putAll (t : Table κ ν) (l : List (κ × ν)) (h : Uniq t) : Uniq (putAll t l) := by
  induction l generalizing t with
  | nil => exact h
  | cons e l ih =>
    simp only [putAll, List.foldl_cons] at *
    exact ih _ (uniq_put _ _ _ h)

omit [DecidableEq κ] in
theorem uniq_nil : Uniq ([] : Table κ ν) := by simp [Uniq]

/-- Two tables with the same contents. -/
def Same (a b : Table κ ν) : Prop := ∀ k, get a k = get b k

end Tycho.Table
