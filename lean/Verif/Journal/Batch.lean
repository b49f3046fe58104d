import Verif.Journal.Spec
import Mathlib.Data.List.Nodup

namespace Tycho.Journal
open Tycho.Merge Tycho.Table

/-! ### Counting -/

theorem get_addKey (t : Table PKey Nat) (k j : PKey) :
    (get (addKey t k) j).getD 0 = (get t j).getD 0 + (if j = k then 1 else 0) ∧
      ((get (addKey t k) j).isSome ↔ j = k ∨ (get t j).isSome) := by
  unfold addKey
  rw [get_put]
  by_cases h : j = k
  · subst h; simp
  · simp [h]

/-- A table of counts: what is absent counts zero, what is there counts more. -/
def Counts (t : Table PKey Nat) (l : List PKey) : Prop := ∀ k, (get t k).getD 0 = l.count k ∧ ((get t k).isSome ↔ k ∈ l)

theorem counts_foldl (l : List PKey) (t : Table PKey Nat) (l0 : List PKey) (h : Counts t l0) (hu : Uniq t) :
    Counts (l.foldl addKey t) (l0 ++ l) ∧ Uniq (l.foldl addKey t) := by
  induction l generalizing t l0 with
  | nil => rw [List.append_nil]; exact ⟨h, hu⟩
  | cons k l ih =>
    rw [List.foldl_cons, show l0 ++ k :: l = (l0 ++ [k]) ++ l by simp]
    refine ih _ _ ?_ (uniq_put _ _ _ hu)
    intro j
    obtain ⟨h1, h2⟩ := get_addKey t k j
    obtain ⟨h3, h4⟩ := h j
    refine ⟨?_, ?_⟩
    · rw [h1, h3, List.count_append, List.count_singleton]
      congr 1
      by_cases hj : j = k
      · subst hj; simp
      · rw [if_neg hj, if_neg (by simpa using Ne.symm hj)]
    · rw [h2, h4]
      simp only [List.mem_append, List.mem_singleton]
      exact Or.comm

theorem subTable_counts (l : List PKey) : Counts (subTable l) l := by
  have := counts_foldl l [] [] (fun k => by simp [Table.get]) uniq_nil
  simpa [subTable] using this.1

/-! ### The batch -/

theorem addPoint_get (t : Table PKey (Nat × Bytes)) (p : PKey × Bytes) (j : PKey) :
    ((get (addPoint t p) j).map (·.1)).getD 0 = ((get t j).map (·.1)).getD 0 + (if j = p.1 then 1 else 0) ∧
      ((get (addPoint t p) j).isSome ↔ j = p.1 ∨ (get t j).isSome) ∧
      (∀ pay : PKey → Bytes, p.2 = pay p.1 → (∀ k n q, get t k = some (n, q) → q = pay k) →
        ∀ n q, get (addPoint t p) j = some (n, q) → q = pay j) := by
  unfold addPoint
  cases hg : get t p.1 with
  | none =>
    simp only
    rw [get_put]
    by_cases h : j = p.1
    · subst h
      refine ⟨by simp [hg], by simp, ?_⟩
      intro pay hp _ n q hq
      rw [if_pos rfl] at hq
      obtain ⟨_, rfl⟩ := Prod.mk.inj (Option.some.inj hq)
      exact hp
    · refine ⟨by simp [h], by simp [h], ?_⟩
      intro pay _ ht n q hq
      rw [if_neg h] at hq
      exact ht j n q hq
  | some v =>
    obtain ⟨m, r⟩ := v
    simp only
    rw [get_put]
    by_cases h : j = p.1
    · subst h
      refine ⟨by simp [hg], by simp, ?_⟩
      intro pay _ ht n q hq
      rw [if_pos rfl] at hq
      obtain ⟨_, rfl⟩ := Prod.mk.inj (Option.some.inj hq)
      exact ht _ _ _ hg
    · refine ⟨by simp [h], by simp [h], ?_⟩
      intro pay _ ht n q hq
      rw [if_neg h] at hq
      exact ht j n q hq

/-- The points at hand, with their counts. -/
structure PCounts (pay : PKey → Bytes) (t : Table PKey (Nat × Bytes)) (l : List PKey) : Prop where
  count : ∀ k, ((get t k).map (·.1)).getD 0 = l.count k
  mem : ∀ k, (get t k).isSome ↔ k ∈ l
  data : ∀ k n q, get t k = some (n, q) → q = pay k
  uniq : Uniq t

theorem pcounts_foldl {pay : PKey → Bytes} (ps : List (PKey × Bytes)) (t : Table PKey (Nat × Bytes)) (l0 : List PKey)
    (h : PCounts pay t l0) (hp : ∀ p ∈ ps, p.2 = pay p.1) : PCounts pay (ps.foldl addPoint t) (l0 ++ ps.map (·.1)) := by
  induction ps generalizing t l0 with
  | nil => simpa using h
  | cons p ps ih =>
    rw [List.foldl_cons, List.map_cons, show l0 ++ p.1 :: ps.map (·.1) = (l0 ++ [p.1]) ++ ps.map (·.1) by simp]
    refine ih _ _ ⟨?_, ?_, ?_, ?_⟩ (fun q hq => hp q (by simp [hq]))
    · intro k
      rw [(addPoint_get t p k).1, h.count, List.count_append, List.count_singleton]
      congr 1
      by_cases hj : k = p.1
      · subst hj; simp
      · rw [if_neg hj, if_neg (by simpa using Ne.symm hj)]
    · intro k
      rw [(addPoint_get t p k).2.1, h.mem]
      simp only [List.mem_append, List.mem_singleton]
      exact Or.comm
    · intro k n q hq
      exact (addPoint_get t p k).2.2 pay (hp p (by simp)) h.data n q hq
    · unfold addPoint
      cases get t p.1 with
      | none => exact uniq_put _ _ _ h.uniq
      | some v => exact uniq_put _ _ _ h.uniq

theorem pointSet_eq (it : Item) (h : (it.points.map (·.1)).Nodup) : pointSet it = it.points.map (·.1) := by
  have key : ∀ (ps : List (PKey × Bytes)) (u : List PKey), (u ++ ps.map (·.1)).Nodup →
      ps.foldl (fun u p => addSet u p.1) u = u ++ ps.map (·.1) := by
    intro ps
    induction ps with
    | nil => intro u _; simp
    | cons p ps ih =>
      intro u hu
      rw [List.map_cons] at hu
      have hm : p.1 ∉ u := by
        intro hm
        have := List.nodup_append.1 hu
        exact this.2.2 p.1 hm p.1 (by simp) rfl
      rw [List.foldl_cons]
      unfold addSet
      rw [if_neg hm]
      have := ih (u ++ [p.1]) (by simpa using hu)
      simp only [addSet] at this
      rw [this]; simp
  have := key it.points [] (by simpa using h)
  simpa [pointSet] using this

/-- The references by key of an item. -/
theorem addRef_foldl (ks : List PKey) (t : Table PKey Nat) (l0 u : List PKey) (h : Counts t l0) (hu : Uniq t) (hn : u.Nodup) :
    ∃ new, (ks.foldl addRef (t, u)).2 = u ++ new ∧ (u ++ new).Nodup ∧ Counts (ks.foldl addRef (t, u)).1 (l0 ++ new) ∧
      Uniq (ks.foldl addRef (t, u)).1 ∧ ∀ k, k ∈ u ++ new ↔ k ∈ u ∨ k ∈ ks := by
  induction ks generalizing t l0 u with
  | nil => exact ⟨[], by simp, by simpa using hn, by simpa using h, hu, by simp⟩
  | cons k ks ih =>
    rw [List.foldl_cons]
    by_cases hk : k ∈ u
    · rw [show addRef (t, u) k = (t, u) by unfold addRef; rw [if_pos hk]]
      obtain ⟨new, h1, h2, h3, h4, h5⟩ := ih t l0 u h hu hn
      refine ⟨new, h1, h2, h3, h4, ?_⟩
      intro j
      rw [h5 j]
      simp only [List.mem_cons]
      constructor
      · rintro (h | h)
        · exact Or.inl h
        · exact Or.inr (Or.inr h)
      · rintro (h | rfl | h)
        · exact Or.inl h
        · exact Or.inl hk
        · exact Or.inr h
    · rw [show addRef (t, u) k = (addKey t k, u ++ [k]) by unfold addRef; rw [if_neg hk]]
      have hc := counts_foldl [k] t l0 h hu
      obtain ⟨new, h1, h2, h3, h4, h5⟩ := ih (addKey t k) (l0 ++ [k]) (u ++ [k]) hc.1 hc.2 (by
        rw [List.nodup_append]
        refine ⟨hn, by simp, ?_⟩
        intro a ha b hb
        rw [List.mem_singleton] at hb
        subst hb
        intro he
        exact hk (he ▸ ha))
      refine ⟨k :: new, by rw [h1]; simp, by simpa using h2, by simpa using h3, h4, ?_⟩
      intro j
      have := h5 j
      simp only [List.append_assoc, List.mem_append, List.mem_cons, List.not_mem_nil, or_false, List.singleton_append] at this ⊢
      rw [this]
      constructor
      · rintro ((h | h) | h)
        · exact Or.inl h
        · exact Or.inr (Or.inl h)
        · exact Or.inr (Or.inr h)
      · rintro (h | h | h)
        · exact Or.inl (Or.inl h)
        · exact Or.inl (Or.inr h)
        · exact Or.inr h

/-- The records match the items. -/
def Matches (r : RKey × List PKey) (it : Item) : Prop := r.1 = it.key ∧ r.2.Nodup ∧ ∀ k, k ∈ r.2 ↔ it.mentions k = true

/-- The state of the loop after `items`: `lp`, `lk` count the references by point and by key. -/
structure BuildInv (pay : PKey → Bytes) (b : Build) (items : List Item) (lp lk : List PKey) : Prop where
  points : PCounts pay b.points lp
  keys : Counts b.allKeys lk
  uniq : Uniq b.allKeys
  records : List.Forall₂ Matches b.records (items.filter (·.store))
  count : ∀ k, (b.records.flatMap (·.2)).count k = lp.count k + lk.count k
  mem : ∀ k, k ∈ lp ↔ ∃ it ∈ items, it.store = true ∧ k ∈ it.points.map (·.1)

theorem forall2_concat {α β : Type} {R : α → β → Prop} {l : List α} {m : List β} {a : α} {b : β} (h : List.Forall₂ R l m) (hab : R a b) :
    List.Forall₂ R (l ++ [a]) (m ++ [b]) := by
  induction h with
  | nil => exact .cons hab .nil
  | cons h1 _ ih => exact .cons h1 ih

theorem build_inv {pay : PKey → Bytes} (its : List Item) (b : Build) (items : List Item) (lp lk : List PKey)
    (h : BuildInv pay b items lp lk) (hd : ∀ it ∈ its, ∀ p ∈ it.points, p.2 = pay p.1)
    (hn : ∀ it ∈ its, (it.points.map (·.1)).Nodup) :
    ∃ lp' lk', BuildInv pay (its.foldl addItem b) (items ++ its) lp' lk' := by
  induction its generalizing b items lp lk with
  | nil => exact ⟨lp, lk, by simpa using h⟩
  | cons it its ih =>
    rw [List.foldl_cons, show items ++ it :: its = (items ++ [it]) ++ its by simp]
    have hstep : ∃ lp' lk', BuildInv pay (addItem b it) (items ++ [it]) lp' lk' := by
      unfold addItem
      by_cases hs : it.store = true
      · rw [if_pos hs]
        have hnd := hn it (by simp)
        rw [pointSet_eq it hnd]
        obtain ⟨new, r1, r2, r3, r4, r5⟩ := addRef_foldl it.keys b.allKeys lk (it.points.map (·.1)) h.keys h.uniq hnd
        refine ⟨lp ++ it.points.map (·.1), lk ++ new, ?_, r3, r4, ?_, ?_, ?_⟩
        · exact pcounts_foldl it.points b.points lp h.points (hd it (by simp))
        · rw [List.filter_append, List.filter_cons_of_pos (by simp [hs]), List.filter_nil]
          refine forall2_concat h.records ⟨rfl, ?_, ?_⟩
          · rw [r1]; exact r2
          · intro k
            show k ∈ (it.keys.foldl addRef (b.allKeys, it.points.map (·.1))).2 ↔ _
            rw [r1, r5 k]
            unfold Item.mentions
            rw [decide_eq_true_eq]
            exact Or.comm
        · intro k
          simp only [List.flatMap_append, List.flatMap_cons, List.flatMap_nil, List.append_nil, List.count_append]
          rw [h.count k, r1, List.count_append]
          omega
        · intro k
          rw [List.mem_append, h.mem]
          constructor
          · rintro (⟨x, hx, h1, h2⟩ | hk)
            · exact ⟨x, by simp [hx], h1, h2⟩
            · exact ⟨it, by simp, hs, hk⟩
          · rintro ⟨x, hx, h1, h2⟩
            rw [List.mem_append, List.mem_singleton] at hx
            rcases hx with hx | rfl
            · exact Or.inl ⟨x, hx, h1, h2⟩
            · exact Or.inr h2
      · rw [if_neg hs]
        refine ⟨lp, lk, h.points, h.keys, h.uniq, ?_, h.count, ?_⟩
        · rw [List.filter_append, List.filter_cons_of_neg (by simpa using hs), List.filter_nil, List.append_nil]
          exact h.records
        · intro k
          rw [h.mem]
          constructor
          · rintro ⟨x, hx, h1, h2⟩; exact ⟨x, by simp [hx], h1, h2⟩
          · rintro ⟨x, hx, h1, h2⟩
            rw [List.mem_append, List.mem_singleton] at hx
            rcases hx with hx | rfl
            · exact ⟨x, hx, h1, h2⟩
            · exact absurd h1 hs
    obtain ⟨lp', lk', h'⟩ := hstep
    exact ih _ _ lp' lk' h' (fun x hx => hd x (by simp [hx])) (fun x hx => hn x (by simp [hx]))

theorem get_map_val {ν μ : Type} (t : Table PKey ν) (f : PKey → ν → μ) (k : PKey) :
    get (t.map (fun e => (e.1, f e.1 e.2))) k = (get t k).map (f k) := by
  induction t with
  | nil => rfl
  | cons e t ih =>
    simp only [List.map_cons, Table.get]
    split
    · rename_i h; subst h; rfl
    · exact ih

/-- What `batch` returns. -/
structure BatchInv (pay : PKey → Bytes) (b : Batch) (items : List Item) : Prop where
  records : List.Forall₂ Matches b.records (items.filter (·.store))
  uniqP : Uniq b.points
  uniqK : Uniq b.keys
  disjoint : ∀ k, (get b.points k).isSome → get b.keys k = none
  data : ∀ k n q, get b.points k = some (n, q) → q = pay k
  countP : ∀ k n q, get b.points k = some (n, q) → n = (b.records.flatMap (·.2)).count k ∧ 0 < n
  countK : ∀ k n, get b.keys k = some n → n = (b.records.flatMap (·.2)).count k ∧ 0 < n
  none_ : ∀ k, get b.points k = none → get b.keys k = none → (b.records.flatMap (·.2)).count k = 0
  mem : ∀ k, (get b.points k).isSome ↔ ∃ it ∈ items, it.store = true ∧ k ∈ it.points.map (·.1)

theorem batch_inv {pay : PKey → Bytes} (items : List Item) (hd : ∀ it ∈ items, ∀ p ∈ it.points, p.2 = pay p.1)
    (hn : ∀ it ∈ items, (it.points.map (·.1)).Nodup) : BatchInv pay (batch items) items := by
  have h0 : BuildInv pay ⟨[], [], []⟩ [] [] [] :=
    ⟨⟨fun k => by simp [Table.get], fun k => by simp [Table.get], fun k n q h => by simp [Table.get] at h, uniq_nil⟩, fun k => by simp [Table.get], uniq_nil,
      .nil, fun k => by simp, fun k => by simp⟩
  obtain ⟨lp, lk, h⟩ := build_inv items _ _ _ _ h0 hd hn
  rw [List.nil_append] at h
  change BuildInv pay (build items) items lp lk at h
  generalize hb : build items = b at h
  have e : batch items = finish b := by unfold batch; rw [hb]
  rw [e]
  have hp : ∀ k, get (finish b).points k = (get b.points k).map (fun v => (v.1 + (get b.allKeys k).getD 0, v.2)) := by
    intro k
    exact get_map_val b.points (fun k v => (v.1 + (get b.allKeys k).getD 0, v.2)) k
  have hk : ∀ k, get (finish b).keys k = if (get b.points k).isSome then none else get b.allKeys k := fun k =>
    get_del b.allKeys (fun k => (get b.points k).isSome) k
  have hcount : ∀ k, ((finish b).records.flatMap (·.2)).count k = lp.count k + lk.count k := h.count
  refine ⟨h.records, ?_, uniq_del b.allKeys (fun k => (get b.points k).isSome) h.uniq, ?_, ?_, ?_, ?_, ?_, ?_⟩
  · have := h.points.uniq
    unfold Uniq at this ⊢
    unfold finish
    simpa [List.map_map, Function.comp_def] using this
  · intro k hs
    rw [hk]
    rw [hp, Option.isSome_map] at hs
    rw [if_pos hs]
  · intro k n q hq
    rw [hp] at hq
    obtain ⟨v, hv, he⟩ := Option.map_eq_some_iff.1 hq
    obtain ⟨_, rfl⟩ := Prod.mk.inj he
    exact h.points.data k v.1 v.2 hv
  · intro k n q hq
    rw [hp] at hq
    obtain ⟨v, hv, he⟩ := Option.map_eq_some_iff.1 hq
    obtain ⟨rfl, _⟩ := Prod.mk.inj he
    rw [hcount k]
    have h1 := h.points.count k
    rw [hv] at h1
    simp only [Option.map_some, Option.getD_some] at h1
    have h2 := (h.keys k).1
    have h3 : k ∈ lp := (h.points.mem k).1 (by rw [hv]; rfl)
    have h4 : 0 < lp.count k := List.count_pos_iff.2 h3
    omega
  · intro k n hq
    rw [hk] at hq
    split at hq
    · cases hq
    · rename_i hs
      have hlp : k ∉ lp := fun hm => hs ((h.points.mem k).2 hm)
      rw [hcount k, List.count_eq_zero_of_not_mem hlp]
      obtain ⟨h1, h2⟩ := h.keys k
      rw [hq] at h1 h2
      have := List.count_pos_iff.2 (h2.1 rfl)
      simp only [Option.getD_some] at h1
      omega
  · intro k h1 h2
    rw [hp] at h1
    rw [hk] at h2
    have h3 : get b.points k = none := by simpa using h1
    rw [h3] at h2
    simp only [Option.isSome_none, Bool.false_eq_true, if_false] at h2
    have hlp : k ∉ lp := fun hm => by have := (h.points.mem k).2 hm; rw [h3] at this; cases this
    have hlk : k ∉ lk := fun hm => by have := (h.keys k).2.2 hm; rw [h2] at this; cases this
    rw [hcount k, List.count_eq_zero_of_not_mem hlp, List.count_eq_zero_of_not_mem hlk]
  · intro k
    rw [hp, Option.isSome_map, h.points.mem, h.mem]

end Tycho.Journal
