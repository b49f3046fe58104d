import Verif.SplitMerge.Lemmas
import Mathlib.Data.List.Nodup
/-!
C159: the actions between two sets of shards.
-/
namespace Tycho.SplitMerge

theorem runs_unique {st : St} {r r' : Option (List Action)} (h : Runs st r) (h' : Runs st r') : r = r' := by
  induction h generalizing r' with
  | done rest out => cases h'; rfl
  | fail s q rest out ht =>
    cases h' with
    | fail _ _ _ _ _ => rfl
    | next _ _ _ _ st' _ ht' _ => rw [ht] at ht'; cases ht'
  | next s q rest out st' r ht hr ih =>
    cases h' with
    | fail _ _ _ _ ht' => rw [ht] at ht'; cases ht'
    | next _ _ _ _ st'' _ ht' hr' =>
      rw [ht] at ht'
      simp only [Option.some.injEq] at ht'
      subst ht'
      exact ih hr'

theorem returns_unique {f t : List Shard} {r r' : Option (List Action)} (h : Returns f t r) (h' : Returns f t r') : r = r' := by
  unfold Returns at h h'
  cases hs : start f t with
  | none => rw [hs] at h h'; simp only at h h'; rw [h, h']
  | some st =>
    rw [hs] at h h'
    obtain ⟨o, h1, rfl⟩ := h
    obtain ⟨o', h2, rfl⟩ := h'
    rw [runs_unique h1 h2]

/-- The items after the first checks. -/
def items : List Shard → List Shard → List Item
  | [], _ => []
  | f :: fs, l => (if (below f l).isEmpty then [] else [(f, below f l, false)]) ++ items fs (unrel f l)

def leftOver : List Shard → List Shard → List Shard
  | [], l => l
  | f :: fs, l => leftOver fs (unrel f l)

theorem init_runs : ∀ (fs l : List Shard) (q : List Step) (out : List Action) (r : Option (List Action)),
    Runs ⟨q ++ (items fs l).flatMap expand, leftOver fs l, out⟩ r → Runs ⟨fs.map (fun s => .check s none none) ++ q, l, out⟩ r := by
  intro fs
  induction fs with
  | nil => intro l q out r h; simpa [items, leftOver] using h
  | cons f fs ih =>
    intro l q out r h
    rw [List.map_cons, List.cons_append]
    refine Runs.next _ _ _ _ _ _ (check_turn _ _ _ _ _ _ l rfl) ?_
    have h0 : ∀ m : List Shard, m.flatMap (fun _ => (none : Option Action).toList) = [] := by intro m; induction m <;> simp
    rw [h0]
    simp only [Option.toList_none, List.append_nil, ite_self]
    rw [List.append_assoc]
    apply ih
    simp only [items, leftOver, List.flatMap_append] at h
    rw [List.append_assoc]
    have he : (if (below f l).isEmpty = true then ([] : List Item) else [(f, below f l, false)]).flatMap expand =
        if (below f l).isEmpty = true then [] else [.act (below f l) (.split f)] := by
      split <;> simp [expand]
    rw [he] at h
    exact h

theorem mem_items (i : Item) : ∀ (fs l : List Shard), i ∈ items fs l →
    i.1 ∈ fs ∧ i.2.1 ≠ [] ∧ (∀ t ∈ i.2.1, t ∈ l ∧ i.1.lt t) := by
  intro fs
  induction fs with
  | nil => intro l h; simp [items] at h
  | cons f fs ih =>
    intro l h
    rw [items, List.mem_append] at h
    rcases h with h | h
    · split at h
      · simp at h
      · rename_i he
        rw [List.mem_singleton] at h
        subst h
        exact ⟨by simp, by simpa using he, fun t ht => (mem_below _ _ _).1 ht⟩
    · obtain ⟨h1, h2, h3⟩ := ih _ h
      exact ⟨by simp [h1], h2, fun t ht => ⟨((mem_unrel _ _ _).1 (h3 t ht).1).1, (h3 t ht).2⟩⟩

theorem items_apart : ∀ (fs l : List Shard), Apart fs → Apart ((items fs l).map (·.1)) ∧
    ∀ f ∈ fs, ∀ t ∈ l, f.lt t → ∃ i ∈ items fs l, i.1 = f ∧ t ∈ i.2.1 := by
  intro fs
  induction fs with
  | nil => intro l _; simp [items, Apart]
  | cons f fs ih =>
    intro l h
    unfold Apart at h
    rw [List.pairwise_cons] at h
    obtain ⟨h1, h2⟩ := ih (unrel f l) h.2
    constructor
    · unfold Apart
      rw [items, List.map_append, List.pairwise_append]
      refine ⟨?_, h1, ?_⟩
      · split <;> simp
      · intro a ha b hb
        have hfa : a = f := by
          split at ha
          · simp at ha
          · simpa using ha
        obtain ⟨i, hi, rfl⟩ := List.mem_map.1 hb
        rw [hfa]
        exact h.1 _ (mem_items i _ _ hi).1
    · intro g hg t ht hlt
      rw [items]
      rcases List.mem_cons.1 hg with rfl | hg
      · have hm := (mem_below g l t).2 ⟨ht, hlt⟩
        refine ⟨(g, below g l, false), ?_, rfl, hm⟩
        rw [if_neg]
        · simp
        · intro he
          rw [List.isEmpty_iff] at he
          rw [he] at hm; simp at hm
      · have hap := h.1 g hg
        have hun : t ∈ unrel f l := by
          refine (mem_unrel _ _ _).2 ⟨ht, ?_, ?_⟩
          · intro hle
            rcases le_total_below hle hlt.1 with h' | h'
            · exact hap.1 h'
            · exact hap.2 h'
          · intro hle; exact hap.2 (le_trans hlt.1 hle)
        obtain ⟨i, hi, h3, h4⟩ := h2 g hg t hun hlt
        exact ⟨i, by simp [hi], h3, h4⟩

theorem dedup_head (l : List Action) : (dedup l).head? = l.head? := by
  cases l with
  | nil => rfl
  | cons a l =>
    simp only [dedup, List.head?_cons]
    split
    · rfl
    · split
      · rename_i h; rw [h]; rfl
      · rfl

theorem dedup_cons (a : Action) (l : List Action) : dedup (a :: l) = if l.head? = some a then dedup l else a :: dedup l := by
  have hh := dedup_head l
  simp only [dedup]
  cases hd : dedup l with
  | nil =>
    rw [hd] at hh
    simp only [List.head?_nil] at hh
    rw [← hh]; simp
  | cons b m =>
    rw [hd] at hh
    simp only [List.head?_cons] at hh
    rw [← hh]
    simp only [Option.some.injEq]
    by_cases h : a = b
    · rw [if_pos h, if_pos h.symm]
    · rw [if_neg h, if_neg (fun e => h e.symm)]

theorem copies_head {D : List Shard} {E : List Action} (h : Copies D E) : E.head? = (D.head?).map .split := by
  cases h with
  | nil => rfl
  | cons p k D E _ => simp [List.replicate_succ]

theorem dedup_copies {D : List Shard} {E : List Action} (h : Copies D E) (hd : D.Nodup) : dedup E = D.map .split := by
  induction h with
  | nil => rfl
  | cons p k D E h ih =>
    rw [List.nodup_cons] at hd
    have ih := ih hd.2
    have hhead := copies_head h
    induction k with
    | zero =>
      simp only [Nat.zero_add, List.replicate_one, List.singleton_append, List.map_cons]
      rw [dedup_cons, if_neg, ih]
      rw [hhead]
      intro hc
      rw [Option.map_eq_some_iff] at hc
      obtain ⟨q, hq, hq2⟩ := hc
      simp only [Action.split.injEq] at hq2
      subst hq2
      exact hd.1 (List.mem_of_mem_head? hq)
    | succ k ihk =>
      rw [List.replicate_succ, List.cons_append, dedup_cons, if_pos]
      · exact ihk
      · simp [List.replicate_succ]

theorem dedup_adds : ∀ (l : List Shard) (E : List Action), l.Nodup → (∀ s, E.head? ≠ some (.add s)) → dedup (l.map .add ++ E) = l.map .add ++ dedup E := by
  intro l
  induction l with
  | nil => intro E _ _; rfl
  | cons s l ih =>
    intro E hd hE
    rw [List.nodup_cons] at hd
    rw [List.map_cons, List.cons_append, dedup_cons, if_neg, ih E hd.2 hE]
    · rfl
    · cases l with
      | nil => simpa using hE s
      | cons t l =>
        simp only [List.map_cons, List.cons_append, List.head?_cons, Option.some.injEq, Action.add.injEq]
        rintro rfl
        simp at hd

/-- What the function returns, in one. -/
theorem returns_some (f t : List Shard) (hv : Valid t) (hne : f ≠ [] ∨ t ≠ []) : ∃ D E,
    Returns f t (some (dedup ((if f.isEmpty then t.map .add else []) ++ E))) ∧ Copies D E ∧
    (Apart f → D.Pairwise (fun a b => ¬ b.le a) ∧
      ∃ fs, (if f = [] then ∃ wc, t.head?.map (·.wc) = some wc ∧ fs = [Shard.full wc] else fs = f) ∧
        ∀ p, p ∈ D ↔ ∃ s ∈ fs, ∃ x ∈ t, s.le p ∧ p.lt x) := by
  have hgood : ∀ fs, ∀ i ∈ items fs t, Good i := by
    intro fs i hi
    obtain ⟨_, h2, h3⟩ := mem_items i _ _ hi
    exact ⟨h2, fun x hx => ⟨(h3 x hx).2, hv x (h3 x hx).1⟩⟩
  have hiff : ∀ fs, Apart fs → ∀ p, (∃ i ∈ items fs t, ∃ x ∈ i.2.1, i.1.le p ∧ p.lt x) ↔ ∃ s ∈ fs, ∃ x ∈ t, s.le p ∧ p.lt x := by
    intro fs ha p
    constructor
    · rintro ⟨i, hi, x, hx, h1, h2⟩
      obtain ⟨a1, _, a3⟩ := mem_items i _ _ hi
      exact ⟨i.1, a1, x, (a3 x hx).1, h1, h2⟩
    · rintro ⟨s, hs, x, hx, h1, h2⟩
      have hlt : s.lt x := ⟨le_trans h1 h2.1, fun e => h2.2 (le_antisymm h2.1 (e ▸ h1))⟩
      obtain ⟨i, hi, rfl, hx2⟩ := (items_apart fs t ha).2 s hs x hx hlt
      exact ⟨i, hi, x, hx2, h1, h2⟩
  cases f with
  | nil =>
    cases t with
    | nil => simp at hne
    | cons t0 t =>
      obtain ⟨D, E, h1, h2, h3, h4⟩ := runs_items _ (items [Shard.full t0.wc] (t0 :: t)) (Nat.le_refl _) (hgood _) (leftOver [Shard.full t0.wc] (t0 :: t))
        ((t0 :: t).map .add)
      refine ⟨D, E, ?_, h2, ?_⟩
      · unfold Returns start
        simp only [List.isEmpty_nil, if_true]
        refine ⟨some ((t0 :: t).map .add ++ E), ?_, rfl⟩
        have := init_runs [Shard.full t0.wc] (t0 :: t) [] ((t0 :: t).map .add) _ (by simpa using h1)
        simpa using this
      · intro _
        have ha : Apart [Shard.full t0.wc] := by simp [Apart]
        refine ⟨h4 (items_apart _ _ ha).1, [Shard.full t0.wc], ?_, ?_⟩
        · rw [if_pos rfl]; exact ⟨_, rfl, rfl⟩
        · intro p; rw [h3]; exact hiff _ ha p
  | cons f0 f =>
    obtain ⟨D, E, h1, h2, h3, h4⟩ := runs_items _ (items (f0 :: f) t) (Nat.le_refl _) (hgood _) (leftOver (f0 :: f) t) []
    refine ⟨D, E, ?_, h2, ?_⟩
    · unfold Returns start
      have hrun := init_runs (f0 :: f) t [] [] _ (by simpa using h1)
      cases t with
      | nil => exact ⟨_, by simpa using hrun, rfl⟩
      | cons t0 t => exact ⟨_, by simpa using hrun, rfl⟩
    · intro ha
      refine ⟨h4 (items_apart _ _ ha).1, f0 :: f, ?_, ?_⟩
      · rw [if_neg (by simp)]
      · intro p; rw [h3]; exact hiff _ ha p

/-- C159: it ends without an error for all shards, unless both lists are empty. -/
theorem never_fails (f t : List Shard) (hv : Valid t) (hne : f ≠ [] ∨ t ≠ []) : ∃ l, ∀ r, Returns f t r ↔ r = some l := by
  obtain ⟨D, E, h, _⟩ := returns_some f t hv hne
  exact ⟨_, fun r => ⟨fun h' => returns_unique h' h, fun e => e ▸ h⟩⟩

theorem fails_empty (r : Option (List Action)) : Returns [] [] r ↔ r = none := by rfl

/-- C159: what is returned for present shards that do not overlap: a split of each shard that is a present one or below it, and above a wanted one; each
once, and ancestors first. -/
theorem splits_exactly (f t : List Shard) (l : List Action) (hf : f ≠ []) (ha : Apart f) (hv : Valid t) (h : Returns f t (some l)) :
    (∀ a, a ∈ l ↔ ∃ p, a = .split p ∧ ∃ s ∈ f, ∃ x ∈ t, s.le p ∧ p.lt x) ∧ l.Nodup ∧
    l.Pairwise (fun a b => ∀ p q, a = .split p → b = .split q → ¬ q.lt p) := by
  obtain ⟨D, E, h1, h2, h3⟩ := returns_some f t hv (Or.inl hf)
  obtain ⟨h4, fs, h5, h6⟩ := h3 ha
  rw [if_neg hf] at h5
  subst h5
  have hd : D.Nodup := h4.imp (fun hab => by rintro rfl; exact hab (le_refl _))
  have hl := returns_unique h h1
  have he : fs.isEmpty = false := by simpa using hf
  rw [he] at hl
  simp only [Bool.false_eq_true, if_false, List.nil_append, Option.some.injEq] at hl
  rw [dedup_copies h2 hd] at hl
  subst hl
  refine ⟨?_, ?_, ?_⟩
  · intro a
    rw [List.mem_map]
    constructor
    · rintro ⟨p, hp, rfl⟩; exact ⟨p, rfl, (h6 p).1 hp⟩
    · rintro ⟨p, rfl, hp⟩; exact ⟨p, (h6 p).2 hp, rfl⟩
  · exact hd.map (fun a b h => by injection h)
  · rw [List.pairwise_map]
    refine h4.imp ?_
    intro a b hab p q hp hq hlt
    injection hp with hp; injection hq with hq
    subst hp; subst hq
    exact hab hlt.1

/-- C159: from no shards: all the wanted ones are added, and then the splits that would make them of the whole workchain of the first. -/
theorem adds_exactly (t : List Shard) (l : List Action) (t0 : Shard) (h0 : t.head? = some t0) (hn : t.Nodup) (hv : Valid t) (h : Returns [] t (some l)) :
    ∃ D : List Shard, l = t.map .add ++ D.map .split ∧ D.Nodup ∧ (∀ p, p ∈ D ↔ p.wc = t0.wc ∧ ∃ x ∈ t, p.lt x) ∧
      D.Pairwise (fun a b => ¬ b.lt a) := by
  have hne : t ≠ [] := by rintro rfl; simp at h0
  obtain ⟨D, E, h1, h2, h3⟩ := returns_some [] t hv (Or.inr hne)
  obtain ⟨h4, fs, h5, h6⟩ := h3 (by simp [Apart])
  rw [if_pos rfl] at h5
  obtain ⟨wc, hw, rfl⟩ := h5
  rw [h0] at hw
  simp only [Option.map_some, Option.some.injEq] at hw
  subst hw
  have hd : D.Nodup := h4.imp (fun hab => by rintro rfl; exact hab (le_refl _))
  have hl := returns_unique h h1
  simp only [List.isEmpty_nil, if_true, Option.some.injEq] at hl
  rw [dedup_adds t E hn, dedup_copies h2 hd] at hl
  · refine ⟨D, hl, hd, ?_, h4.imp (fun hab hlt => hab hlt.1)⟩
    intro p
    rw [h6]
    constructor
    · rintro ⟨s, hs, x, hx, h7, h8⟩
      rw [List.mem_singleton] at hs; subst hs
      exact ⟨h7.1.symm, x, hx, h8⟩
    · rintro ⟨h7, x, hx, h8⟩
      exact ⟨Shard.full t0.wc, by simp, x, hx, ⟨h7.symm, List.nil_prefix⟩, h8⟩
  · intro s
    rw [copies_head h2]
    cases D.head? <;> simp

end Tycho.SplitMerge
