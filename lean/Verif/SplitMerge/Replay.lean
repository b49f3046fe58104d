import Verif.SplitMerge.Props
/-!
C159: the actions can be carried out one after another, and lead to the wanted shards.
-/
namespace Tycho.SplitMerge

/-- The shards after the splits of `P`. -/
def shardsAfter (f P : List Shard) (x : Shard) : Prop := (x ∈ f ∨ ∃ p ∈ P, ∃ b, x = child p b) ∧ x ∉ P

theorem parent_of {s p : Shard} (h : s.lt p) : ∃ q b, p = child q b ∧ s.le q := by
  obtain ⟨⟨h1, r, h2⟩, h3⟩ := h
  rcases List.eq_nil_or_concat r with rfl | ⟨r', b, rfl⟩
  · exfalso
    apply h3
    obtain ⟨w, p⟩ := p; obtain ⟨w', p'⟩ := s
    simp_all
  · refine ⟨⟨p.wc, s.path ++ r'⟩, b, ?_, h1, List.prefix_append _ _⟩
    obtain ⟨w, p⟩ := p
    simp only [child, Shard.mk.injEq, true_and]
    simp only at h2
    rw [← h2]; simp

theorem does_rest (f : List Shard) (D : List Shard) (hord : D.Pairwise (fun a b => ¬ b.le a)) (hlen : ∀ p ∈ D, p.path.length < 60)
    (hpar : ∀ p ∈ D, p ∈ f ∨ ∃ q ∈ D, ∃ b, p = child q b) : ∀ (rest P : List Shard), D = P ++ rest →
    DoesAll (shardsAfter f P) (rest.map .split) (shardsAfter f D) := by
  intro rest
  induction rest with
  | nil => intro P h; rw [List.append_nil] at h; rw [h]; exact .nil _
  | cons p rest ih =>
    intro P h
    have hpD : p ∈ D := by rw [h]; simp
    have hord2 := hord
    rw [h, List.pairwise_append, List.pairwise_cons] at hord2
    obtain ⟨_, ⟨hp1, _⟩, hp2⟩ := hord2
    have hpP : p ∉ P := fun hp => hp2 p hp p (by simp) (le_refl _)
    have hS : shardsAfter f P p := by
      refine ⟨?_, hpP⟩
      rcases hpar p hpD with h1 | ⟨q, hq, b, hb⟩
      · exact Or.inl h1
      · right
        refine ⟨q, ?_, b, hb⟩
        rw [h] at hq
        rcases List.mem_append.1 hq with hq | hq
        · exact hq
        · exfalso
          rcases List.mem_cons.1 hq with rfl | hq
          · exact (lt_child q b).2 hb
          · exact hp1 q hq (hb ▸ le_child q b)
    have heq : (fun x => (shardsAfter f P x ∧ x ≠ p) ∨ x = ⟨p.wc, p.path ++ [false]⟩ ∨ x = ⟨p.wc, p.path ++ [true]⟩) = shardsAfter f (P ++ [p]) := by
      funext x
      apply propext
      constructor
      · rintro (⟨⟨h1, h2⟩, h3⟩ | hx)
        · refine ⟨?_, by simp [h2, h3]⟩
          rcases h1 with h1 | ⟨q, hq, b, hb⟩
          · exact Or.inl h1
          · exact Or.inr ⟨q, by simp [hq], b, hb⟩
        · have : ∃ b, x = child p b := by
            rcases hx with rfl | rfl
            · exact ⟨false, rfl⟩
            · exact ⟨true, rfl⟩
          obtain ⟨b, rfl⟩ := this
          refine ⟨Or.inr ⟨p, by simp, b, rfl⟩, ?_⟩
          intro hm
          rcases List.mem_append.1 hm with hm | hm
          · exact hp2 _ hm p (by simp) (le_child p b)
          · rw [List.mem_singleton] at hm
            exact (lt_child p b).2 hm.symm
      · rintro ⟨h1, h2⟩
        rw [List.mem_append, List.mem_singleton, not_or] at h2
        rcases h1 with h1 | ⟨q, hq, b, hb⟩
        · exact Or.inl ⟨⟨Or.inl h1, h2.1⟩, h2.2⟩
        · rcases List.mem_append.1 hq with hq | hq
          · exact Or.inl ⟨⟨Or.inr ⟨q, hq, b, hb⟩, h2.1⟩, h2.2⟩
          · rw [List.mem_singleton] at hq
            subst hq
            right
            cases b
            · exact Or.inl hb
            · exact Or.inr hb
    rw [List.map_cons]
    refine .cons _ _ _ _ _ (.split _ p hS (hlen p hpD)) ?_
    rw [heq]
    exact ih (P ++ [p]) (by rw [h]; simp)

theorem apart_mem {t : List Shard} (h : Apart t) {x y : Shard} (hx : x ∈ t) (hy : y ∈ t) (e : x ≠ y) : ¬ x.le y := by
  induction t with
  | nil => simp at hx
  | cons a t ih =>
    unfold Apart at h
    rw [List.pairwise_cons] at h
    rcases List.mem_cons.1 hx with hx1 | hx1
    · rcases List.mem_cons.1 hy with hy1 | hy1
      · exact absurd (hx1.trans hy1.symm) e
      · rw [hx1]; exact (h.1 y hy1).1
    · rcases List.mem_cons.1 hy with hy1 | hy1
      · rw [hy1]; exact (h.1 x hx1).2
      · exact ih h.2 hx1 hy1

/-- C159: the actions can be carried out in their order; then every wanted shard that is in or below a present one is there, and no shard is left
that is above a wanted one. -/
theorem carries_over (f t : List Shard) (l : List Action) (hf : f ≠ []) (ha : Apart f) (hat : Apart t) (hv : Valid t) (h : Returns f t (some l)) :
    ∃ S, DoesAll (fun x => x ∈ f) l S ∧ (∀ x ∈ t, (∃ s ∈ f, s.le x) → S x) ∧ (∀ x, S x → (∃ s ∈ f, s.le x) ∧ ∀ y ∈ t, ¬ x.lt y) := by
  obtain ⟨D, E, h1, h2, h3⟩ := returns_some f t hv (Or.inl hf)
  obtain ⟨h4, fs, h5, h6⟩ := h3 ha
  rw [if_neg hf] at h5
  subst h5
  have hd : D.Nodup := h4.imp (fun hab => by rintro rfl; exact hab (le_refl _))
  have hl := returns_unique h h1
  have he : fs.isEmpty = false := by simpa using hf
  rw [he] at hl
  simp only [Bool.false_eq_true, if_false, List.nil_append, Option.some.injEq] at hl
  rw [dedup_copies h2 hd] at hl
  subst hl
  refine ⟨shardsAfter fs D, ?_, ?_, ?_⟩
  · have h0 : (fun x => x ∈ fs) = shardsAfter fs [] := by
      funext x; simp [shardsAfter]
    rw [h0]
    refine does_rest fs D h4 ?_ ?_ D [] rfl
    · intro p hp
      obtain ⟨_, _, x, hx, _, hlt⟩ := (h6 p).1 hp
      have := lt_length hlt
      have := hv x hx
      omega
    · intro p hp
      obtain ⟨s, hs, x, hx, h7, h8⟩ := (h6 p).1 hp
      by_cases hsp : s = p
      · exact Or.inl (hsp ▸ hs)
      · obtain ⟨q, b, rfl, hq⟩ := parent_of ⟨h7, hsp⟩
        refine Or.inr ⟨q, (h6 q).2 ⟨s, hs, x, hx, hq, ?_⟩, b, rfl⟩
        refine ⟨le_trans (le_child q b) h8.1, fun e => ?_⟩
        have := le_antisymm (le_child q b) (e ▸ h8.1)
        exact (lt_child q b).2 this
  · rintro x hx ⟨s, hs, hsx⟩
    refine ⟨?_, ?_⟩
    · by_cases he : s = x
      · exact Or.inl (he ▸ hs)
      · obtain ⟨q, b, rfl, hq⟩ := parent_of ⟨hsx, he⟩
        exact Or.inr ⟨q, (h6 q).2 ⟨s, hs, _, hx, hq, lt_child q b⟩, b, rfl⟩
    · intro hD
      obtain ⟨_, _, y, hy, _, hlt⟩ := (h6 x).1 hD
      rcases Classical.em (x = y) with e | e
      · exact hlt.2 e
      · exact apart_mem hat hx hy e hlt.1
  · rintro x ⟨h7, h8⟩
    have hle : ∃ s ∈ fs, s.le x := by
      rcases h7 with h7 | ⟨p, hp, b, rfl⟩
      · exact ⟨x, h7, le_refl _⟩
      · obtain ⟨s, hs, _, _, h9, _⟩ := (h6 p).1 hp
        exact ⟨s, hs, le_trans h9 (le_child p b)⟩
    refine ⟨hle, ?_⟩
    intro y hy hlt
    obtain ⟨s, hs, hsx⟩ := hle
    exact h8 ((h6 x).2 ⟨s, hs, y, hy, hsx, hlt⟩)

end Tycho.SplitMerge
