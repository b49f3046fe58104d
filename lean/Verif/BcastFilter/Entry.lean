import Verif.BcastFilter.Spec
/-! The entry of an author against the list of points heard. -/
namespace Tycho.BcastFilter
open Tycho.Table (Table get put del)

/-- The entry that a list of points leads to. -/
def entryOf (l : List Pt) (a : Nat) : Option ByAuthor := (firstBy l a).map fun p =>
  ⟨⟨p, min 65535 (times l a p.digest - 1)⟩, (forkBy l a).map fun q => ⟨q, min 65535 (times l a q.digest - 1)⟩⟩

theorem firstBy_snoc (l : List Pt) (p : Pt) (a : Nat) :
    firstBy (l ++ [p]) a = (firstBy l a).or (if p.author = a then some p else none) := by
  unfold firstBy
  rw [List.find?_append]
  simp [List.find?_cons]
  split <;> simp_all

theorem firstBy_author {l : List Pt} {a : Nat} {p : Pt} (h : firstBy l a = some p) : p.author = a ∧ p ∈ l :=
  ⟨by simpa using List.find?_some h, List.mem_of_find?_eq_some h⟩

theorem forkBy_author {l : List Pt} {a : Nat} {q : Pt} (h : forkBy l a = some q) :
    q.author = a ∧ q ∈ l ∧ ∃ f, firstBy l a = some f ∧ q.digest ≠ f.digest := by
  unfold forkBy at h
  split at h
  · cases h
  · rename_i f hf
    have h1 := List.find?_some h
    simp only [Bool.and_eq_true, decide_eq_true_eq] at h1
    exact ⟨h1.1, List.mem_of_find?_eq_some h, f, hf, h1.2⟩

theorem forkBy_snoc (l : List Pt) (p : Pt) (a : Nat) :
    forkBy (l ++ [p]) a = match firstBy l a with
      | none => none
      | some f => (forkBy l a).or (if p.author = a ∧ p.digest ≠ f.digest then some p else none) := by
  unfold forkBy
  rw [firstBy_snoc]
  cases hf : firstBy l a with
  | none =>
    simp only [Option.none_or]
    by_cases hp : p.author = a
    · rw [if_pos hp]
      simp only [List.find?_eq_none]
      intro q hq
      rcases List.mem_append.mp hq with hq | hq
      · have := List.find?_eq_none.mp hf q hq
        simp only [decide_eq_true_eq] at this
        simp [this]
      · simp only [List.mem_singleton] at hq; subst hq; simp
    · rw [if_neg hp]
  | some f =>
    simp only [Option.some_or, List.find?_append]
    congr 1
    simp only [List.find?_cons, List.find?_nil]
    split
    · rename_i h; simp only [Bool.and_eq_true, decide_eq_true_eq] at h; rw [if_pos h]
    · rename_i h; rw [if_neg]; intro h2; simp [h2] at h

theorem times_snoc (l : List Pt) (p : Pt) (a d : Nat) :
    times (l ++ [p]) a d = times l a d + if p.author = a ∧ p.digest = d then 1 else 0 := by
  unfold times
  rw [List.countP_append]
  simp only [List.countP_cons, List.countP_nil, Bool.and_eq_true, decide_eq_true_eq]
  omega

theorem times_pos {l : List Pt} {p : Pt} (h : p ∈ l) : 0 < times l p.author p.digest := by
  unfold times
  rw [List.countP_pos_iff]
  exact ⟨p, h, by simp⟩

theorem times_zero {l : List Pt} {a d : Nat} (h : ∀ p ∈ l, p.author = a → p.digest ≠ d) : times l a d = 0 := by
  unfold times
  rw [List.countP_eq_zero]
  intro p hp h2
  simp only [Bool.and_eq_true, decide_eq_true_eq] at h2
  exact h p hp h2.1 h2.2

theorem entryOf_other (l : List Pt) (p : Pt) (a : Nat) (h : p.author ≠ a) : entryOf (l ++ [p]) a = entryOf l a := by
  unfold entryOf
  rw [firstBy_snoc, forkBy_snoc]
  have : ∀ d, times (l ++ [p]) a d = times l a d := by intro d; rw [times_snoc]; simp [h]
  simp only [this, h, if_false, Option.or_none, false_and]
  cases hf : firstBy l a with
  | none => rfl
  | some f => rfl

theorem entry_step (l : List Pt) (p : Pt) : (entry (entryOf l p.author) p).1 = (entryOf (l ++ [p]) p.author).getD
    ⟨⟨p, 0⟩, none⟩ ∧ entryOf (l ++ [p]) p.author ≠ none := by
  unfold entryOf
  rw [firstBy_snoc, forkBy_snoc]
  cases hf : firstBy l p.author with
  | none =>
    have hz : ∀ q ∈ l, q.author = p.author → q.digest ≠ p.digest := by
      intro q hq ha
      have := List.find?_eq_none.mp hf q hq
      simp [ha] at this
    have := times_zero hz
    simp [entry, times_snoc, this]
  | some f =>
    obtain ⟨hfa, hfm⟩ := firstBy_author hf
    have hft := times_pos hfm
    rw [hfa] at hft
    refine ⟨?_, by simp⟩
    simp only [Option.some_or, Option.map_some, Option.getD_some]
    by_cases hd : f.digest = p.digest
    · simp only [entry, hd, if_true, ne_eq, not_true_eq_false, and_false, if_false, Option.or_none, times_snoc, and_self]
      rw [hd] at hft
      have : inc16 (min 65535 (times l p.author p.digest - 1)) = min 65535 (times l p.author p.digest + 1 - 1) := by
        unfold inc16; omega
      rw [this]
      congr 1
      cases hk : forkBy l p.author with
      | none => rfl
      | some q =>
        obtain ⟨_, _, f', hf', hq⟩ := forkBy_author hk
        rw [hf] at hf'; cases hf'
        have : ¬ p.digest = q.digest := by intro h; exact hq (by rw [hd, h])
        simp [this]
    · have hd' : ¬ p.digest = f.digest := fun h => hd h.symm
      simp only [entry, hd, if_false, times_snoc, hd', and_false, Nat.add_zero]
      cases hk : forkBy l p.author with
      | none =>
        have hz : times l p.author p.digest = 0 := by
          apply times_zero
          intro q hq ha hqd
          have h1 : l.find? (fun x => decide (x.author = p.author) && decide (x.digest ≠ f.digest)) = none := by
            unfold forkBy at hk; rw [hf] at hk; exact hk
          have := List.find?_eq_none.mp h1 q hq
          simp [ha, hqd, hd'] at this
        simp [hd', hz]
      | some q =>
        obtain ⟨hqa, hqm, f', hf', hq⟩ := forkBy_author hk
        rw [hf] at hf'; cases hf'
        by_cases hqd : q.digest = p.digest
        · have ht := times_pos hqm
          rw [hqa, hqd] at ht
          have : inc16 (min 65535 (times l p.author p.digest - 1)) = min 65535 (times l p.author p.digest + 1 - 1) := by
            unfold inc16; omega
          simp [hqd, this]
        · have : ¬ p.digest = q.digest := fun h => hqd h.symm
          simp [hqd, this]

/-- Whether an author is counted by a new point. -/
theorem called_iff (l : List Pt) (p : Pt) (hp : p.well = true) :
    (entry (entryOf l p.author) p).2.1 = true ↔ ¬ WellBy l p.author ∧ WellBy (l ++ [p]) p.author := by
  unfold entryOf WellBy
  rw [firstBy_snoc, forkBy_snoc]
  cases hf : firstBy l p.author with
  | none => have : forkBy l p.author = none := by unfold forkBy; rw [hf]
            simp [entry, hp, this]
  | some f =>
    by_cases hd : f.digest = p.digest
    · simp only [Option.map_some, entry, hd, if_true]
      simp
    · have hd' : ¬ p.digest = f.digest := fun h => hd h.symm
      cases hk : forkBy l p.author with
      | none => simp [entry, hd, hd', hp]
      | some q =>
        simp only [Option.map_some, entry, hd, if_false]
        split <;> simp

theorem wellBy_mono (l : List Pt) (p : Pt) (a : Nat) (h : WellBy l a) : WellBy (l ++ [p]) a := by
  unfold WellBy at *
  rw [firstBy_snoc, forkBy_snoc]
  rcases h with ⟨q, h1, h2⟩ | ⟨q, h1, h2⟩
  · left; exact ⟨q, by simp [h1], h2⟩
  · obtain ⟨_, _, f, hf, _⟩ := forkBy_author h1
    right; exact ⟨q, by simp [h1, hf], h2⟩

theorem wellBy_other (l : List Pt) (p : Pt) (a : Nat) (ha : p.author ≠ a) (h : WellBy (l ++ [p]) a) : WellBy l a := by
  unfold WellBy at *
  rw [firstBy_snoc, forkBy_snoc] at h
  simp only [ha, if_false, Option.or_none, false_and] at h
  rcases h with h | h
  · exact Or.inl h
  · right
    split at h
    · simp at h
    · exact h

theorem wellBy_ill (l : List Pt) (p : Pt) (a : Nat) (hp : p.well = false) (h : WellBy (l ++ [p]) a) : WellBy l a := by
  unfold WellBy at *
  rw [firstBy_snoc, forkBy_snoc] at h
  rcases h with ⟨q, h1, h2⟩ | ⟨q, h1, h2⟩
  · cases hf : firstBy l a with
    | none => rw [hf] at h1; simp only [Option.none_or] at h1; split at h1 <;> simp_all
    | some f => rw [hf] at h1; left; exact ⟨q, h1, h2⟩
  · split at h1
    · cases h1
    · cases hk : forkBy l a with
      | none => rw [hk] at h1; simp only [Option.none_or] at h1; split at h1 <;> simp_all
      | some f => rw [hk] at h1; right; exact ⟨q, h1, h2⟩

theorem mem_good (l : List Pt) (a : Nat) : a ∈ goodAuthors l ↔ WellBy l a := by
  unfold goodAuthors
  simp only [Finset.mem_filter, List.mem_toFinset, List.mem_map]
  refine ⟨fun h => h.2, fun h => ⟨?_, h⟩⟩
  rcases h with ⟨p, h1, _⟩ | ⟨p, h1, _⟩
  · exact ⟨p, (firstBy_author h1).2, (firstBy_author h1).1⟩
  · exact ⟨p, (forkBy_author h1).2.1, (forkBy_author h1).1⟩

theorem good_same (l : List Pt) (p : Pt) (h : WellBy (l ++ [p]) p.author → WellBy l p.author) :
    goodAuthors (l ++ [p]) = goodAuthors l := by
  ext a
  rw [mem_good, mem_good]
  refine ⟨fun h2 => ?_, wellBy_mono l p a⟩
  by_cases ha : p.author = a
  · subst ha; exact h h2
  · exact wellBy_other l p a ha h2

theorem good_more (l : List Pt) (p : Pt) (h : ¬ WellBy l p.author) (h2 : WellBy (l ++ [p]) p.author) :
    (goodAuthors (l ++ [p])).card = (goodAuthors l).card + 1 := by
  have : goodAuthors (l ++ [p]) = insert p.author (goodAuthors l) := by
    ext a
    rw [Finset.mem_insert, mem_good, mem_good]
    constructor
    · intro h3
      by_cases ha : p.author = a
      · exact Or.inl ha.symm
      · exact Or.inr (wellBy_other l p a ha h3)
    · rintro (rfl | h3)
      · exact h2
      · exact wellBy_mono l p a h3
  rw [this, Finset.card_insert_of_notMem (by rw [mem_good]; exact h)]

/-- The count after a point. -/
theorem count_step (l : List Pt) (p : Pt) :
    (goodAuthors (l ++ [p])).card =
      if (entry (entryOf l p.author) p).2.1 && p.well then (goodAuthors l).card + 1 else (goodAuthors l).card := by
  cases hp : p.well with
  | false => rw [good_same l p (wellBy_ill l p _ hp)]; simp
  | true =>
    simp only [Bool.and_true]
    by_cases hc : (entry (entryOf l p.author) p).2.1 = true
    · rw [if_pos hc]
      have := (called_iff l p hp).mp hc
      exact good_more l p this.1 this.2
    · rw [if_neg hc, good_same l p]
      intro h
      by_contra h2
      exact hc ((called_iff l p hp).mpr ⟨h2, h⟩)

end Tycho.BcastFilter
