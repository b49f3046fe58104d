import Verif.BlocksCache.Spec
/-! Facts about the extraction loop. -/
namespace Tycho.BlocksCache
open Tycho.Table

theorem reach_hit {t : Table (Nat × Nat) Entry} {mc : Nat} {i : Id} {q : List Id} {e : Entry}
    (h : get t i.key = some e) (hr : e.ref = mc) (k : Nat × Nat) :
    Reach t mc (i :: q) k ↔ k = i.key ∨ Reach (del t (fun j => decide (j = i.key))) mc (q ++ e.prevs) k := by
  constructor
  · intro hk
    induction hk with
    | base hm =>
      rcases List.mem_cons.mp hm with rfl | hm
      · exact Or.inl rfl
      · exact Or.inr (.base (by simp [hm]))
    | @next k e' p hk hg hr' hp ih =>
      by_cases hki : k = i.key
      · subst hki
        rw [h] at hg; cases hg
        exact Or.inr (.base (by simp [hp]))
      · rcases ih with ih | ih
        · exact absurd ih hki
        · refine Or.inr (.next ih ?_ hr' hp)
          rw [get_del]; simp [hki, hg]
  · rintro (rfl | hk)
    · exact .base (by simp)
    · induction hk with
      | base hm =>
        rcases List.mem_append.mp hm with hm | hm
        · exact .base (by simp [hm])
        · exact .next (.base (i := i) (by simp)) h hr hm
      | @next k e' p hk hg hr' hp ih =>
        rw [get_del] at hg
        by_cases hki : k = i.key
        · simp [hki] at hg
        · simp only [decide_eq_true_eq, hki, if_false] at hg
          exact .next ih hg hr' hp

theorem reach_miss {t : Table (Nat × Nat) Entry} {mc : Nat} {i : Id} {q : List Id}
    (h : ∀ e, get t i.key = some e → e.ref ≠ mc) (k : Nat × Nat) :
    Reach t mc (i :: q) k ↔ k = i.key ∨ Reach (del t (fun j => decide (j = i.key))) mc q k := by
  constructor
  · intro hk
    induction hk with
    | base hm =>
      rcases List.mem_cons.mp hm with rfl | hm
      · exact Or.inl rfl
      · exact Or.inr (.base (by simp [hm]))
    | @next k e' p hk hg hr' hp ih =>
      by_cases hki : k = i.key
      · subst hki
        exact absurd hr' (h _ hg)
      · rcases ih with ih | ih
        · exact absurd ih hki
        · refine Or.inr (.next ih ?_ hr' hp)
          rw [get_del]; simp [hki, hg]
  · rintro (rfl | hk)
    · exact .base (by simp)
    · induction hk with
      | base hm => exact .base (by simp [hm])
      | @next k e' p hk hg hr' hp ih =>
        rw [get_del] at hg
        by_cases hki : k = i.key
        · simp [hki] at hg
        · simp only [decide_eq_true_eq, hki, if_false] at hg
          exact .next ih hg hr' hp

theorem reach_none {t : Table (Nat × Nat) Entry} {mc : Nat} {i : Id} {q : List Id}
    (h : get t i.key = none) (k : Nat × Nat) :
    Reach t mc (i :: q) k ↔ k = i.key ∨ Reach t mc q k := by
  constructor
  · intro hk
    induction hk with
    | base hm =>
      rcases List.mem_cons.mp hm with rfl | hm
      · exact Or.inl rfl
      · exact Or.inr (.base hm)
    | @next k e' p hk hg hr' hp ih =>
      rcases ih with ih | ih
      · subst ih; rw [h] at hg; cases hg
      · exact Or.inr (.next ih hg hr' hp)
  · rintro (rfl | hk)
    · exact .base (by simp)
    · induction hk with
      | base hm => exact .base (by simp [hm])
      | next hk hg hr' hp ih => exact .next ih hg hr' hp

theorem reach_nil {t : Table (Nat × Nat) Entry} {mc : Nat} {k : Nat × Nat} : ¬ Reach t mc [] k := by
  intro hk
  induction hk with
  | base hm => simp at hm
  | next _ _ _ _ ih => exact ih

theorem sum_del_le (t : Table (Nat × Nat) Entry) (p : Nat × Nat → Bool) :
    ((del t p).map (fun x => x.2.prevs.length)).sum ≤ (t.map (fun x => x.2.prevs.length)).sum := by
  induction t with
  | nil => simp [del]
  | cons x t ih =>
    unfold del at *
    by_cases h : p x.1
    · rw [List.filter_cons_of_neg (by simp [h])]; simp; omega
    · rw [List.filter_cons_of_pos (by simp [h])]; simp; omega

theorem sum_del_hit (t : Table (Nat × Nat) Entry) (k : Nat × Nat) (e : Entry) (h : get t k = some e) :
    ((del t (fun j => decide (j = k))).map (fun x => x.2.prevs.length)).sum + e.prevs.length ≤
      (t.map (fun x => x.2.prevs.length)).sum := by
  induction t with
  | nil => simp [Table.get] at h
  | cons x t ih =>
    unfold Table.get at h
    split at h
    · rename_i hk
      cases h
      have := sum_del_le t (fun j => decide (j = k))
      unfold del at *
      rw [List.filter_cons_of_neg (by simp [hk])]; simp only at this; simp; omega
    · rename_i hk
      have := ih h
      unfold del at *
      rw [List.filter_cons_of_pos (by simp [hk])]; simp only at this; simp; omega

/-- The loop always ends: within `steps` iterations the queue is empty. -/
theorem drain_done (mc : Nat) (f : Nat) (t : Table (Nat × Nat) Entry) (sy : Nat → Option Nat) (q : List Id)
    (out : List Entry) (h : steps t q ≤ f) : (drain mc f t sy q out).2.2.1 = [] := by
  induction f generalizing t sy q out with
  | zero =>
    unfold steps at h
    have : q.length = 0 := by omega
    simp [drain, List.length_eq_zero_iff.mp this]
  | succ f ih =>
    cases q with
    | nil => simp [drain]
    | cons i q =>
      unfold drain
      unfold steps at h
      simp only [List.length_cons] at h
      split
      · apply ih; unfold steps; omega
      · rename_i e he
        have h2 := sum_del_hit t i.key e he
        split
        · apply ih; unfold steps; simp only [List.length_append]; omega
        · apply ih; unfold steps; omega

/-- The effect of the loop when it has enough iterations: the reachable slots are emptied and nothing else changes. -/
theorem drain_table (mc : Nat) (f : Nat) (t : Table (Nat × Nat) Entry) (sy : Nat → Option Nat) (q : List Id)
    (out : List Entry) (h : steps t q ≤ f) (k : Nat × Nat) :
    (Reach t mc q k → get (drain mc f t sy q out).1 k = none) ∧
      (¬ Reach t mc q k → get (drain mc f t sy q out).1 k = get t k) := by
  induction f generalizing t sy q out with
  | zero =>
    unfold steps at h
    have : q.length = 0 := by omega
    have hq := List.length_eq_zero_iff.mp this
    subst hq
    exact ⟨fun hk => absurd hk reach_nil, by simp [drain]⟩
  | succ f ih =>
    cases q with
    | nil => exact ⟨fun hk => absurd hk reach_nil, by simp [drain]⟩
    | cons i q =>
      unfold drain
      unfold steps at h
      simp only [List.length_cons] at h
      split
      · rename_i hn
        have h1 := ih t sy q out (by unfold steps; omega)
        rw [reach_none hn k]
        constructor
        · rintro (rfl | hk)
          · by_cases hr : Reach t mc q i.key
            · exact h1.1 hr
            · rw [h1.2 hr, hn]
          · exact h1.1 hk
        · intro hk; exact h1.2 (fun hr => hk (Or.inr hr))
      · rename_i e he
        have h2 := sum_del_hit t i.key e he
        split
        · rename_i hr
          have h1 := ih (del t (fun j => decide (j = i.key))) (refresh sy i.shard e.id.seqno) (q ++ e.prevs)
            (out ++ [e]) (by unfold steps; simp only [List.length_append]; omega)
          rw [reach_hit he hr k]
          rw [get_del] at h1
          constructor
          · rintro (rfl | hk)
            · by_cases hr2 : Reach (del t (fun j => decide (j = i.key))) mc (q ++ e.prevs) i.key
              · exact h1.1 hr2
              · rw [h1.2 hr2]; simp
            · exact h1.1 hk
          · intro hk
            rw [h1.2 (fun hr => hk (Or.inr hr))]
            have : k ≠ i.key := fun h => hk (Or.inl h)
            simp [this]
        · rename_i hr
          have h1 := ih (del t (fun j => decide (j = i.key))) sy q out (by unfold steps; omega)
          rw [reach_miss (t := t) (mc := mc) (q := q) (i := i) (by rw [he]; intro e' h'; cases h'; exact hr) k]
          rw [get_del] at h1
          constructor
          · rintro (rfl | hk)
            · by_cases hr2 : Reach (del t (fun j => decide (j = i.key))) mc q i.key
              · exact h1.1 hr2
              · rw [h1.2 hr2]; simp
            · exact h1.1 hk
          · intro hk
            rw [h1.2 (fun hr => hk (Or.inr hr))]
            have : k ≠ i.key := fun h => hk (Or.inl h)
            simp [this]

/-- The blocks the loop outputs: appended to those output before, and exactly the reachable cached blocks that reference
the master block. -/
theorem drain_out (mc : Nat) (f : Nat) (t : Table (Nat × Nat) Entry) (sy : Nat → Option Nat) (q : List Id)
    (out : List Entry) (h : steps t q ≤ f) :
    ∃ ext, (drain mc f t sy q out).2.2.2 = out ++ ext ∧
      ∀ e, e ∈ ext ↔ ∃ k, Reach t mc q k ∧ get t k = some e ∧ e.ref = mc := by
  induction f generalizing t sy q out with
  | zero =>
    unfold steps at h
    have : q.length = 0 := by omega
    have hq := List.length_eq_zero_iff.mp this
    subst hq
    refine ⟨[], by simp [drain], ?_⟩
    intro e
    constructor
    · intro h; simp at h
    · rintro ⟨k, hk, _⟩; exact absurd hk reach_nil
  | succ f ih =>
    cases q with
    | nil =>
      refine ⟨[], by simp [drain], ?_⟩
      intro e
      constructor
      · intro h; simp at h
      · rintro ⟨k, hk, _⟩; exact absurd hk reach_nil
    | cons i q =>
      unfold drain
      unfold steps at h
      simp only [List.length_cons] at h
      split
      · rename_i hn
        obtain ⟨ext, h1, h2⟩ := ih t sy q out (by unfold steps; omega)
        refine ⟨ext, h1, ?_⟩
        intro e
        rw [h2]
        constructor
        · rintro ⟨k, hk, hg, hr⟩
          exact ⟨k, (reach_none hn k).mpr (Or.inr hk), hg, hr⟩
        · rintro ⟨k, hk, hg, hr⟩
          rcases (reach_none hn k).mp hk with rfl | hk
          · rw [hn] at hg; cases hg
          · exact ⟨k, hk, hg, hr⟩
      · rename_i e0 he
        have h2 := sum_del_hit t i.key e0 he
        split
        · rename_i hr
          obtain ⟨ext, h3, h4⟩ := ih (del t (fun j => decide (j = i.key))) (refresh sy i.shard e0.id.seqno)
            (q ++ e0.prevs) (out ++ [e0]) (by unfold steps; simp only [List.length_append]; omega)
          refine ⟨e0 :: ext, by rw [h3]; simp, ?_⟩
          intro e
          rw [List.mem_cons, h4]
          constructor
          · rintro (rfl | ⟨k, hk, hg, hr2⟩)
            · exact ⟨i.key, .base (by simp), he, hr⟩
            · refine ⟨k, (reach_hit he hr k).mpr (Or.inr hk), ?_, hr2⟩
              rw [get_del] at hg
              by_cases hki : k = i.key
              · simp [hki] at hg
              · simpa [hki] using hg
          · rintro ⟨k, hk, hg, hr2⟩
            by_cases hki : k = i.key
            · subst hki; rw [he] at hg; cases hg; exact Or.inl rfl
            · rcases (reach_hit he hr k).mp hk with h | hk
              · exact absurd h hki
              · exact Or.inr ⟨k, hk, by rw [get_del]; simp [hki, hg], hr2⟩
        · rename_i hr
          obtain ⟨ext, h3, h4⟩ := ih (del t (fun j => decide (j = i.key))) sy q out (by unfold steps; omega)
          refine ⟨ext, h3, ?_⟩
          have hmiss := reach_miss (t := t) (mc := mc) (q := q) (i := i)
            (by rw [he]; intro e' h'; cases h'; exact hr)
          intro e
          rw [h4]
          constructor
          · rintro ⟨k, hk, hg, hr2⟩
            refine ⟨k, (hmiss k).mpr (Or.inr hk), ?_, hr2⟩
            rw [get_del] at hg
            by_cases hki : k = i.key
            · simp [hki] at hg
            · simpa [hki] using hg
          · rintro ⟨k, hk, hg, hr2⟩
            by_cases hki : k = i.key
            · subst hki; rw [he] at hg; cases hg; exact absurd hr2 hr
            · rcases (hmiss k).mp hk with h | hk
              · exact absurd h hki
              · exact ⟨k, hk, by rw [get_del]; simp [hki, hg], hr2⟩

/-- The blocks stored under their own keys. -/
def Keyed (t : Table (Nat × Nat) Entry) : Prop := ∀ k e, get t k = some e → e.id.key = k

theorem keyed_del {t : Table (Nat × Nat) Entry} (h : Keyed t) (p : Nat × Nat → Bool) : Keyed (del t p) := by
  intro k e hg
  rw [get_del] at hg
  split at hg
  · cases hg
  · exact h k e hg

/-- Each block is output once, in an order where a block that is not a starting one comes after a block it precedes in
the chain; the synced seqnos are raised to those of the output blocks. -/
theorem drain_order (mc : Nat) (f : Nat) (t : Table (Nat × Nat) Entry) (sy : Nat → Option Nat) (q : List Id)
    (out : List Entry) (hkd : Keyed t) :
    ∃ ext, (drain mc f t sy q out).2.2.2 = out ++ ext ∧
      (ext.map (·.id.key)).Nodup ∧
      (∀ e ∈ ext, get t e.id.key = some e) ∧
      (∀ a e b, ext = a ++ e :: b → (∃ i ∈ q, i.key = e.id.key) ∨ ∃ c ∈ a, ∃ p ∈ c.prevs, p.key = e.id.key) ∧
      (drain mc f t sy q out).2.1 = ext.foldl (fun sy e => refresh sy e.id.shard e.id.seqno) sy := by
  induction f generalizing t sy q out with
  | zero => exact ⟨[], by simp [drain]⟩
  | succ f ih =>
    cases q with
    | nil => exact ⟨[], by simp [drain]⟩
    | cons i q =>
      unfold drain
      split
      · rename_i hn
        obtain ⟨ext, h1, h2, h3, h4, h5⟩ := ih t sy q out hkd
        refine ⟨ext, h1, h2, h3, ?_, h5⟩
        intro a e b hab
        rcases h4 a e b hab with ⟨j, hj, hk⟩ | h
        · exact Or.inl ⟨j, by simp [hj], hk⟩
        · exact Or.inr h
      · rename_i e0 he
        have hk0 := hkd _ _ he
        split
        · rename_i hr
          obtain ⟨ext, h1, h2, h3, h4, h5⟩ := ih (del t (fun j => decide (j = i.key)))
            (refresh sy i.shard e0.id.seqno) (q ++ e0.prevs) (out ++ [e0]) (keyed_del hkd _)
          refine ⟨e0 :: ext, by rw [h1]; simp, ?_, ?_, ?_, ?_⟩
          · simp only [List.map_cons, List.nodup_cons]
            refine ⟨?_, h2⟩
            intro hm
            obtain ⟨e, he2, hke⟩ := List.mem_map.mp hm
            have := h3 e he2
            rw [get_del] at this
            rw [hke, hk0] at this
            simp at this
          · intro e hm
            rcases List.mem_cons.mp hm with rfl | hm
            · rw [hk0]; exact he
            · have := h3 e hm
              rw [get_del] at this
              split at this
              · cases this
              · exact this
          · intro a e b hab
            cases a with
            | nil =>
              simp only [List.nil_append, List.cons.injEq] at hab
              left
              exact ⟨i, by simp, by rw [← hab.1, hk0]⟩
            | cons x a =>
              simp only [List.cons_append, List.cons.injEq] at hab
              rcases h4 a e b hab.2 with ⟨j, hj, hk⟩ | ⟨c, hc, p, hp, hk⟩
              · rcases List.mem_append.mp hj with hj | hj
                · exact Or.inl ⟨j, by simp [hj], hk⟩
                · exact Or.inr ⟨x, by simp, j, by rw [← hab.1]; exact hj, hk⟩
              · exact Or.inr ⟨c, by simp [hc], p, hp, hk⟩
          · rw [h5]
            simp only [List.foldl_cons]
            congr 1
            have : e0.id.shard = i.shard := by
              have := congrArg Prod.fst hk0
              exact this
            rw [this]
        · rename_i hr
          obtain ⟨ext, h1, h2, h3, h4, h5⟩ := ih (del t (fun j => decide (j = i.key))) sy q out (keyed_del hkd _)
          refine ⟨ext, h1, h2, ?_, ?_, h5⟩
          · intro e hm
            have := h3 e hm
            rw [get_del] at this
            split at this
            · cases this
            · exact this
          · intro a e b hab
            rcases h4 a e b hab with ⟨j, hj, hk⟩ | h
            · exact Or.inl ⟨j, by simp [hj], hk⟩
            · exact Or.inr h

end Tycho.BlocksCache
