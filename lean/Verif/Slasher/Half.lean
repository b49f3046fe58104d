import Verif.Slasher.Analyze
import Verif.Slasher.Wilson
/-!
C158: with the comparison of rates of the analyzer (over the reals), one observer accuses less than half of the others, and only nodes whose rate
of valid signatures is at most `factor` of the middle rate.
-/
namespace Tycho.Slasher

/-- The bound is positive. -/
theorem wilson_pos (hits samples : Nat) (z : ℝ) (hz : 0 < z) (hs : 0 < samples) (hh : hits ≤ samples) : 0 < wilson hits samples z := by
  have hn : (0 : ℝ) < samples := by exact_mod_cast hs
  by_cases h : hits = 0
  · subst h
    rw [wilson_zero samples z hz.le hs]
    positivity
  · have h1 := wilson_ge hits samples z hz.le hs hh
    have h2 : (0 : ℝ) < hits := by exact_mod_cast Nat.pos_of_ne_zero h
    have h3 : (0 : ℝ) < hits / samples := by positivity
    linarith

/-- In an ordered list not more than `k` elements are less than the one at `k`. -/
theorem few_below : ∀ (l : List Nat) (k v : Nat), l.Pairwise (· ≤ ·) → l[k]? = some v → (l.filter (fun x => decide (x < v))).length ≤ k := by
  intro l
  induction l with
  | nil => intro k v _ h; simp at h
  | cons a l ih =>
    intro k v hp h
    rw [List.pairwise_cons] at hp
    cases k with
    | zero =>
      simp only [List.getElem?_cons_zero, Option.some.injEq] at h
      subst h
      rw [List.filter_eq_nil_iff.2]
      · simp
      · intro x hx
        rcases List.mem_cons.1 hx with rfl | hx
        · simp
        · have := hp.1 x hx
          simp; omega
    | succ k =>
      simp only [List.getElem?_cons_succ] at h
      have := ih k v hp.2 h
      rw [List.filter_cons]
      split
      · simp; omega
      · omega

theorem below_middle (l : List Nat) (h : l ≠ []) : (l.filter (fun x => decide (x < middle l))).length ≤ l.length / 2 := by
  have hlen : 0 < l.length := List.length_pos_iff.2 h
  have hs : (l.mergeSort).Pairwise (· ≤ ·) := by
    have := List.pairwise_mergeSort (le := fun a b : Nat => decide (a ≤ b)) (by intro a b c h1 h2; simp at *; omega) (by intro a b; simp; omega) l
    exact this.imp (by intro a b h; simpa using h)
  have hp : (l.mergeSort).Perm l := List.mergeSort_perm l _
  have hk : l.length / 2 < (l.mergeSort).length := by rw [hp.length_eq]; omega
  have hm : (l.mergeSort)[l.length / 2]? = some (middle l) := by
    unfold middle
    rw [List.getD_eq_getElem?_getD, List.getElem?_eq_getElem hk]; rfl
  have := few_below _ _ _ hs hm
  rwa [(hp.filter _).length_eq] at this

/-- C158: a node is accused by an observer only for a rate of valid signatures at most `factor` of the middle rate. -/
theorem accuses_slow (factor z : ℝ) (hz : 0 < z) (cfg : Config) (hslow : cfg.slow = slowReal factor z) (ws : List Nat) (l : List (Nat × Batch)) (c : Counts)
    (hc : countAll ws l = some c) (o x : Nat) (hs : 0 < cfg.samplesThr) (h : accuses cfg ws.length c o x = true) :
    (c.valid o x : ℝ) ≤ middle (((List.range ws.length).filter (fun i => decide (i ≠ o))).map (c.valid o)) * factor ∧
    0 < (middle (((List.range ws.length).filter (fun i => decide (i ≠ o))).map (c.valid o)) : ℝ) * factor := by
  unfold accuses at h
  simp only [Bool.and_eq_true, Bool.not_eq_true', decide_eq_false_iff_not, decide_eq_true_eq] at h
  obtain ⟨⟨h1, h2⟩, h3⟩ := h
  rw [hslow] at h3
  have hv := valid_le_samples ws l c hc o x
  have hsp : 0 < c.samples o := by omega
  have hn : (0 : ℝ) < c.samples o := by exact_mod_cast hsp
  have hw := wilson_pos (c.valid o x) (c.samples o) z hz hsp hv
  refine ⟨?_, ?_⟩
  · by_contra hlt
    rw [not_le] at hlt
    have := fast_not_slow factor z hz.le (c.valid o x) (c.samples o) _ hsp hv hlt
    rw [this] at h3; cases h3
  · unfold slowReal at h3
    have h4 := of_decide_eq_true h3
    have h5 := lt_of_lt_of_le hw h4
    rw [div_mul_eq_mul_div] at h5
    exact (div_pos_iff_of_pos_right hn).1 h5

/-- C158: one observer accuses at most half of the other nodes, whatever its batches say. -/
theorem at_most_half (factor z : ℝ) (hz : 0 < z) (hf : factor < 1) (cfg : Config) (hslow : cfg.slow = slowReal factor z) (ws : List Nat)
    (l : List (Nat × Batch)) (c : Counts) (hc : countAll ws l = some c) (o : Nat) (hs : 0 < cfg.samplesThr) (hn : 2 ≤ ws.length) (ho : o < ws.length) :
    ((List.range ws.length).filter (fun x => accuses cfg ws.length c o x)).length ≤ (ws.length - 1) / 2 := by
  have hlen : ((List.range ws.length).filter (fun i => decide (i ≠ o))).length = ws.length - 1 := by
    have h1 := List.length_eq_length_filter_add (l := List.range ws.length) (fun i => decide (i ≠ o))
    have h2 : ((List.range ws.length).filter (fun i => !decide (i ≠ o))).length = 1 := by
      have h3 := List.nodup_iff_count_eq_one.1 (List.nodup_range (n := ws.length)) o (List.mem_range.2 ho)
      rw [List.count_eq_length_filter] at h3
      rw [← h3]
      congr 1
      apply List.filter_congr
      intro a _
      simp [beq_eq_decide]
    rw [List.length_range] at h1
    omega
  have hsub : ((List.range ws.length).filter (fun x => accuses cfg ws.length c o x)).length ≤
      (((List.range ws.length).filter (fun i => decide (i ≠ o))).map (c.valid o) |>.filter (fun v => decide (v <
        middle (((List.range ws.length).filter (fun i => decide (i ≠ o))).map (c.valid o))))).length := by
    rw [List.filter_map, List.length_map, List.filter_filter]
    have hmono : ∀ (l : List Nat) (p q : Nat → Bool), (∀ x ∈ l, p x = true → q x = true) → (l.filter p).length ≤ (l.filter q).length := by
      intro l p q h
      rw [← List.countP_eq_length_filter, ← List.countP_eq_length_filter]
      exact List.countP_mono_left h
    apply hmono
    intro x _ hx
    obtain ⟨h1, h2⟩ := accuses_slow factor z hz cfg hslow ws l c hc o x hs hx
    simp only [Bool.and_eq_true, Function.comp, decide_eq_true_eq]
    have hne : x ≠ o := by
      unfold accuses at hx
      simp only [Bool.and_eq_true, decide_eq_true_eq] at hx
      exact hx.1.2
    refine ⟨?_, hne⟩
    have h3 : (0 : ℝ) ≤ (middle (((List.range ws.length).filter (fun i => decide (i ≠ o))).map (c.valid o)) : ℝ) := Nat.cast_nonneg _
    have h4 : (c.valid o x : ℝ) < (middle (((List.range ws.length).filter (fun i => decide (i ≠ o))).map (c.valid o)) : ℝ) := by
      rcases h3.eq_or_lt with h | h
      · rw [← h] at h2; simp at h2
      · nlinarith
    exact_mod_cast h4
  refine Nat.le_trans hsub ?_
  have hne : ((List.range ws.length).filter (fun i => decide (i ≠ o))).map (c.valid o) ≠ [] := by
    intro h
    have := congrArg List.length h
    rw [List.length_map, hlen] at this
    simp at this; omega
  have := below_middle _ hne
  rw [List.length_map, hlen] at this
  exact this

end Tycho.Slasher
