import Verif.Slasher.Contract
import Mathlib.Algebra.BigOperators.Group.List.Basic
/-!
C158: what an accusation takes. And the scope of a block's validation (C156).
-/
namespace Tycho.Slasher

/-- The weight of the validators of a list. -/
def weightOf (ws : List Nat) (l : List Nat) : Nat := (l.map (fun o => ws.getD o 0)).sum

/-- C158: whatever is stored, a node never accuses itself, and accuses only nodes of the main set. -/
theorem never_self (cfg : Config) (allWs : List Nat) (main last own : Nat) (starts : List Nat) (l : List (Nat × Batch)) (r : List Nat)
    (h : analyze cfg allWs main last own starts l = some r) : own ∉ r ∧ ∀ i ∈ r, i < (allWs.take main).length := by
  unfold analyze at h
  simp only at h
  split at h
  · simp only [Option.some.injEq] at h; subst h; simp
  · split at h
    · simp only [Option.some.injEq] at h; subst h; simp
    · simp only [Option.map_eq_some_iff] at h
      obtain ⟨c, _, rfl⟩ := h
      refine ⟨by simp, ?_⟩
      intro i hi
      have := (List.mem_filter.1 hi).1
      rw [List.mem_range] at this; exact this

/-- The observers that accuse a node. -/
def accusers (cfg : Config) (ws : List Nat) (c : Counts) (x : Nat) : List Nat := (List.range ws.length).filter (fun o => accuses cfg ws.length c o x)

theorem accWeight_eq (cfg : Config) (ws : List Nat) (c : Counts) (x : Nat) : accWeight cfg ws c x = weightOf ws (accusers cfg ws c x) := by
  unfold accWeight weightOf accusers
  generalize List.range ws.length = l
  induction l with
  | nil => rfl
  | cons a l ih =>
    simp only [List.map_cons, List.sum_cons, List.filter_cons, ih]
    split <;> simp

/-- C158: just when is a node accused? When it is another, and validators of more than two thirds of the weight accuse it, or it sent too many
malformed batches. -/
theorem accused_iff (cfg : Config) (allWs : List Nat) (main last own : Nat) (starts : List Nat) (l : List (Nat × Batch)) (r : List Nat) (c : Counts)
    (hc : countAll (allWs.take main) l = some c) (hlen : cfg.lenThr ≤ min (last + 1) (2 ^ 32 - 1) - starts.foldl min (2 ^ 32 - 1))
    (hn : 2 ≤ (allWs.take main).length) (h : analyze cfg allWs main last own starts l = some r) (x : Nat) :
    x ∈ r ↔ x < (allWs.take main).length ∧ x ≠ own ∧
      (2 * (allWs.take main).sum < 3 * weightOf (allWs.take main) (accusers cfg (allWs.take main) c x) ∨ cfg.malformedThr ≤ c.malformed x) := by
  unfold analyze at h
  simp only at h
  rw [if_neg (by omega), if_neg (by omega), hc] at h
  simp only [Option.map_some, Option.some.injEq] at h
  subst h
  rw [List.mem_filter, List.mem_range]
  simp only [Bool.and_eq_true, Bool.or_eq_true, decide_eq_true_eq]
  rw [accWeight_eq]
  unfold threshold
  constructor
  · rintro ⟨h1, h2, h3⟩
    refine ⟨h1, h3, ?_⟩
    rcases h2 with h2 | h2
    · left; omega
    · exact Or.inr h2
  · rintro ⟨h1, h3, h2⟩
    refine ⟨h1, ?_, h3⟩
    rcases h2 with h2 | h2
    · left; omega
    · exact Or.inr h2

theorem sum_sublist {l m : List Nat} (h : l.Sublist m) : l.sum ≤ m.sum := by
  induction h with
  | slnil => exact Nat.le_refl _
  | cons a _ ih => rw [List.sum_cons]; omega
  | cons_cons a _ ih => rw [List.sum_cons, List.sum_cons]; omega

theorem weight_le_of_subset (ws l m : List Nat) (hd : l.Nodup) (h : ∀ x ∈ l, x ∈ m) : weightOf ws l ≤ weightOf ws m := by
  have hs := List.subperm_of_subset hd h
  obtain ⟨l', hp, hsub⟩ := hs
  unfold weightOf
  rw [← (hp.map _).sum_eq]
  exact sum_sublist (hsub.map _)

/-- C158: so validators of two thirds of the weight or less cannot alone make a node accused that sends no malformed batches: some validator
outside of them accuses it too. -/
theorem minority_cannot_accuse (cfg : Config) (allWs : List Nat) (main last own : Nat) (starts : List Nat) (l : List (Nat × Batch)) (r : List Nat)
    (c : Counts) (hc : countAll (allWs.take main) l = some c)
    (hlen : cfg.lenThr ≤ min (last + 1) (2 ^ 32 - 1) - starts.foldl min (2 ^ 32 - 1)) (hn : 2 ≤ (allWs.take main).length)
    (h : analyze cfg allWs main last own starts l = some r) (x : Nat) (hx : x ∈ r) (hm : c.malformed x < cfg.malformedThr)
    (F : List Nat) (hF : 3 * weightOf (allWs.take main) F ≤ 2 * (allWs.take main).sum) :
    ∃ o, o ∉ F ∧ o < (allWs.take main).length ∧ o ≠ x ∧ cfg.samplesThr ≤ c.samples o ∧ accuses cfg (allWs.take main).length c o x = true := by
  obtain ⟨_, _, h3⟩ := (accused_iff cfg allWs main last own starts l r c hc hlen hn h x).1 hx
  rcases h3 with h3 | h3
  · by_cases hall : ∀ o ∈ accusers cfg (allWs.take main) c x, o ∈ F
    · have := weight_le_of_subset (allWs.take main) (accusers cfg (allWs.take main) c x) F (List.nodup_range.filter _) hall
      omega
    · rw [Classical.not_forall] at hall
      obtain ⟨o, ho⟩ := hall
      rw [Classical.not_imp] at ho
      obtain ⟨h1, h2⟩ := ho
      unfold accusers at h1
      rw [List.mem_filter, List.mem_range] at h1
      have ha := h1.2
      unfold accuses at ha
      simp only [Bool.and_eq_true, decide_eq_true_eq, Bool.not_eq_true', decide_eq_false_iff_not] at ha
      exact ⟨o, h2, h1.1, Ne.symm ha.1.2, by omega, h1.2⟩
  · omega

/-- The validators other than the observer whose valid signature the batch shows for its block `i`. -/
def signers (ws : List Nat) (obs : Nat) (b : Batch) (i : Nat) : List Nat :=
  (b.hist.filter (fun h => decide (h.1 < ws.length ∧ h.1 ≠ obs) && h.2.getD (i * 2 + 1) false)).map (·.1)

theorem signedWeight_eq (ws : List Nat) (obs : Nat) (b : Batch) (i : Nat) :
    signedWeight ws obs b i = if b.committed.getD i false = true then weightOf ws (signers ws obs b i) else 0 := by
  unfold signedWeight weightOf signers
  generalize b.hist = l
  induction l with
  | nil => simp
  | cons a l ih =>
    rw [List.map_cons, List.sum_cons, ih]
    by_cases hc : b.committed.getD i false = true
    · rw [if_pos hc, if_pos hc]
      rw [List.filter_cons]
      by_cases h : (decide (a.1 < ws.length ∧ a.1 ≠ obs) && a.2.getD (i * 2 + 1) false) = true
      · rw [if_pos h]
        simp only [Bool.and_eq_true, decide_eq_true_eq] at h
        rw [if_pos ⟨h.1.1, h.1.2, hc, h.2⟩]; simp
      · rw [if_neg h]
        simp only [Bool.and_eq_true, decide_eq_true_eq] at h
        rw [if_neg (fun e => h ⟨⟨e.1, e.2.1⟩, e.2.2.2⟩)]; simp
    · rw [if_neg hc, if_neg hc, if_neg (fun e => hc e.2.2.1)]

/-- C158: a block of a batch counts just when the observer committed it and, with the observer, validators of more than two thirds of the weight —
one of them another — signed it. -/
theorem sampled_iff (ws : List Nat) (obs : Nat) (b : Batch) (i : Nat) : i ∈ sampled ws obs b ↔
    b.committed[i]? = some true ∧ 0 < weightOf ws (signers ws obs b i) ∧ 2 * ws.sum < 3 * weightOf ws (obs :: signers ws obs b i) := by
  unfold sampled
  rw [List.mem_filter, List.mem_range]
  simp only [decide_eq_true_eq, blockWeight, signedWeight_eq, threshold]
  have hw : weightOf ws (obs :: signers ws obs b i) = ws.getD obs 0 + weightOf ws (signers ws obs b i) := by simp [weightOf]
  rw [hw]
  constructor
  · rintro ⟨h1, h2⟩
    have hg : b.committed.getD i false = true := by
      by_cases hg : b.committed.getD i false = true
      · exact hg
      · rw [if_neg hg] at h2; simp at h2
    rw [if_pos hg] at h2
    by_cases hz : weightOf ws (signers ws obs b i) = 0
    · rw [if_pos hz] at h2; omega
    · rw [if_neg hz] at h2
      refine ⟨?_, by omega, by omega⟩
      rw [List.getD_eq_getElem?_getD] at hg
      cases hx : b.committed[i]? with
      | none => rw [hx] at hg; simp at hg
      | some v => rw [hx] at hg; simp at hg; rw [hg]
  · rintro ⟨h1, h2, h3⟩
    have hlt : i < b.committed.length := by
      rw [List.getElem?_eq_some_iff] at h1; exact h1.1
    refine ⟨hlt, ?_⟩
    have hg : b.committed.getD i false = true := by rw [List.getD_eq_getElem?_getD, h1]; rfl
    rw [if_pos hg, if_neg (by omega)]
    omega

/-- What the counting keeps: no node has more valid signatures than the observer has samples. -/
theorem valid_le_samples (ws : List Nat) (l : List (Nat × Batch)) (c : Counts) (h : countAll ws l = some c) (o x : Nat) : c.valid o x ≤ c.samples o := by
  have : ∀ (l : List (Nat × Batch)) (c0 : Option Counts), (∀ c, c0 = some c → ∀ o x, c.valid o x ≤ c.samples o) →
      ∀ c, l.foldl (fun c e => c.bind (fun c => countBatch ws c e)) c0 = some c → ∀ o x, c.valid o x ≤ c.samples o := by
    intro l
    induction l with
    | nil => intro c0 h c hc; exact h c hc
    | cons e l ih =>
      intro c0 h0 c hc
      refine ih _ ?_ c hc
      intro c1 h1 o x
      simp only [Option.bind_eq_some_iff] at h1
      obtain ⟨c2, h2, h3⟩ := h1
      have hb := h0 c2 h2
      unfold countBatch at h3
      simp only at h3
      split at h3
      · exact absurd h3 (by simp)
      · rename_i hne
        rw [not_or, not_or] at hne
        simp only [Option.some.injEq] at h3
        subst h3
        simp only
        have hr : readable e.2 = true := by simpa using hne.1
        unfold readable at hr
        simp only [Bool.and_eq_true, decide_eq_true_eq] at hr
        have hnd := hr.1.2
        by_cases ho : o = e.1
        · subst ho
          rw [if_pos rfl]
          split
          · have hsum : ((e.2.hist.filter (fun h => decide (h.1 = x))).map (fun h =>
                ((sampled ws e.1 e.2).filter (fun i => h.2.getD (i * 2 + 1) false)).length)).sum ≤ (sampled ws e.1 e.2).length := by
              have h1 : (e.2.hist.filter (fun h => decide (h.1 = x))).length ≤ 1 := by
                have hh : ((e.2.hist.map (·.1)).filter (fun v => decide (v = x))).length ≤ 1 := by
                  have hcnt := List.nodup_iff_count.1 hnd x
                  rw [List.count_eq_length_filter] at hcnt
                  have e1 : (fun v => decide (v = x)) = (fun v => v == x) := by funext v; simp [beq_eq_decide]
                  rw [e1]; exact hcnt
                rw [List.filter_map, List.length_map] at hh
                exact hh
              cases hf : e.2.hist.filter (fun h => decide (h.1 = x)) with
              | nil => simp
              | cons a t =>
                rw [hf] at h1
                have : t = [] := by
                  cases t with
                  | nil => rfl
                  | cons _ _ => simp at h1
                subst this
                simp only [List.map_cons, List.map_nil, List.sum_cons, List.sum_nil, Nat.add_zero]
                exact List.length_filter_le _ _
            have := hb e.1 x
            omega
          · have := hb e.1 x; omega
        · rw [if_neg (fun h => ho h.1), if_neg ho]; exact hb o x
  exact this l _ (by intro c hc; simp only [Option.some.injEq] at hc; subst hc; simp) c h o x

/-- The batch shows a valid signature of the validator for its block `i`. -/
def Batch.shows (b : Batch) (x i : Nat) : Prop := ∃ h ∈ b.hist, h.1 = x ∧ h.2[i * 2 + 1]? = some true

/-- The sampled blocks of a batch for which it shows a valid signature of the validator. -/
noncomputable def shown (ws : List Nat) (obs x : Nat) (b : Batch) : List Nat :=
  open Classical in (sampled ws obs b).filter (fun i => decide (b.shows x i))

/-- C158: just what is counted: over all batches of the observer, the sampled blocks, those with a valid signature of the other node, and the batches
with an entry of an unknown validator. -/
theorem counts_exact (ws : List Nat) (l : List (Nat × Batch)) (c : Counts) (h : countAll ws l = some c) (o : Nat) :
    c.samples o = ((l.filter (fun e => decide (e.1 = o))).map (fun e => (sampled ws o e.2).length)).sum ∧
    (∀ x, x < ws.length → x ≠ o → c.valid o x = ((l.filter (fun e => decide (e.1 = o))).map (fun e => (shown ws o x e.2).length)).sum) ∧
    c.malformed o = ((l.filter (fun e => decide (e.1 = o))).filter (fun e => e.2.hist.any (fun h => decide (ws.length ≤ h.1)))).length := by
  classical
  have hnone : ∀ l : List (Nat × Batch), l.foldl (fun c e => c.bind (fun c => countBatch ws c e)) none = none := by
    intro l; induction l with
    | nil => rfl
    | cons e l ih => simpa using ih
  have : ∀ (l : List (Nat × Batch)) (c0 c : Counts), l.foldl (fun c e => c.bind (fun c => countBatch ws c e)) (some c0) = some c →
      c.samples o = c0.samples o + ((l.filter (fun e => decide (e.1 = o))).map (fun e => (sampled ws o e.2).length)).sum ∧
      (∀ x, x < ws.length → x ≠ o → c.valid o x = c0.valid o x + ((l.filter (fun e => decide (e.1 = o))).map (fun e => (shown ws o x e.2).length)).sum) ∧
      c.malformed o = c0.malformed o +
        ((l.filter (fun e => decide (e.1 = o))).filter (fun e => e.2.hist.any (fun h => decide (ws.length ≤ h.1)))).length := by
    intro l
    induction l with
    | nil => intro c0 c h; simp only [List.foldl_nil, Option.some.injEq] at h; subst h; simp
    | cons e l ih =>
      intro c0 c h
      simp only [List.foldl_cons, Option.bind_some] at h
      cases hb : countBatch ws c0 e with
      | none => rw [hb, hnone] at h; cases h
      | some d =>
        rw [hb] at h
        obtain ⟨i1, i2, i3⟩ := ih d c h
        rw [List.filter_cons]
        unfold countBatch at hb
        simp only at hb
        split at hb
        · cases hb
        · rename_i hne
          rw [not_or, not_or] at hne
          simp only [Option.some.injEq] at hb
          have hr : readable e.2 = true := by simpa using hne.1
          unfold readable at hr
          simp only [Bool.and_eq_true, decide_eq_true_eq] at hr
          have hnd := hr.1.2
          by_cases ho : e.1 = o
          · rw [if_pos (by simpa using ho)]
            refine ⟨?_, ?_, ?_⟩
            · rw [i1, ← hb]; simp [ho, Nat.add_assoc]
            · intro x hx hxo
              rw [i2 x hx hxo, ← hb]
              simp only [ho, true_and, hx, if_true, hxo, ne_eq, not_false_eq_true, List.map_cons, List.sum_cons, Nat.add_assoc]
              congr 2
              have hcnt : (e.2.hist.filter (fun h => decide (h.1 = x))).length ≤ 1 := by
                have hh : ((e.2.hist.map (·.1)).filter (fun v => decide (v = x))).length ≤ 1 := by
                  have hc := List.nodup_iff_count.1 hnd x
                  rw [List.count_eq_length_filter] at hc
                  have e1 : (fun v => decide (v = x)) = (fun v => v == x) := by funext v; simp [beq_eq_decide]
                  rw [e1]; exact hc
                rw [List.filter_map, List.length_map] at hh
                exact hh
              cases hf : e.2.hist.filter (fun h => decide (h.1 = x)) with
              | nil =>
                rw [List.filter_eq_nil_iff] at hf
                unfold shown
                rw [List.filter_eq_nil_iff.2]
                · rfl
                · intro i _ hs
                  obtain ⟨y, hy, hy2, _⟩ := of_decide_eq_true hs
                  exact hf y hy (by simpa using hy2)
              | cons a t =>
                rw [hf] at hcnt
                have : t = [] := by
                  cases t with
                  | nil => rfl
                  | cons _ _ => simp at hcnt
                subst this
                have hmem : ∀ y, y ∈ e.2.hist ∧ y.1 = x ↔ y = a := by
                  intro y
                  have := List.mem_filter (p := fun h : Nat × List Bool => decide (h.1 = x)) (x := y) (as := e.2.hist)
                  rw [hf, List.mem_singleton] at this
                  rw [this]; simp
                simp only [List.map_cons, List.map_nil, List.sum_cons, List.sum_nil, Nat.add_zero]
                unfold shown
                congr 1
                apply List.filter_congr
                intro i _
                have hiff : e.2.shows x i ↔ a.2.getD (i * 2 + 1) false = true := by
                  have hg : a.2.getD (i * 2 + 1) false = true ↔ a.2[i * 2 + 1]? = some true := by
                    rw [List.getD_eq_getElem?_getD]
                    cases a.2[i * 2 + 1]? with
                    | none => simp
                    | some v => simp
                  rw [hg]
                  constructor
                  · rintro ⟨y, hy, hy2, hy3⟩
                    have := (hmem y).1 ⟨hy, hy2⟩
                    subst this; exact hy3
                  · intro hy
                    exact ⟨a, ((hmem a).2 rfl).1, ((hmem a).2 rfl).2, hy⟩
                by_cases hv : a.2.getD (i * 2 + 1) false = true
                · rw [hv]; exact (decide_eq_true (hiff.2 hv)).symm
                · rw [Bool.not_eq_true] at hv
                  rw [hv]; exact (decide_eq_false (fun h => by rw [hiff, hv] at h; cases h)).symm
            · rw [i3, ← hb, List.filter_cons]
              simp only [ho, true_and, ge_iff_le]
              split
              · simp; omega
              · simp
          · rw [if_neg (by simpa using ho)]
            have ho' : ¬ o = e.1 := fun h => ho h.symm
            refine ⟨?_, ?_, ?_⟩
            · rw [i1, ← hb]; simp [ho']
            · intro x hx hxo
              rw [i2 x hx hxo, ← hb]; simp [ho']
            · rw [i3, ← hb]; simp [ho']
  have := this l _ c h
  simpa using this

/-- C158: the counts of an observer come from its batches only. -/
theorem counts_local (ws : List Nat) (l : List (Nat × Batch)) (c c' : Counts) (o : Nat) (h : countAll ws l = some c)
    (h' : countAll ws (l.filter (fun e => decide (e.1 = o))) = some c') :
    c.samples o = c'.samples o ∧ c.malformed o = c'.malformed o ∧ ∀ x, c.valid o x = c'.valid o x := by
  have : ∀ (l : List (Nat × Batch)) (c0 c1 : Counts), (c0.samples o = c1.samples o ∧ c0.malformed o = c1.malformed o ∧ ∀ x, c0.valid o x = c1.valid o x) →
      ∀ c c', l.foldl (fun c e => c.bind (fun c => countBatch ws c e)) (some c0) = some c →
        (l.filter (fun e => decide (e.1 = o))).foldl (fun c e => c.bind (fun c => countBatch ws c e)) (some c1) = some c' →
        c.samples o = c'.samples o ∧ c.malformed o = c'.malformed o ∧ ∀ x, c.valid o x = c'.valid o x := by
    intro l
    have hnone : ∀ l : List (Nat × Batch), l.foldl (fun c e => c.bind (fun c => countBatch ws c e)) none = none := by
      intro l; induction l with
      | nil => rfl
      | cons e l ih => simpa using ih
    induction l with
    | nil =>
      intro c0 c1 h c c' e1 e2
      simp only [List.foldl_nil, List.filter_nil, Option.some.injEq] at e1 e2
      subst e1; subst e2; exact h
    | cons e l ih =>
      intro c0 c1 h c c' e1 e2
      simp only [List.foldl_cons, Option.bind_some] at e1
      cases hb : countBatch ws c0 e with
      | none => rw [hb, hnone] at e1; cases e1
      | some d =>
        rw [hb] at e1
        rw [List.filter_cons] at e2
        by_cases ho : e.1 = o
        · rw [if_pos (by simpa using ho)] at e2
          simp only [List.foldl_cons, Option.bind_some] at e2
          cases hb2 : countBatch ws c1 e with
          | none => rw [hb2, hnone] at e2; cases e2
          | some d' =>
            rw [hb2] at e2
            refine ih d d' ?_ c c' e1 e2
            unfold countBatch at hb hb2
            simp only at hb hb2
            split at hb
            · cases hb
            · rename_i hne
              rw [if_neg hne] at hb2
              simp only [Option.some.injEq] at hb hb2
              subst hb; subst hb2
              simp only [h.1, h.2.1, h.2.2, true_and, implies_true]
        · rw [if_neg (by simpa using ho)] at e2
          refine ih d c1 ?_ c c' e1 e2
          unfold countBatch at hb
          simp only at hb
          split at hb
          · cases hb
          · simp only [Option.some.injEq] at hb
            subst hb
            have ho' : ¬ o = e.1 := fun h => ho h.symm
            simp only [ho', if_false, false_and]
            exact h
  exact this l _ _ ⟨rfl, rfl, fun _ => rfl⟩ c c' h h'

/-- C157: the analysis of what the contract let in does not fail, and finds nothing malformed, if all validators count. -/
theorem accepted_analyzed (ws : List Nat) (msgs : List (Nat × Nat × Nat × Batch)) (hc : ws.length ≤ 1000)
    (h : ∀ m ∈ msgs, 0 < m.1 ∧ m.1 ≤ 255 ∧ m.2.1 < 2 ^ 32) :
    ∃ c, countAll ws (accepted ws.length msgs).stored = some c ∧ ∀ o, c.malformed o = 0 := by
  have hr := accepted_readable ws.length msgs hc h
  have hm := (accepted_well_made ws.length msgs (fun m hm => (h m hm).1)).1
  generalize (accepted ws.length msgs).stored = l at hr hm
  have : ∀ (l : List (Nat × Batch)) (c0 : Counts), (∀ o, c0.malformed o = 0) → (∀ e ∈ l, readable e.2 = true) →
      (∀ e ∈ l, e.1 < ws.length ∧ WellMade ws.length e.2.committed.length e.2) →
      ∃ c, l.foldl (fun c e => c.bind (fun c => countBatch ws c e)) (some c0) = some c ∧ ∀ o, c.malformed o = 0 := by
    intro l
    induction l with
    | nil => intro c0 h0 _ _; exact ⟨c0, rfl, h0⟩
    | cons e l ih =>
      intro c0 h0 h1 h2
      obtain ⟨hv, wm⟩ := h2 e (by simp)
      have hx : ∃ d, countBatch ws c0 e = some d ∧ ∀ o, d.malformed o = 0 := by
        unfold countBatch
        simp only
        rw [if_neg]
        · refine ⟨_, rfl, ?_⟩
          intro o
          simp only
          rw [if_neg]
          · exact h0 o
          · rintro ⟨_, ha⟩
            rw [List.any_eq_true] at ha
            obtain ⟨x, hx, hx2⟩ := ha
            have := wm.low x hx
            simp only [decide_eq_true_eq] at hx2
            omega
        · rw [not_or, not_or]
          refine ⟨by simpa using h1 e (by simp), by omega, ?_⟩
          intro ha
          rw [List.any_eq_true] at ha
          obtain ⟨x, hx, hx2⟩ := ha
          have := wm.bits x hx
          simp only [decide_eq_true_eq] at hx2
          omega
      obtain ⟨d, hd, hd0⟩ := hx
      obtain ⟨c, hc1, hc2⟩ := ih d hd0 (fun x hx => h1 x (by simp [hx])) (fun x hx => h2 x (by simp [hx]))
      refine ⟨c, ?_, hc2⟩
      simp only [List.foldl_cons, Option.bind_some, hd]
      exact hc1
  exact this l _ (fun _ => rfl) hr hm

end Tycho.Slasher
