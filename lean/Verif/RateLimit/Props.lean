import Verif.RateLimit.Lemmas

namespace Tycho.RateLimit

/-! ## C175: claims at the same time -/

structure CInv (l : Limit) (s : Conc) : Prop where
  lower : Lower l s.tat s.granted
  within : Within l s.granted
  claims : ∀ c ∈ s.claims, c.now < 2 ^ 62 ∧ c.tat ≤ s.tat

theorem cinv_reach {l : Limit} (hl : l.WF) {s : Conc} (h : Conc.Reach l s) : CInv l s := by
  induction h with
  | new => exact ⟨lower_nil _ _, within_nil _, by simp⟩
  | @step s e t _ hw ht ih =>
    obtain ⟨h1, h2, h3⟩ := ih
    cases e with
    | load now =>
      cases ht
      refine ⟨h1, h2, fun c hc => ?_⟩
      rcases List.mem_cons.mp hc with rfl | hc
      · exact ⟨hw now rfl, Nat.le_refl _⟩
      · exact h3 c hc
    | round c sp =>
      simp only [Conc.step] at ht
      split at ht
      · rename_i hc
        have he : ∀ x ∈ s.claims.erase c, x ∈ s.claims := fun x hx => List.mem_of_mem_erase hx
        split at ht
        · cases ht; exact ⟨h1, h2, fun x hx => h3 x (he x hx)⟩
        · rename_i hlt
          split at ht
          · rename_i hs
            cases ht
            have hcn := (h3 c hc).1
            have hle : c.tat ≤ c.now + l.tolerance := by omega
            have hn := nextTat_eq hl hcn hle
            have := lower_claim hl (v := s.tat) (v' := nextTat c.tat c.now l.interval) h1 h2 (by rw [← hs.1]; exact hle)
              (by rw [hn, hs.1]; exact Nat.le_refl _)
            refine ⟨this.1, this.2, fun x hx => ?_⟩
            have hx' := h3 x (he x hx)
            refine ⟨hx'.1, ?_⟩
            dsimp only
            rw [hn]; have := hs.1; omega
          · cases ht
            refine ⟨h1, h2, fun x hx => ?_⟩
            rcases List.mem_cons.mp hx with rfl | hx
            · exact ⟨(h3 c hc).1, Nat.le_refl _⟩
            · exact h3 x (he x hx)
      · cases ht

/-- However claims interleave and whatever their clocks: in any span of time no more are granted than the burst and
one for each interval. -/
theorem granted_within {l : Limit} (hl : l.WF) {s : Conc} (h : Conc.Reach l s) : Within l s.granted :=
  (cinv_reach hl h).within

/-- A claim is rejected only if a claim beginning at this moment would be rejected as well. -/
theorem rejected_rightly {l : Limit} (hl : l.WF) {s t : Conc} (h : Conc.Reach l s) {c : Claim} {sp : Bool}
    (ht : Conc.step l s (.round c sp) = some t) (hr : t.rejected ≠ s.rejected) :
    t.rejected = c.now :: s.rejected ∧ t.granted = s.granted ∧
    ∃ after, (Bucket.tryClaim ⟨s.tat, l.interval, l.tolerance⟩ c.now).2 = some after := by
  simp only [Conc.step] at ht
  split at ht
  · rename_i hc
    have h3 := (cinv_reach hl h).claims c hc
    split at ht
    · rename_i hlt
      cases ht
      refine ⟨rfl, rfl, s.tat - l.tolerance, ?_⟩
      unfold Bucket.tryClaim
      dsimp only
      rw [if_pos (by omega)]
    · split at ht <;> cases ht <;> exact absurd rfl hr
  · cases ht

/-- A claim without interference ends in the round after it loaded, unless the exchange fails spuriously. -/
theorem round_ends {l : Limit} {s : Conc} {c : Claim} (hc : c ∈ s.claims) (he : c.tat = s.tat) :
    ∃ t, Conc.step l s (.round c false) = some t ∧ t.claims = s.claims.erase c ∧
      ((Bucket.tryClaim ⟨s.tat, l.interval, l.tolerance⟩ c.now).2 = none → t.granted = c.now :: s.granted ∧
        t.tat = (Bucket.tryClaim ⟨s.tat, l.interval, l.tolerance⟩ c.now).1.tat) := by
  simp only [Conc.step, if_pos hc]
  unfold Bucket.tryClaim
  dsimp only
  by_cases hlt : c.now < c.tat - l.tolerance
  · rw [if_pos hlt]
    refine ⟨_, rfl, rfl, ?_⟩
    rw [← he, if_pos hlt]
    intro h; cases h
  · rw [if_neg hlt, if_pos ⟨he, by trivial⟩]
    refine ⟨_, rfl, rfl, ?_⟩
    rw [← he, if_neg hlt]
    exact fun _ => ⟨rfl, rfl⟩

/-- If a claim fails to exchange without a spurious failure, another was granted since it loaded. -/
theorem retry_progress {l : Limit} (hl : l.WF) {s t : Conc} (h : Conc.Reach l s) {c : Claim}
    (ht : Conc.step l s (.round c false) = some t) (hn : t.claims ≠ s.claims.erase c) : c.tat < s.tat := by
  simp only [Conc.step] at ht
  split at ht
  · rename_i hc
    have h3 := (cinv_reach hl h).claims c hc
    split at ht
    · cases ht; exact absurd rfl hn
    · split at ht
      · cases ht; exact absurd rfl hn
      · rename_i h4
        have : c.tat ≠ s.tat := fun he => h4 ⟨he, by trivial⟩
        omega
  · cases ht

end Tycho.RateLimit
