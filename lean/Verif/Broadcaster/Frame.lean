import Verif.Broadcaster.Step

namespace Tycho.Broadcaster
open Tycho.Table

/-- Queries sent to `p` so far. -/
def St.sentTo (s : St) (p : Nat) : Nat := s.sent.countP (fun m => m.peer == p)

/-- Queries sent to `p`, and those that may follow from the answers to them. -/
def budget (s : St) (p : Nat) : Nat :=
  s.sentTo p + (s.bcasts.count p + 2 * s.sigReqs.count (p, false))

theorem count_filter_le {l : List Nat} (h : l.Nodup) (f : Nat → Bool) (p : Nat) :
    (l.filter f).count p ≤ 1 := List.nodup_iff_count_le_one.mp (h.filter f) p

theorem countP_bcast (l : List Nat) (p : Nat) :
    (l.map Msg.bcast).countP (fun m => m.peer == p) = l.count p := by
  rw [List.countP_map, List.count]; rfl

theorem countP_sig (l : List Nat) (p : Nat) :
    (l.map Msg.sig).countP (fun m => m.peer == p) = l.count p := by
  rw [List.countP_map, List.count]; rfl

theorem count_pair (l : List Nat) (a : Bool) (p : Nat) :
    (l.map (·, a)).count (p, false) = if a then 0 else l.count p := by
  rw [List.count, List.countP_map, List.count]
  cases a
  · simp only [Bool.false_eq_true, if_false]
    apply List.countP_congr; intro x _; simp
  · simp only [if_true]
    rw [List.countP_eq_zero]; intro x _; simp

theorem budget_bcastAll (s : St) (l : List Nat) (p : Nat) :
    budget (bcastAll s l) p = budget s p + 2 * (l.filter (· ∉ s.removed)).count p := by
  simp only [budget, St.sentTo, bcastAll, List.countP_append, countP_bcast, List.count_append, List.count_reverse]
  omega

theorem budget_reqAll (c : Cfg) (s : St) (a : Bool) (l : List Nat) (p : Nat) :
    budget (reqAll c s a l) p = budget s p +
      (if a then 1 else 3) * (l.filter (fun p => p ∉ s.removed ∧ p ∈ c.signers)).count p := by
  simp only [budget, St.sentTo, reqAll, List.countP_append, countP_sig, List.count_append, List.count_reverse, count_pair]
  cases a <;> simp only [Bool.false_eq_true, if_false, if_true] <;> omega

theorem budget_attempt {c : Cfg} {s t : St} {a : Nat} (hc : c.WF) (h : Inv c s) (hi : s.phase ≠ .idle)
    (ht : matchAttempt c s a = some t) (p : Nat) : budget t p ≤ budget s p + (if a = 1 then 0 else 3) := by
  obtain ⟨t', h1, _, h0, h2, h3⟩ := attempt_some (a := a) hc h hi
  rw [ht] at h1; cases h1
  by_cases ha : a = 0
  · rw [h0 ha, budget_bcastAll, if_neg (by omega)]
    have := count_filter_le hc.1 (· ∉ s.removed) p
    simp only [budget, St.sentTo, List.count_nil]
    omega
  · by_cases ha1 : a = 1
    · rw [h3 ha1]; omega
    · rw [h2 (by omega), budget_reqAll, if_neg ha1]
      have := count_filter_le h.qnd (fun p => p ∉ s.removed ∧ p ∈ c.signers) p
      simp only [Bool.false_eq_true, if_false]
      simp only [budget, St.sentTo]
      omega

theorem budget_broadcast {c : Cfg} {s t : St} {q : Nat} (h : q ∉ s.inflight) (ht : broadcast c s q = some t) (p : Nat) :
    budget t p ≤ budget s p + (if q = p then 2 else 0) := by
  rw [broadcast_eq h] at ht; cases ht
  rw [budget_bcastAll]
  have := count_filter_le (l := [q]) (by simp) (· ∉ s.removed) p
  by_cases hq : q = p
  · rw [if_pos hq]; omega
  · rw [if_neg hq, List.count_eq_zero.mpr]; · omega
    simp only [List.mem_filter, List.mem_singleton]; exact fun h => hq h.1.symm

theorem budget_request {c : Cfg} {s t : St} {q : Nat} (h : q ∉ s.inflight)
    (ht : requestSignature c s true q = some t) (p : Nat) :
    budget t p ≤ budget s p + (if q = p then 1 else 0) := by
  rw [request_eq h] at ht; cases ht
  rw [budget_reqAll]
  have := count_filter_le (l := [q]) (by simp) (fun p => p ∉ s.removed ∧ p ∈ c.signers) p
  by_cases hq : q = p
  · rw [if_pos hq]; simp only [if_true]; omega
  · rw [if_neg hq, List.count_eq_zero.mpr]; · omega
    simp only [List.mem_filter, List.mem_singleton]; exact fun h => hq h.1.symm

theorem budget_begin {c : Cfg} {s t : St} {ph} (h : Inv c s) (hp : ph ≠ .idle)
    (hs : s.phase = .idle ∨ s.bcastPeers = []) (ht : beginLoop c s ph = some t) (p : Nat) :
    budget t p ≤ budget s p + 2 := by
  obtain ⟨t', h1, _, h2⟩ := begin_some h hp hs
  rw [ht] at h1; cases h1
  rw [h2, budget_bcastAll]
  have := count_filter_le h.bnd (· ∉ s.removed) p
  simp only [budget, St.sentTo]
  omega

/-- Each event lets at most its allowance of queries be sent to a peer. -/
theorem step_budget {c : Cfg} {s t : St} {e : Ev} (hc : c.WF) (h : Inv c s) (he : enabled s e)
    (ht : step c s e = some t) (p : Nat) : budget t p ≤ budget s p + allowance p e := by
  cases e with
  | start => exact budget_begin h (by simp) (.inl he) ht p
  | cont =>
    refine budget_begin h (by simp) ?_ ht p
    rcases he with he | he
    · exact .inl he
    · exact .inr (h.begun (by rw [he]; simp))
  | status a =>
    have hi : s.phase ≠ .idle := by rw [show s.phase = .run from he]; simp
    simp only [step, shouldFinish] at ht
    split at ht
    · cases ht; simp only [budget, St.sentTo]; omega
    · split at ht
      · exact budget_attempt hc (inv_signals (sg := [.ok]) h) hi ht p
      · exact budget_attempt hc h hi ht p
  | closed => cases ht; simp only [budget, St.sentTo]; omega
  | tick =>
    obtain ⟨a, ha⟩ := he
    simp only [step, ha] at ht
    obtain ⟨h1, h2, h3, h4, h5, h6, h7, h8, h9, h10, h11⟩ := h
    have hi : Inv c { s with phase := .cont ((a + 1) % 256) } :=
      ⟨h1, h2, h3, h4, h5, h6, h7, fun e => (by cases e), fun _ => h9 (by rw [ha]; simp), h10, h11⟩
    refine Nat.le_trans (budget_attempt hc hi (by simp) ht p) ?_
    simp only [budget, St.sentTo, allowance]
    split <;> omega
  | bcastDone q r =>
    obtain ⟨hx, hm, hn, hq⟩ := inv_answer h (perm_bcast h.perm he.2)
    have hb : q = p → (s.bcasts.erase q).count p + 1 = s.bcasts.count p := by
      rintro rfl; rw [List.count_erase_self]
      have := List.count_pos_iff.mpr he.2; omega
    have hb' := (List.erase_sublist (a := q) (l := s.bcasts)).count_le p
    simp only [step, matchBroadcast, if_neg (show ¬ q ∉ s.inflight by simpa using hm)] at ht
    cases r with
    | tlError => cases ht; simp only [budget, St.sentTo] at *; omega
    | network => cases ht; simp only [budget, St.sentTo] at *; omega
    | ok =>
      have := budget_request (by exact hn) ht p
      simp only [budget, St.sentTo] at *
      split at this <;> [have := hb ‹_›; skip] <;> omega
  | sigDone q a r =>
    obtain ⟨hx, hm, hn, hq⟩ := inv_answer h (perm_sig h.perm he.2)
    have hb : q = p → a = false → (s.sigReqs.erase (q, a)).count (p, false) + 1 = s.sigReqs.count (p, false) := by
      rintro rfl rfl; rw [List.count_erase_self]
      have := List.count_pos_iff.mpr he.2; omega
    have hb' := (List.erase_sublist (a := (q, a)) (l := s.sigReqs)).count_le (p, false)
    simp only [step, matchSignature, if_neg (show ¬ q ∉ s.inflight by simpa using hm)] at ht
    have fin : ∀ {t}, t.sent = s.sent → t.bcasts = s.bcasts → t.sigReqs = s.sigReqs.erase (q, a) →
        budget t p ≤ budget s p + allowance p (.sigDone q a r) := by
      intro t e1 e2 e3; simp only [budget, St.sentTo, e1, e2, e3]; omega
    cases r with
    | noPoint =>
      by_cases ha : a = true
      · rw [if_pos ha] at ht; cases ht; exact fin rfl rfl rfl
      · rw [if_neg ha] at ht
        have := budget_broadcast (by exact hn) ht p
        simp only [budget, St.sentTo] at *
        split at this <;> [have := hb ‹_› (by simpa using ha); skip] <;> omega
    | signature x =>
      by_cases hs : q ∈ c.signers
      · by_cases hv : c.valid q x = true
        · simp only [if_pos hs, if_pos hv] at ht; cases ht; exact fin rfl rfl rfl
        · simp only [if_pos hs, if_neg hv] at ht; cases ht; exact fin rfl rfl rfl
      · simp only [if_neg hs] at ht; cases ht; exact fin rfl rfl rfl
    | rejected =>
      by_cases hs : q ∈ c.signers
      · simp only [if_pos hs] at ht; cases ht; exact fin rfl rfl rfl
      · simp only [if_neg hs] at ht; cases ht; exact fin rfl rfl rfl
    | tlError => cases ht; exact fin rfl rfl rfl
    | network => cases ht; exact fin rfl rfl rfl
    | tryLater => cases ht; exact fin rfl rfl rfl
  | resolved q =>
    simp only [step, resolved] at ht
    split at ht
    · cases ht; simp only [budget, St.sentTo]; omega
    · rename_i hq
      have := budget_broadcast (by exact hq) ht p
      simp only [budget, St.sentTo, allowance] at *
      omega
  | lost q => cases ht; simp only [budget, St.sentTo]; omega
  | cancelled => cases ht; simp only [budget, St.sentTo]; omega

end Tycho.Broadcaster
