import Verif.Broadcaster.Lemmas

namespace Tycho.Broadcaster
open Tycho.Table

/-- The outcome of a new attempt. -/
theorem attempt_some {c : Cfg} {s : St} {a : Nat} (hc : c.WF) (h : Inv c s) (hi : s.phase ≠ .idle) :
    ∃ t, matchAttempt c s a = some t ∧ Inv c t ∧
      (a = 0 → t = bcastAll { s with sigPeers := [], rejections := [], sigReqs := [], bcasts := [], inflight := [] } c.signers) ∧
      (1 < a → t = reqAll c { s with sigPeers := [] } false s.sigPeers) ∧ (a = 1 → t = s) := by
  unfold matchAttempt
  by_cases h0 : a = 0
  · rw [if_pos h0, foldBroadcast _ hc.1 (by simp)]
    refine ⟨_, rfl, ?_, fun _ => rfl, by omega, by omega⟩
    obtain ⟨h1, h2, h3, h4, h5, h6, h7, h8, h9, h10, h11⟩ := h
    refine inv_bcastAll ⟨?_, by simp, by simp, by simp, h5, by simp, h7, by simp, h9, h10, ?_⟩ hc.1 (by simp) (by simp) hi
    · simp
    · intro p hp _ _ hx; exact absurd hp hx
  · rw [if_neg h0]
    by_cases h1 : 1 < a
    · rw [if_pos h1]
      have hd := h.disj
      rw [foldRequest (s := { s with sigPeers := [] }) s.sigPeers h.qnd hd]
      refine ⟨_, rfl, ?_, fun e => absurd e h0, fun _ => rfl, by omega⟩
      obtain ⟨h1, h2, h3, h4, h5, h6, h7, h8, h9, h10, h11⟩ := h
      refine inv_reqAll ⟨h1, h2, by simp, by simp, h5, h6, h7, fun e => absurd e hi, h9, h10, ?_⟩ h3 hd (by simp) hi
      intro p hp ht hr hx
      rcases h11 p hp ht hr (by simp) with h | h | h
      · exact .inl h
      · exact absurd h hx
      · exact .inr (.inr h)
    · rw [if_neg h1]
      exact ⟨s, rfl, h, fun e => absurd e h0, fun e => absurd e h1, fun _ => rfl⟩

theorem begin_some {c : Cfg} {s : St} {ph : Phase} (h : Inv c s) (hp : ph ≠ .idle)
    (hs : s.phase = .idle ∨ s.bcastPeers = []) :
    ∃ t, beginLoop c s ph = some t ∧ Inv c t ∧
      t = bcastAll { s with phase := ph, bcastPeers := [] } s.bcastPeers := by
  unfold beginLoop
  have hd : ∀ p ∈ s.bcastPeers, p ∉ s.inflight ∧ p ∉ s.sigPeers := by
    rcases hs with hs | hs
    · rw [(h.idle hs).1, (h.idle hs).2]; simp
    · rw [hs]; simp
  rw [foldBroadcast (s := { s with phase := ph, bcastPeers := [] }) _ h.bnd (fun p hp => (hd p hp).1)]
  refine ⟨_, rfl, ?_, rfl⟩
  obtain ⟨h1, h2, h3, h4, h5, h6, h7, h8, h9, h10, h11⟩ := h
  exact inv_bcastAll ⟨h1, h2, h3, h4, h5, h6, by simp, fun e => absurd e hp, fun _ => rfl, h10,
    fun p hps ht hr _ => h11 p hps ht hr (by simp)⟩ h7 (fun p hp => (hd p hp).1) (fun p hp => (hd p hp).2) hp

theorem finish_inv {c : Cfg} {s : St} {sg : List Signal} (h : Inv c s) (hb : s.bcastPeers = [])
    (he : s.evidence = none) :
    Inv c { s with phase := .done, evidence := some s.sigs, sigs := [], signals := sg } := by
  obtain ⟨h1, h2, h3, h4, h5, h6, h7, h8, h9, h10, h11⟩ := h
  refine ⟨h1, h2, h3, h4, h5, h6, h7, fun e => (by cases e), fun _ => hb, by simp [GoodEvidence], ?_⟩
  intro p hps ht hr _
  rcases h11 p hps ht hr (by simp) with h | h | h | h | ⟨ev, h, _⟩
  · exact .inl h
  · exact .inr (.inl h)
  · exact .inr (.inr (.inl h))
  · exact .inr (.inr (.inr (.inr ⟨_, rfl, h⟩)))
  · rw [he] at h; cases h

theorem inv_signals {c : Cfg} {s : St} {sg : List Signal} (h : Inv c s) : Inv c { s with signals := sg } := by
  obtain ⟨h1, h2, h3, h4, h5, h6, h7, h8, h9, h10, h11⟩ := h
  exact ⟨h1, h2, h3, h4, h5, h6, h7, h8, h9, h10, h11⟩

theorem perm_bcast {s : St} {p : Nat} (h : s.inflight.Perm (s.bcasts ++ s.sigReqs.map (·.1)))
    (hp : p ∈ s.bcasts) : s.inflight.Perm (p :: (s.bcasts.erase p ++ s.sigReqs.map (·.1))) := by
  refine h.trans ?_
  rw [← List.cons_append]
  exact List.Perm.append_right _ (List.perm_cons_erase hp)

theorem perm_sig {s : St} {p : Nat} {a : Bool} (h : s.inflight.Perm (s.bcasts ++ s.sigReqs.map (·.1)))
    (hp : (p, a) ∈ s.sigReqs) :
    s.inflight.Perm (p :: (s.bcasts ++ (s.sigReqs.erase (p, a)).map (·.1))) := by
  refine h.trans ?_
  refine List.Perm.trans (List.Perm.append_left _ ((List.perm_cons_erase hp).map (·.1))) ?_
  simp only [List.map_cons]
  exact List.perm_middle

theorem broadcast_inv {c : Cfg} {s : St} {p : Nat} (h : InvX c s [p]) (hp : p ∉ s.inflight)
    (hq : p ∉ s.sigPeers) (hi : s.phase ≠ .idle) :
    ∃ t, broadcast c s p = some t ∧ Inv c t := by
  rw [broadcast_eq hp]
  exact ⟨_, rfl, inv_bcastAll h (by simp) (mem_singleton_ne hp) (mem_singleton_ne hq) hi⟩

theorem request_inv {c : Cfg} {s : St} {p : Nat} {a} (h : InvX c s [p]) (hp : p ∉ s.inflight)
    (hq : p ∉ s.sigPeers) (hi : s.phase ≠ .idle) :
    ∃ t, requestSignature c s a p = some t ∧ Inv c t := by
  rw [request_eq hp]
  exact ⟨_, rfl, inv_reqAll h (by simp) (mem_singleton_ne hp) (mem_singleton_ne hq) hi⟩

theorem matchBroadcast_inv {c : Cfg} {s : St} {p : Nat} {r} (h : Inv c s) (hp : p ∈ s.bcasts)
    (hi : s.phase ≠ .idle) :
    ∃ t, matchBroadcast c { s with bcasts := s.bcasts.erase p } p r = some t ∧ Inv c t := by
  obtain ⟨hx, hm, hn, hq⟩ := inv_answer h (perm_bcast h.perm hp)
  unfold matchBroadcast
  rw [if_neg (by simpa using hm)]
  cases r with
  | tlError => exact ⟨_, rfl, inv_reject hx⟩
  | network => exact ⟨_, rfl, inv_queue hx hn hi⟩
  | ok => exact request_inv hx hn hq hi

theorem matchSignature_inv {c : Cfg} {s : St} {p : Nat} {a r} (h : Inv c s) (hp : (p, a) ∈ s.sigReqs)
    (hi : s.phase ≠ .idle) :
    ∃ t, matchSignature c { s with sigReqs := s.sigReqs.erase (p, a) } p a r = some t ∧ Inv c t := by
  obtain ⟨hx, hm, hn, hq⟩ := inv_answer h (perm_sig h.perm hp)
  unfold matchSignature
  rw [if_neg (by simpa using hm)]
  cases r with
  | tlError => exact ⟨_, rfl, inv_reject hx⟩
  | network => exact ⟨_, rfl, inv_queue hx hn hi⟩
  | signature x =>
    by_cases hs : p ∈ c.signers
    · by_cases hv : c.valid p x = true
      · simp only [if_pos hs, if_pos hv]; exact ⟨_, rfl, inv_sign hx hs hv⟩
      · simp only [if_pos hs, if_neg hv]; exact ⟨_, rfl, inv_reject hx⟩
    · simp only [if_neg hs]; exact ⟨_, rfl, inv_ignore hx hs⟩
  | noPoint =>
    by_cases ha : a = true
    · simp only [if_pos ha]; exact ⟨_, rfl, inv_queue hx hn hi⟩
    · simp only [if_neg ha]; exact broadcast_inv hx hn hq hi
  | tryLater => exact ⟨_, rfl, inv_queue hx hn hi⟩
  | rejected =>
    by_cases hs : p ∈ c.signers
    · simp only [if_pos hs]; exact ⟨_, rfl, inv_reject hx⟩
    · simp only [if_neg hs]; exact ⟨_, rfl, inv_ignore hx hs⟩

theorem resolved_inv {c : Cfg} {s : St} {p : Nat} (h : Inv c s) (hi : s.phase ≠ .idle) :
    ∃ t, resolved c s p = some t ∧ Inv c t := by
  obtain ⟨h1, h2, h3, h4, h5, h6, h7, h8, h9, h10, h11⟩ := h
  have told : ∀ q ∈ c.signers, s.told q → q ∉ s.removed.erase p → q ≠ p →
      q ∈ s.inflight ∨ q ∈ s.sigPeers.erase p ∨ q ∈ s.rejections.erase p ∨ s.signed q := by
    intro q hqs ht hr hx
    rcases h11 q hqs ht (fun hm => hr (h5.mem_erase_iff.mpr ⟨hx, hm⟩)) (by simp) with h | h | h | h
    · exact .inl h
    · exact .inr (.inl (h3.mem_erase_iff.mpr ⟨hx, h⟩))
    · exact .inr (.inr (.inl (h6.mem_erase_iff.mpr ⟨hx, h⟩)))
    · exact .inr (.inr (.inr h))
  unfold resolved
  by_cases hp : p ∈ s.inflight
  · simp only [if_pos hp]
    refine ⟨_, rfl, h1, h2, h3, h4, h5.erase _, h6.erase _, h7, h8, h9, h10, ?_⟩
    intro q hqs ht hr _
    by_cases hx : q = p
    · subst hx; exact .inl hp
    · rcases told q hqs ht hr hx with h | h | h | h
      · exact .inl h
      · exact .inr (.inl (List.mem_of_mem_erase h))
      · exact .inr (.inr (.inl h))
      · exact .inr (.inr (.inr h))
  · simp only [if_neg hp]
    refine broadcast_inv ⟨h1, h2, h3.erase _, ?_, h5.erase _, h6.erase _, h7.erase _, fun e => absurd e hi, ?_, h10, ?_⟩ hp ?_ hi
    · exact fun q hq => h4 q (List.mem_of_mem_erase hq)
    · intro _; show s.bcastPeers.erase p = []; rw [h9 hi]; rfl
    · exact fun q hqs ht hr hx => told q hqs ht hr (by simpa using hx)
    · exact fun hm => (h3.mem_erase_iff.mp hm).1 rfl

/-- Evidence exists only after `run`. -/
def Ph (s : St) : Prop := s.phase = .idle ∨ s.phase = .run → s.evidence = none

/-- Every enabled event is handled, and the invariant stays. -/
theorem step_inv {c : Cfg} {s : St} {e : Ev} (hc : c.WF) (h : Inv c s) (hph : Ph s) (he : enabled s e) :
    ∃ t, step c s e = some t ∧ Inv c t := by
  cases e with
  | start =>
    obtain ⟨t, h1, h2, _⟩ := begin_some (ph := .run) h (by simp) (.inl he); exact ⟨t, h1, h2⟩
  | cont =>
    have : s.phase = .idle ∨ s.bcastPeers = [] := by
      rcases he with he | he
      · exact .inl he
      · exact .inr (h.begun (by rw [he]; simp))
    obtain ⟨t, h1, h2, _⟩ := begin_some (ph := .cont 1) h (by simp) this; exact ⟨t, h1, h2⟩
  | status a =>
    have hi : s.phase ≠ .idle := by rw [show s.phase = .run from he]; simp
    simp only [step, shouldFinish]
    split
    · exact ⟨_, rfl, finish_inv h (h.begun hi) (hph (.inr he))⟩
    · split
      · obtain ⟨t, h1, h2, _⟩ := attempt_some (a := a) hc (inv_signals (sg := [.ok]) h) hi; exact ⟨t, h1, h2⟩
      · obtain ⟨t, h1, h2, _⟩ := attempt_some (a := a) hc h hi; exact ⟨t, h1, h2⟩
  | closed =>
    have hi : s.phase ≠ .idle := by rw [show s.phase = .run from he]; simp
    exact ⟨_, rfl, finish_inv (sg := s.signals) h (h.begun hi) (hph (.inr he))⟩
  | tick =>
    obtain ⟨a, ha⟩ := he
    simp only [step, ha]
    obtain ⟨h1, h2, h3, h4, h5, h6, h7, h8, h9, h10, h11⟩ := h
    have hi : Inv c { s with phase := .cont ((a + 1) % 256) } :=
      ⟨h1, h2, h3, h4, h5, h6, h7, fun e => (by cases e), fun _ => h9 (by rw [ha]; simp), h10, h11⟩
    obtain ⟨t, k1, k2, _⟩ := attempt_some (a := (a + 1) % 256) hc hi (by simp); exact ⟨t, k1, k2⟩
  | bcastDone p r => exact matchBroadcast_inv h he.2 (live_ne_idle he.1)
  | sigDone p a r => exact matchSignature_inv h he.2 (live_ne_idle he.1)
  | resolved p => exact resolved_inv h (live_ne_idle he)
  | lost p =>
    refine ⟨_, rfl, ?_⟩
    obtain ⟨h1, h2, h3, h4, h5, h6, h7, h8, h9, h10, h11⟩ := h
    exact ⟨h1, h2, h3, h4, nodup_insert h5, h6, h7, h8, h9, h10,
      fun q hqs ht hr hx => h11 q hqs ht (fun hm => hr (List.mem_insert_iff.mpr (.inr hm))) hx⟩
  | cancelled =>
    refine ⟨_, rfl, ?_⟩
    have hi := live_ne_idle he
    obtain ⟨h1, h2, h3, h4, h5, h6, h7, h8, h9, h10, h11⟩ := h
    exact ⟨h1, h2, h3, h4, h5, h6, h7, fun e => (by cases e), fun _ => h9 hi, h10, h11⟩

end Tycho.Broadcaster
