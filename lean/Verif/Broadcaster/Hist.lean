import Verif.Broadcaster.Frame

namespace Tycho.Broadcaster
open Tycho.Table

/-- What a step on queries only leaves alone. -/
structure Same (s t : St) : Prop where
  phase : t.phase = s.phase
  sigs : t.sigs = s.sigs
  signals : t.signals = s.signals
  evidence : t.evidence = s.evidence

/-- What was sent was sent to peers not lost; signatures are asked of signers. -/
def Sent (c : Cfg) (s t : St) : Prop :=
  ∃ m, t.sent = s.sent ++ m ∧ (∀ x ∈ m, x.peer ∉ t.removed ∧ ∀ p, x = .sig p → p ∈ c.signers) ∧
    ∀ p ∈ t.inflight, p ∈ s.inflight ∨ ∃ x ∈ m, x.peer = p

theorem sent_refl {c s t} (h : t.sent = s.sent) (hi : ∀ p ∈ t.inflight, p ∈ s.inflight := by
    first | exact fun _ h => h | exact fun _ h => List.mem_of_mem_erase h) : Sent c s t :=
  ⟨[], by simp [h], by simp, fun p hp => .inl (hi p hp)⟩

theorem sent_bcastAll {c : Cfg} {s : St} (l : List Nat) : Sent c s (bcastAll s l) := by
  refine ⟨_, rfl, ?_, ?_⟩
  on_goal 2 =>
    intro p hp
    simp only [bcastAll, List.mem_append, List.mem_reverse] at hp
    rcases hp with hp | hp
    · exact .inr ⟨_, List.mem_map_of_mem hp, rfl⟩
    · exact .inl hp
  intro x hx
  simp only [List.mem_map, List.mem_filter] at hx
  obtain ⟨p, ⟨_, hp⟩, rfl⟩ := hx
  exact ⟨by simpa [bcastAll, Msg.peer] using hp, fun q e => by cases e⟩

theorem sent_reqAll {c : Cfg} {s : St} {a} (l : List Nat) : Sent c s (reqAll c s a l) := by
  refine ⟨_, rfl, ?_, ?_⟩
  on_goal 2 =>
    intro p hp
    simp only [reqAll, List.mem_append, List.mem_reverse] at hp
    rcases hp with hp | hp
    · exact .inr ⟨_, List.mem_map_of_mem hp, rfl⟩
    · exact .inl hp
  intro x hx
  simp only [List.mem_map, List.mem_filter] at hx
  obtain ⟨p, ⟨_, hp⟩, rfl⟩ := hx
  simp only [decide_eq_true_eq] at hp
  exact ⟨by simpa [reqAll, Msg.peer] using hp.1, fun q e => by cases e; exact hp.2⟩

theorem sent_of {c s s' t} (h : Sent c s' t) (e : s'.sent = s.sent) (hi : ∀ p ∈ s'.inflight, p ∈ s.inflight := by
    first | exact fun _ h => h | exact fun _ h => List.mem_of_mem_erase h | simp) : Sent c s t := by
  obtain ⟨m, h1, h2, h3⟩ := h
  exact ⟨m, by rw [h1, e], h2, fun p hp => (h3 p hp).imp (hi p) id⟩

theorem attempt_frame {c : Cfg} {s t : St} {a : Nat} (hc : c.WF) (h : Inv c s) (hi : s.phase ≠ .idle)
    (ht : matchAttempt c s a = some t) :
    Same s t ∧ Sent c s t ∧ t.removed = s.removed ∧ (∀ p ∈ t.rejections, p ∈ s.rejections) := by
  obtain ⟨t', h1, _, h0, h2, h3⟩ := attempt_some (a := a) hc h hi
  rw [ht] at h1; cases h1
  by_cases ha : a = 0
  · rw [h0 ha]; exact ⟨⟨rfl, rfl, rfl, rfl⟩, sent_of (sent_bcastAll _) rfl, rfl, fun p hp => by cases hp⟩
  · by_cases ha1 : a = 1
    · rw [h3 ha1]; exact ⟨⟨rfl, rfl, rfl, rfl⟩, sent_refl rfl, rfl, fun p hp => hp⟩
    · rw [h2 (by omega)]; exact ⟨⟨rfl, rfl, rfl, rfl⟩, sent_of (sent_reqAll _) rfl, rfl, fun p hp => hp⟩

theorem broadcast_frame {c : Cfg} {s t : St} {q : Nat} (h : q ∉ s.inflight) (ht : broadcast c s q = some t) :
    Same s t ∧ Sent c s t ∧ t.removed = s.removed ∧ t.rejections = s.rejections := by
  rw [broadcast_eq h] at ht; cases ht
  exact ⟨⟨rfl, rfl, rfl, rfl⟩, sent_bcastAll _, rfl, rfl⟩

theorem request_frame {c : Cfg} {s t : St} {q : Nat} {a} (h : q ∉ s.inflight)
    (ht : requestSignature c s a q = some t) :
    Same s t ∧ Sent c s t ∧ t.removed = s.removed ∧ t.rejections = s.rejections := by
  rw [request_eq h] at ht; cases ht
  exact ⟨⟨rfl, rfl, rfl, rfl⟩, sent_reqAll _, rfl, rfl⟩

/-- What a step does besides the queries. -/
structure Frame (c : Cfg) (s t : St) (e : Ev) : Prop where
  sent : Sent c s t
  removed : ∀ p, p ∈ t.removed ↔ (p ∈ s.removed ∧ e ≠ .resolved p) ∨ e = .lost p
  rejections : ∀ p ∈ t.rejections, p ∈ s.rejections ∨ Refusal c p e
  ok : .ok ∈ t.signals → .ok ∈ s.signals ∨
    (s.signals = [] ∧ c.count.majorityOfOthers ≤ s.sigs.length ∧ ∃ a, e = .status a ∧ c.minAttempts ≤ a)
  err : .err ∈ t.signals → .err ∈ s.signals ∨
    (s.signals = [] ∧ c.count.reliableMinority ≤ s.rejections.length ∧ t.phase = .done)
  one : s.signals.length ≤ 1 → t.signals.length ≤ 1
  phase : t.phase = s.phase ∨ (t.phase = .run ∧ s.phase = .idle) ∨
    (t.phase = .done ∧ s.phase = .run ∧ t.evidence = some s.sigs) ∨ (s.phase ≠ .run ∧ t.phase ≠ .idle ∧ t.phase ≠ .run) ∨ t.phase = .dead
  ev : (t.evidence = s.evidence ∧ (t.sigs = s.sigs ∨ ∃ p x a, e = .sigDone p a (.signature x) ∧ p ∈ s.inflight ∧ t.sigs = put s.sigs p x)) ∨
    (t.phase = .done ∧ t.evidence = some s.sigs ∧ t.sigs = [] ∧ s.phase = .run)

theorem sublist_length {α} {a b : List α} (h : a.Sublist b) : a.length ≤ b.length := h.length_le

theorem frame_same {c : Cfg} {s t : St} {e : Ev} (h : Same s t) (hs : Sent c s t)
    (hr : ∀ p, p ∈ t.removed ↔ (p ∈ s.removed ∧ e ≠ .resolved p) ∨ e = .lost p)
    (hj : ∀ p ∈ t.rejections, p ∈ s.rejections ∨ Refusal c p e) : Frame c s t e := by
  refine ⟨hs, hr, hj, ?_, ?_, ?_, .inl h.phase, .inl ⟨h.evidence, .inl h.sigs⟩⟩ <;> rw [h.signals]
  · exact fun h => .inl h
  · exact fun h => .inl h
  · exact id

theorem plain_removed {s t : St} {e : Ev} (h : t.removed = s.removed) (h1 : ∀ p, e ≠ .resolved p)
    (h2 : ∀ p, e ≠ .lost p) (p : Nat) : p ∈ t.removed ↔ (p ∈ s.removed ∧ e ≠ .resolved p) ∨ e = .lost p := by
  rw [h]
  exact ⟨fun hp => .inl ⟨hp, h1 p⟩, fun hp => hp.elim (·.1) (fun e => absurd e (h2 p))⟩

theorem enabled_not_dead {s : St} {e : Ev} (h : enabled s e) : s.phase ≠ .dead := by
  intro hd
  cases e <;> simp [enabled, St.live, hd] at h

theorem step_frame {c : Cfg} {s t : St} {e : Ev} (hc : c.WF) (h : Inv c s) (he : enabled s e)
    (ht : step c s e = some t) : Frame c s t e := by
  cases e with
  | start =>
    obtain ⟨t', h1, _, h2⟩ := begin_some (ph := .run) h (by simp) (.inl he)
    have ht : beginLoop c s .run = some t := ht
    rw [h1] at ht; cases ht; rw [h2]
    exact ⟨sent_of (sent_bcastAll _) rfl, plain_removed rfl (by simp) (by simp), fun p hp => .inl hp,
      fun h => .inl h, fun h => .inl h, id, .inr (.inl ⟨rfl, he⟩), .inl ⟨rfl, .inl rfl⟩⟩
  | cont =>
    have : s.phase = .idle ∨ s.bcastPeers = [] := by
      rcases he with he | he
      · exact .inl he
      · exact .inr (h.begun (by rw [he]; simp))
    obtain ⟨t', h1, _, h2⟩ := begin_some (ph := .cont 1) h (by simp) this
    have ht : beginLoop c s (.cont 1) = some t := ht
    rw [h1] at ht; cases ht; rw [h2]
    refine ⟨sent_of (sent_bcastAll _) rfl, plain_removed rfl (by simp) (by simp), fun p hp => .inl hp,
      fun h => .inl h, fun h => .inl h, id, .inr (.inr (.inr (.inl ⟨?_, by simp [bcastAll], by simp [bcastAll]⟩))), .inl ⟨rfl, .inl rfl⟩⟩
    rcases he with he | he <;> simp [he]
  | status a =>
    have hi : s.phase ≠ .idle := by rw [show s.phase = .run from he]; simp
    simp only [step, shouldFinish] at ht
    split at ht
    · rename_i hj
      cases ht
      refine ⟨sent_refl rfl, plain_removed rfl (by simp) (by simp), fun p hp => .inl hp, ?_, ?_, ?_,
        .inr (.inr (.inl ⟨rfl, he, rfl⟩)), .inr ⟨rfl, rfl, rfl, he⟩⟩
      · intro h; dsimp only at h; split at h
        · simp at h
        · exact .inl h
      · intro h; dsimp only at h; split at h
        · rename_i h0; exact .inr ⟨h0, hj, rfl⟩
        · exact .inl h
      · intro h; dsimp only; split
        · simp
        · exact h
    · split at ht
      · rename_i hk
        obtain ⟨h1, h2, h3, h4⟩ := attempt_frame hc (inv_signals (sg := [.ok]) h) hi ht
        refine ⟨sent_of h2 rfl, plain_removed h3 (by simp) (by simp), fun p hp => .inl (h4 p hp), ?_, ?_, ?_,
          .inl h1.phase, .inl ⟨h1.evidence, .inl h1.sigs⟩⟩
        · exact fun _ => .inr ⟨hk.2.2, hk.2.1, a, rfl, hk.1⟩
        · rw [h1.signals]; intro h; simp at h
        · rw [h1.signals]; simp
      · obtain ⟨h1, h2, h3, h4⟩ := attempt_frame hc h hi ht
        exact frame_same h1 h2 (plain_removed h3 (by simp) (by simp)) fun p hp => .inl (h4 p hp)
  | closed =>
    cases ht
    exact ⟨sent_refl rfl, plain_removed rfl (by simp) (by simp), fun p hp => .inl hp, fun h => .inl h,
      fun h => .inl h, id, .inr (.inr (.inl ⟨rfl, he, rfl⟩)), .inr ⟨rfl, rfl, rfl, he⟩⟩
  | tick =>
    obtain ⟨a, ha⟩ := he
    simp only [step, ha] at ht
    obtain ⟨h1, h2, h3, h4, h5, h6, h7, h8, h9, h10, h11⟩ := h
    have hi : Inv c { s with phase := .cont ((a + 1) % 256) } :=
      ⟨h1, h2, h3, h4, h5, h6, h7, fun e => (by cases e), fun _ => h9 (by rw [ha]; simp), h10, h11⟩
    obtain ⟨k1, k2, k3, k4⟩ := attempt_frame hc hi (by simp) ht
    refine ⟨sent_of k2 rfl, plain_removed k3 (by simp) (by simp), fun p hp => .inl (k4 p hp), ?_, ?_, ?_,
      .inr (.inr (.inr (.inl ⟨by simp [ha], by rw [k1.phase]; simp, by rw [k1.phase]; simp⟩))),
      .inl ⟨k1.evidence, .inl k1.sigs⟩⟩ <;> rw [k1.signals]
    · exact fun h => .inl h
    · exact fun h => .inl h
    · exact id
  | bcastDone q r =>
    obtain ⟨hx, hm, hn, hq⟩ := inv_answer h (perm_bcast h.perm he.2)
    simp only [step, matchBroadcast, if_neg (show ¬ q ∉ s.inflight by simpa using hm)] at ht
    cases r with
    | tlError =>
      cases ht
      refine frame_same ⟨rfl, rfl, rfl, rfl⟩ (sent_refl rfl) (plain_removed rfl (by simp) (by simp)) ?_
      intro p hp
      rcases List.mem_insert_iff.mp hp with rfl | hp
      · exact .inr (.inl rfl)
      · exact .inl hp
    | network =>
      cases ht
      exact frame_same ⟨rfl, rfl, rfl, rfl⟩ (sent_refl rfl) (plain_removed rfl (by simp) (by simp)) fun p hp => .inl hp
    | ok =>
      obtain ⟨h1, h2, h3, h4⟩ := request_frame (by exact hn) ht
      exact frame_same ⟨h1.phase, h1.sigs, h1.signals, h1.evidence⟩ (sent_of h2 rfl)
        (plain_removed h3 (by simp) (by simp)) fun p hp => .inl (by rwa [h4] at hp)
  | sigDone q a r =>
    obtain ⟨hx, hm, hn, hq⟩ := inv_answer h (perm_sig h.perm he.2)
    simp only [step, matchSignature, if_neg (show ¬ q ∉ s.inflight by simpa using hm)] at ht
    have pr : ∀ {t : St}, t.removed = s.removed → ∀ p, p ∈ t.removed ↔
        (p ∈ s.removed ∧ Ev.sigDone q a r ≠ .resolved p) ∨ Ev.sigDone q a r = .lost p :=
      fun h => plain_removed h (by simp) (by simp)
    have rej : ∀ {P : Nat → Prop}, P q → ∀ p ∈ s.rejections.insert q, p ∈ s.rejections ∨ P p := by
      intro P hP p hp
      rcases List.mem_insert_iff.mp hp with rfl | hp
      · exact .inr hP
      · exact .inl hp
    cases r with
    | noPoint =>
      by_cases ha : a = true
      · rw [if_pos ha] at ht; cases ht
        exact frame_same ⟨rfl, rfl, rfl, rfl⟩ (sent_refl rfl) (pr rfl) fun p hp => .inl hp
      · rw [if_neg ha] at ht
        obtain ⟨h1, h2, h3, h4⟩ := broadcast_frame (by exact hn) ht
        exact frame_same ⟨h1.phase, h1.sigs, h1.signals, h1.evidence⟩ (sent_of h2 rfl)
          (pr h3) fun p hp => .inl (by rwa [h4] at hp)
    | signature x =>
      by_cases hs : q ∈ c.signers
      · by_cases hv : c.valid q x = true
        · simp only [if_pos hs, if_pos hv] at ht; cases ht
          exact ⟨sent_refl rfl, pr rfl, fun p hp => .inl hp, fun h => .inl h, fun h => .inl h, id,
            .inl rfl, .inl ⟨rfl, .inr ⟨q, x, a, rfl, hm, rfl⟩⟩⟩
        · simp only [if_pos hs, if_neg hv] at ht; cases ht
          exact frame_same ⟨rfl, rfl, rfl, rfl⟩ (sent_refl rfl) (pr rfl)
            (rej (.inr (.inr ⟨hs, a, .inr ⟨x, rfl, by simpa using hv⟩⟩)))
      · simp only [if_neg hs] at ht; cases ht
        exact frame_same ⟨rfl, rfl, rfl, rfl⟩ (sent_refl rfl) (pr rfl) fun p hp => .inl hp
    | rejected =>
      by_cases hs : q ∈ c.signers
      · simp only [if_pos hs] at ht; cases ht
        exact frame_same ⟨rfl, rfl, rfl, rfl⟩ (sent_refl rfl) (pr rfl) (rej (.inr (.inr ⟨hs, a, .inl rfl⟩)))
      · simp only [if_neg hs] at ht; cases ht
        exact frame_same ⟨rfl, rfl, rfl, rfl⟩ (sent_refl rfl) (pr rfl) fun p hp => .inl hp
    | tlError =>
      cases ht
      exact frame_same ⟨rfl, rfl, rfl, rfl⟩ (sent_refl rfl) (pr rfl) (rej (.inr (.inl ⟨a, rfl⟩)))
    | network => cases ht; exact frame_same ⟨rfl, rfl, rfl, rfl⟩ (sent_refl rfl) (pr rfl) fun p hp => .inl hp
    | tryLater => cases ht; exact frame_same ⟨rfl, rfl, rfl, rfl⟩ (sent_refl rfl) (pr rfl) fun p hp => .inl hp
  | resolved q =>
    have pr : ∀ {t : St}, t.removed = s.removed.erase q → ∀ p, p ∈ t.removed ↔
        (p ∈ s.removed ∧ Ev.resolved q ≠ .resolved p) ∨ Ev.resolved q = .lost p := by
      intro t e p
      rw [e, h.rnd.mem_erase_iff]
      simp only [ne_eq, Ev.resolved.injEq, reduceCtorEq, or_false]
      exact ⟨fun h => ⟨h.2, fun e => h.1 e.symm⟩, fun h => ⟨fun e => h.2 e.symm, h.1⟩⟩
    simp only [step, resolved] at ht
    split at ht
    · cases ht
      exact frame_same ⟨rfl, rfl, rfl, rfl⟩ (sent_refl rfl) (pr rfl) fun p hp => .inl (List.mem_of_mem_erase hp)
    · rename_i hq
      obtain ⟨h1, h2, h3, h4⟩ := broadcast_frame (by exact hq) ht
      exact frame_same ⟨h1.phase, h1.sigs, h1.signals, h1.evidence⟩ (sent_of h2 rfl)
        (pr h3) fun p hp => .inl (List.mem_of_mem_erase (by rwa [h4] at hp))
  | lost q =>
    cases ht
    refine frame_same ⟨rfl, rfl, rfl, rfl⟩ (sent_refl rfl) ?_ fun p hp => .inl hp
    intro p
    simp only [List.mem_insert_iff, ne_eq, reduceCtorEq, not_false_eq_true, and_true, Ev.lost.injEq]
    exact ⟨fun h => h.elim (fun e => .inr e.symm) .inl, fun h => h.elim .inr (fun e => .inl e.symm)⟩
  | cancelled =>
    cases ht
    exact ⟨sent_refl rfl, plain_removed rfl (by simp) (by simp), fun p hp => .inl hp, fun h => .inl h,
      fun h => .inl h, id, .inr (.inr (.inr (.inr rfl))), .inl ⟨rfl, .inl rfl⟩⟩

end Tycho.Broadcaster
