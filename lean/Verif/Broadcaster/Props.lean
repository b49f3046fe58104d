import Mathlib.Data.List.Perm.Subperm
import Verif.Broadcaster.Hist

namespace Tycho.Broadcaster
open Tycho.Table

/-- What holds of signals and evidence in every reachable state. -/
structure HInv (c : Cfg) (h : List Ev) (s : St) : Prop where
  ph : Ph s
  one : s.signals.length ≤ 1
  quiet : s.phase = .idle → s.signals = []
  ok : .ok ∈ s.signals → (s.phase = .run ∧ c.count.majorityOfOthers ≤ s.sigs.length) ∨
    (∃ ev, s.evidence = some ev ∧ c.count.majorityOfOthers ≤ ev.length) ∨ s.phase = .dead
  err : .err ∈ s.signals → ∃ l : List Nat, l.Nodup ∧ c.count.reliableMinority ≤ l.length ∧
    ∀ p ∈ l, ∃ e ∈ h, Refusal c p e
  good : ∀ ev, s.evidence = some ev → GoodEvidence c ev
  refused : ∀ p ∈ s.rejections, ∃ e ∈ h, Refusal c p e
  removed : ∀ p, p ∈ s.removed ↔ (∃ a b, h = a ++ .lost p :: b ∧ .resolved p ∉ b) ∨
    (p = c.author ∧ .resolved p ∉ h)
  asked : ∀ p ∈ s.inflight, ∃ m ∈ s.sent, m.peer = p
  from' : ∀ p x, ((p, x) ∈ s.sigs ∨ ∃ ev, s.evidence = some ev ∧ (p, x) ∈ ev) →
    (∃ a, .sigDone p a (.signature x) ∈ h) ∧ ∃ m ∈ s.sent, m.peer = p

theorem put_length {t : Table Nat Nat} {p x} (h : (t.map (·.1)).Nodup) : t.length ≤ (put t p x).length := by
  have : (t.map (·.1)).Subperm ((put t p x).map (·.1)) :=
    List.subperm_of_subset h (fun q hq => mem_keys_put.mpr (.inr hq))
  simpa using this.length_le

theorem hinv_new (c : Cfg) : HInv c [] (new c) := by
  refine ⟨fun _ => rfl, ?_, fun _ => rfl, ?_, ?_, ?_, ?_, ?_, ?_, ?_⟩ <;> simp [new]

theorem mono {h : List Ev} {e : Ev} {P : Ev → Prop} (hx : ∃ x ∈ h, P x) : ∃ x ∈ h ++ [e], P x := by
  obtain ⟨x, h1, h2⟩ := hx; exact ⟨x, List.mem_append_left _ h1, h2⟩

theorem snoc_split {h a b : List Ev} {e x : Ev} (heq : h ++ [e] = a ++ x :: b) :
    (x = e ∧ b = []) ∨ ∃ b', b = b' ++ [e] ∧ h = a ++ x :: b' := by
  rcases List.eq_nil_or_concat b with rfl | ⟨b', y, rfl⟩
  · obtain ⟨h1, h2⟩ := List.append_inj' heq rfl
    simp only [List.cons.injEq, and_true] at h2
    exact .inl ⟨h2.symm, rfl⟩
  · have : a ++ x :: (b' ++ [y]) = (a ++ x :: b') ++ [y] := by simp
    rw [List.concat_eq_append, this] at heq
    obtain ⟨h1, h2⟩ := List.append_inj' heq rfl
    simp only [List.cons.injEq, and_true] at h2
    subst h2
    exact .inr ⟨b', by simp, h1⟩

theorem hinv_step {c : Cfg} {h : List Ev} {s t : St} {e : Ev} (hc : c.WF) (hI : Inv c s) (hH : HInv c h s)
    (he : enabled s e) (ht : step c s e = some t) : HInv c (h ++ [e]) t := by
  have F := step_frame hc hI he ht
  obtain ⟨m, hm1, hm2, hm3⟩ := F.sent
  have old : ∀ {p}, (∃ x ∈ s.sent, x.peer = p) → ∃ x ∈ t.sent, x.peer = p := by
    rintro p ⟨x, h1, h2⟩; exact ⟨x, by rw [hm1]; exact List.mem_append_left _ h1, h2⟩
  have sig : ∀ {p x}, (p, x) ∈ t.sigs → (p, x) ∈ s.sigs ∨ ((∃ a, e = .sigDone p a (.signature x)) ∧ p ∈ s.inflight) := by
    intro p x hp
    rcases F.ev with ⟨_, h1 | ⟨q, y, a, h1, h3, h2⟩⟩ | ⟨_, _, h3, _⟩
    · exact .inl (by rwa [h1] at hp)
    · rw [h2] at hp
      simp only [put, List.mem_cons, Prod.mk.injEq, del, List.mem_filter] at hp
      rcases hp with ⟨rfl, rfl⟩ | ⟨hp, _⟩
      · exact .inr ⟨⟨a, h1⟩, h3⟩
      · exact .inl hp
    · rw [h3] at hp; cases hp
  have grow : t.evidence = s.evidence → s.sigs.length ≤ t.sigs.length ∨ t.phase = .done := by
    intro _
    rcases F.ev with ⟨_, h1 | ⟨q, y, a, h1, h3, h2⟩⟩ | ⟨h, _⟩
    · exact .inl (by rw [h1]; exact Nat.le_refl _)
    · exact .inl (by rw [h2]; exact put_length hI.uniq.1)
    · exact .inr h
  have noidle : t.phase = .idle → s.phase = .idle := by
    intro hp
    rcases F.phase with h | h | h | h | h
    · rw [← h]; exact hp
    · rw [hp] at h; cases h.1
    · rw [hp] at h; cases h.1
    · exact absurd hp h.2.1
    · rw [hp] at h; cases h
  refine ⟨?_, F.one hH.one, ?_, ?_, ?_, ?_, ?_, ?_, ?_, ?_⟩
  · -- evidence exists only after `run`
    intro hp
    have : s.phase = .idle ∨ s.phase = .run := by
      rcases F.phase with h | h | h | h | h
      · rwa [h] at hp
      · exact .inl h.2
      · rw [h.1] at hp; simp at hp
      · exact absurd hp (by simp [h.2.1, h.2.2])
      · rw [h] at hp; simp at hp
    rcases F.ev with ⟨h1, _⟩ | ⟨h1, _⟩
    · rw [h1]; exact hH.ph this
    · rw [h1] at hp; simp at hp
  · -- no signal before `run`
    intro hp
    have hs := noidle hp
    have hq := hH.quiet hs
    apply List.eq_nil_iff_forall_not_mem.mpr
    intro x hx
    cases x with
    | ok =>
      rcases F.ok hx with h | ⟨_, _, a, rfl, _⟩
      · rw [hq] at h; cases h
      · have : s.phase = .run := he
        rw [hs] at this; cases this
    | err =>
      rcases F.err hx with h | ⟨_, _, h⟩
      · rw [hq] at h; cases h
      · rw [hp] at h; cases h
  · intro hx
    have key : (s.phase = .run ∧ c.count.majorityOfOthers ≤ s.sigs.length) ∨
        (∃ ev, s.evidence = some ev ∧ c.count.majorityOfOthers ≤ ev.length) ∨ s.phase = .dead := by
      rcases F.ok hx with h | ⟨_, h, a, rfl, _⟩
      · exact hH.ok h
      · exact .inl ⟨he, h⟩
    by_cases hd : t.phase = .dead
    · exact .inr (.inr hd)
    rcases key with ⟨h1, h2⟩ | ⟨ev, h1, h2⟩ | h1
    · rcases F.ev with ⟨k1, _⟩ | ⟨_, k2, _⟩
      · rcases F.phase with h | h | h | h | h
        · rcases grow k1 with g | g
          · exact .inl ⟨by rw [h, h1], by omega⟩
          · rw [h, h1] at g; cases g
        · rw [h1] at h; cases h.2
        · rw [hH.ph (.inr h1), h.2.2] at k1; cases k1
        · exact absurd h1 h.1
        · exact absurd h hd
      · exact .inr (.inl ⟨_, k2, h2⟩)
    · rcases F.ev with ⟨k1, _⟩ | ⟨_, _, _, k2⟩
      · exact .inr (.inl ⟨ev, by rw [k1, h1], h2⟩)
      · rw [hH.ph (.inr k2)] at h1; cases h1
    · exact absurd h1 (enabled_not_dead he)
  · intro hx
    rcases F.err hx with h1 | ⟨_, h1, _⟩
    · obtain ⟨l, h2, h3, h4⟩ := hH.err h1
      exact ⟨l, h2, h3, fun p hp => mono (h4 p hp)⟩
    · exact ⟨s.rejections, hI.jnd, h1, fun p hp => mono (hH.refused p hp)⟩
  · intro ev hev
    rcases F.ev with ⟨k1, _⟩ | ⟨_, k2, _, _⟩
    · exact hH.good ev (by rw [← k1, hev])
    · rw [hev] at k2; cases k2; exact hI.uniq
  · intro p hp
    rcases F.rejections p hp with h1 | h1
    · exact mono (hH.refused p h1)
    · exact ⟨e, by simp, h1⟩
  · intro p
    rw [F.removed p, hH.removed p]
    constructor
    · rintro (⟨⟨a, b, rfl, h2⟩ | ⟨h1, h2⟩, h3⟩ | rfl)
      · refine .inl ⟨a, b ++ [e], by simp, ?_⟩
        simp only [List.mem_append, List.mem_singleton, not_or]; exact ⟨h2, fun h => h3 h.symm⟩
      · refine .inr ⟨h1, ?_⟩
        simp only [List.mem_append, List.mem_singleton, not_or]; exact ⟨h2, fun h => h3 h.symm⟩
      · exact .inl ⟨h, [], rfl, by simp⟩
    · rintro (⟨a, b, h1, h2⟩ | ⟨h1, h2⟩)
      · rcases snoc_split h1 with ⟨h3, _⟩ | ⟨b', h3, h4⟩
        · exact .inr h3.symm
        · subst h3
          simp only [List.mem_append, List.mem_singleton, not_or] at h2
          exact .inl ⟨.inl ⟨a, b', h4, h2.1⟩, fun h => h2.2 h.symm⟩
      · simp only [List.mem_append, List.mem_singleton, not_or] at h2
        exact .inl ⟨.inr ⟨h1, h2.1⟩, fun h => h2.2 h.symm⟩
  · intro p hp
    rcases hm3 p hp with h1 | ⟨x, h1, h2⟩
    · exact old (hH.asked p h1)
    · exact ⟨x, by rw [hm1]; exact List.mem_append_right _ h1, h2⟩
  · intro p x hp
    have key : (((p, x) ∈ s.sigs ∨ ∃ ev, s.evidence = some ev ∧ (p, x) ∈ ev)) ∨
        ((∃ a, e = .sigDone p a (.signature x)) ∧ p ∈ s.inflight) := by
      rcases hp with hp | ⟨ev, h1, h2⟩
      · rcases sig hp with h | h
        · exact .inl (.inl h)
        · exact .inr h
      · rcases F.ev with ⟨k1, _⟩ | ⟨_, k2, _, _⟩
        · exact .inl (.inr ⟨ev, by rw [← k1, h1], h2⟩)
        · rw [h1] at k2; cases k2; exact .inl (.inl h2)
    rcases key with hp | ⟨⟨a, rfl⟩, h2⟩
    · obtain ⟨⟨a, h1⟩, h2⟩ := hH.from' p x hp
      exact ⟨⟨a, List.mem_append_left _ h1⟩, old h2⟩
    · exact ⟨⟨a, by simp⟩, old (hH.asked p h2)⟩

theorem reach_inv {c : Cfg} {h : List Ev} {s : St} (hc : c.WF) (hr : Reach c h s) : Inv c s ∧ HInv c h s := by
  induction hr with
  | init => exact ⟨inv_new hc, hinv_new c⟩
  | step _ he hs ih =>
    obtain ⟨t, h1, h2⟩ := step_inv hc ih.1 ih.2.ph he
    rw [hs] at h1; cases h1
    exact ⟨h2, hinv_step hc ih.1 ih.2 he hs⟩

/-! ## Queries -/

/-- C164. No `assert!` fires: whatever happens, the broadcaster handles it. -/
theorem no_panic {c h s e} (hc : c.WF) (hr : Reach c h s) (he : enabled s e) : (step c s e).isSome := by
  obtain ⟨hI, hH⟩ := reach_inv hc hr
  obtain ⟨t, h1, _⟩ := step_inv hc hI hH.ph he
  rw [h1]; rfl

/-- C164. A peer is never asked anything while it has not answered the last query. -/
theorem one_query {c h s} (hc : c.WF) (hr : Reach c h s) (p : Nat) : s.pending p ≤ 1 := by
  obtain ⟨hI, _⟩ := reach_inv hc hr
  have := List.nodup_iff_count_le_one.mp (hI.perm.nodup_iff.mp hI.nodup) p
  rwa [List.count_append] at this

/-- C164. Over any history a peer is sent at most what the events of the history allow: two queries
for the start and for each time it is connected again, three for each new attempt. -/
theorem queries_bounded {c h s} (hc : c.WF) (hr : Reach c h s) (p : Nat) :
    s.sent.countP (fun m => m.peer == p) ≤ (h.map (allowance p)).sum := by
  have : budget s p ≤ (h.map (allowance p)).sum := by
    induction hr with
    | init => simp [budget, St.sentTo, new]
    | step hr he hs ih =>
      have := step_budget hc (reach_inv hc hr).1 he hs p
      simp only [List.map_append, List.map_cons, List.map_nil, List.sum_append, List.sum_cons, List.sum_nil]
      omega
  exact Nat.le_trans (Nat.le_add_right _ _) this

/-- C164. The peers that are lost: those for which a loss was reported and no return since, and the
author of the point, who is never a receiver. -/
theorem lost_iff {c h s} (hc : c.WF) (hr : Reach c h s) (p : Nat) :
    p ∈ s.removed ↔ (∃ a b, h = a ++ .lost p :: b ∧ .resolved p ∉ b) ∨
      (p = c.author ∧ .resolved p ∉ h) := (reach_inv hc hr).2.removed p

/-- C164. Queries only go to peers that are not lost, and signatures are asked of signers only. -/
theorem sent_to_present {c h s e t} (hc : c.WF) (hr : Reach c h s) (he : enabled s e)
    (ht : step c s e = some t) :
    ∃ m, t.sent = s.sent ++ m ∧ ∀ x ∈ m, x.peer ∉ t.removed ∧ ∀ p, x = .sig p → p ∈ c.signers := by
  obtain ⟨m, h1, h2, _⟩ := (step_frame hc (reach_inv hc hr).1 he ht).sent
  exact ⟨m, h1, h2⟩

/-! ## No signer is forgotten -/

theorem pending_of_inflight {c s p} (hI : Inv c s) (h : p ∈ s.inflight) : s.pending p = 1 := by
  have h1 := List.nodup_iff_count_le_one.mp (hI.perm.nodup_iff.mp hI.nodup) p
  rw [List.count_append] at h1
  have h2 := List.count_pos_iff.mpr (hI.perm.mem_iff.mp h)
  rw [List.count_append] at h2
  unfold St.pending; omega

/-- C165. A signer that was sent the point and is not lost has a query pending, waits for the next
attempt, has refused or has signed. -/
theorem not_forgotten {c h s} (hc : c.WF) (hr : Reach c h s) {p : Nat} (hp : p ∈ c.signers)
    (ht : s.told p) (hl : p ∉ s.removed) :
    s.pending p = 1 ∨ p ∈ s.sigPeers ∨ p ∈ s.rejections ∨ s.signed p := by
  obtain ⟨hI, _⟩ := reach_inv hc hr
  rcases hI.told p hp ht hl (by simp) with h | h
  · exact .inl (pending_of_inflight hI h)
  · exact .inr h

/-- The number of the attempt an event starts. -/
def attemptOf (s : St) : Ev → Option Nat
  | .status a => some a
  | .tick => match s.phase with
    | .cont b => some ((b + 1) % 256)
    | _ => none
  | _ => none

theorem attempt_after {c h s e t a} (hc : c.WF) (hr : Reach c h s) (he : enabled s e)
    (ht : step c s e = some t) (ha : attemptOf s e = some a) (hd : t.phase ≠ .done) :
    Inv c t ∧ ∃ u, Inv c u ∧ u.removed = s.removed ∧ u.sigPeers = s.sigPeers ∧ u.phase ≠ .idle ∧
      matchAttempt c u a = some t := by
  obtain ⟨hI, hH⟩ := reach_inv hc hr
  obtain ⟨hI', _⟩ := reach_inv hc (.step hr he ht)
  refine ⟨hI', ?_⟩
  cases e with
  | status b =>
    cases ha
    have hi : s.phase ≠ .idle := by rw [show s.phase = .run from he]; simp
    simp only [step, shouldFinish] at ht
    split at ht
    · cases ht; exact absurd rfl hd
    · split at ht
      · exact ⟨_, inv_signals (sg := [.ok]) hI, rfl, rfl, hi, ht⟩
      · exact ⟨_, hI, rfl, rfl, hi, ht⟩
  | tick =>
    obtain ⟨b, hb⟩ := he
    simp only [attemptOf, hb, Option.some.injEq] at ha
    simp only [step, hb] at ht
    rw [ha] at ht
    obtain ⟨h1, h2, h3, h4, h5, h6, h7, h8, h9, h10, h11⟩ := hI
    exact ⟨{ s with phase := .cont a }, ⟨h1, h2, h3, h4, h5, h6, h7, fun e => (by cases e),
      fun _ => h9 (by rw [hb]; simp), h10, h11⟩, rfl, rfl, by simp, ht⟩
  | _ => cases ha

/-- C165. A new attempt (except the first, which starts together with the broadcast) asks all who
wait: after it a signer that was sent the point and is not lost has a query pending, has refused or
has signed. -/
theorem attempt_asks_all {c h s e t a} (hc : c.WF) (hr : Reach c h s) (he : enabled s e)
    (ht : step c s e = some t) (ha : attemptOf s e = some a) (h1 : a ≠ 1) (hd : t.phase ≠ .done)
    {p : Nat} (hp : p ∈ c.signers) (htold : t.told p) (hl : p ∉ t.removed) :
    t.pending p = 1 ∨ p ∈ t.rejections ∨ t.signed p := by
  obtain ⟨hI', u, hu, _, _, hi, hm⟩ := attempt_after hc hr he ht ha hd
  obtain ⟨t', k1, _, k2, k3, _⟩ := attempt_some (a := a) hc hu hi
  rw [hm] at k1; cases k1
  have : t.sigPeers = [] := by
    by_cases h0 : a = 0
    · rw [k2 h0]; rfl
    · rw [k3 (by omega)]; rfl
  rcases hI'.told p hp htold hl (by simp) with h | h | h
  · exact .inl (pending_of_inflight hI' h)
  · rw [this] at h; cases h
  · exact .inr h

/-- C165. When the counter of attempts wraps around, all refusals are forgotten and the point is
sent to every signer that is not lost, also to those it was never sent to. -/
theorem wrap_sends_all {c h s e t} (hc : c.WF) (hr : Reach c h s) (he : enabled s e)
    (ht : step c s e = some t) (ha : attemptOf s e = some 0) (hd : t.phase ≠ .done) :
    t.rejections = [] ∧ ∀ p ∈ c.signers, p ∉ t.removed → t.told p ∧ t.pending p = 1 := by
  obtain ⟨hI', u, hu, hrem, _, hi, hm⟩ := attempt_after hc hr he ht ha hd
  obtain ⟨t', k1, _, k2, _, _⟩ := attempt_some (a := 0) hc hu hi
  rw [hm] at k1; cases k1
  have e := k2 rfl
  refine ⟨by rw [e]; rfl, fun p hp hl => ?_⟩
  have hl' : p ∉ u.removed := by rw [e] at hl; exact hl
  have hmem : p ∈ t.inflight := by
    rw [e]; simp only [bcastAll, List.append_nil, List.mem_reverse, List.mem_filter]
    exact ⟨hp, by simpa using hl'⟩
  refine ⟨?_, pending_of_inflight hI' hmem⟩
  rw [e]; simp only [St.told, bcastAll, List.mem_append, List.mem_map, List.mem_filter]
  exact .inr ⟨p, ⟨hp, by simpa using hl'⟩, rfl⟩

/-- C165. A peer that is connected again is sent the point at once, unless it has a query pending,
and its refusal is forgotten. -/
theorem return_told {c h s t p} (hc : c.WF) (hr : Reach c h s) (he : enabled s (.resolved p))
    (ht : step c s (.resolved p) = some t) :
    t.pending p = 1 ∧ p ∉ t.rejections ∧ p ∉ t.removed ∧ (s.pending p = 0 → t.sent = s.sent ++ [.bcast p]) := by
  obtain ⟨hI, hH⟩ := reach_inv hc hr
  obtain ⟨hI', _⟩ := reach_inv hc (.step hr he ht)
  have hr0 : p ∉ s.removed.erase p := fun hm => (hI.rnd.mem_erase_iff.mp hm).1 rfl
  have hj0 : p ∉ s.rejections.erase p := fun hm => (hI.jnd.mem_erase_iff.mp hm).1 rfl
  simp only [step, resolved] at ht
  split at ht
  · rename_i hp
    cases ht
    have hp1 : s.pending p = 1 := pending_of_inflight hI hp
    exact ⟨hp1, hj0, hr0, fun h0 => by rw [hp1] at h0; cases h0⟩
  · rename_i hp
    rw [broadcast_eq (by exact hp)] at ht; cases ht
    refine ⟨pending_of_inflight hI' ?_, hj0, hr0, fun _ => ?_⟩
    · simp [bcastAll, hr0]
    · simp [bcastAll, hr0]

/-- C165. A peer asked by a new attempt that answers that it lacks the point is sent it at once. -/
theorem missing_point_sent {c h s e t a p b u} (hc : c.WF) (hr : Reach c h s) (he : enabled s e)
    (ht : step c s e = some t) (ha : attemptOf s e = some a) (h1 : 1 < a) (hd : t.phase ≠ .done)
    (hq : p ∈ s.sigPeers) (hl : p ∉ s.removed) (he' : enabled t (.sigDone p b .noPoint))
    (hu : step c t (.sigDone p b .noPoint) = some u) : u.sent = t.sent ++ [.bcast p] := by
  obtain ⟨hI', v, hv, hrem, hsp, hi, hm⟩ := attempt_after hc hr he ht ha hd
  obtain ⟨t', k1, _, _, k3, _⟩ := attempt_some (a := a) hc hv hi
  rw [hm] at k1; cases k1
  have e := k3 h1
  have hb : b = false := by
    have hmem := he'.2
    rw [e] at hmem
    simp only [reqAll, List.mem_append, List.mem_reverse, List.mem_map, Prod.mk.injEq] at hmem
    rcases hmem with ⟨_, _, _, h⟩ | h
    · exact h.symm
    · exfalso
      refine hv.disj p (by rw [hsp]; exact hq) (hv.perm.mem_iff.mpr ?_)
      exact List.mem_append_right _ (List.mem_map.mpr ⟨_, h, rfl⟩)
  subst hb
  have hmem : p ∈ t.inflight := hI'.perm.mem_iff.mpr
    (List.mem_append_right _ (List.mem_map.mpr ⟨_, he'.2, rfl⟩))
  have hnr : p ∉ t.removed := by rw [e]; show p ∉ v.removed; rw [hrem]; exact hl
  have hne : p ∉ t.inflight.erase p := fun h => (hI'.nodup.mem_erase_iff.mp h).1 rfl
  simp only [step, matchSignature, if_neg (show ¬ p ∉ t.inflight by simpa using hmem), Bool.false_eq_true, if_false] at hu
  rw [broadcast_eq (by exact hne)] at hu
  cases hu
  simp [bcastAll, hnr]

/-! ## Signatures -/

/-- C166. The result of `run` holds only valid signatures of distinct signers, each given in answer
to a request; the author's own is not among them unless the schedule reported the author itself. -/
theorem evidence_good {c h s ev} (hc : c.WF) (hr : Reach c h s) (he : s.evidence = some ev) :
    GoodEvidence c ev ∧ (∀ p x, (p, x) ∈ ev → ∃ a, .sigDone p a (.signature x) ∈ h) := by
  obtain ⟨_, hH⟩ := reach_inv hc hr
  exact ⟨hH.good ev he, fun p x hp => (hH.from' p x (.inr ⟨ev, he, hp⟩)).1⟩

/-- The author is sent nothing unless the schedule reported it as connected. -/
theorem author_silent {c h s} (hc : c.WF) (hr : Reach c h s) (ha : .resolved c.author ∉ h) :
    ∀ m ∈ s.sent, m.peer ≠ c.author := by
  induction hr with
  | init => simp [new]
  | step hr he hs ih =>
    obtain ⟨m, h1, h2⟩ := sent_to_present hc hr he hs
    intro x hx
    rw [h1] at hx
    rcases List.mem_append.mp hx with hx | hx
    · exact ih (fun h => ha (List.mem_append_left _ h)) x hx
    · intro hp
      exact (h2 x hx).1 (hp ▸ (lost_iff hc (.step hr he hs) c.author).mpr (.inr ⟨rfl, ha⟩))

/-- C166. No signature of the author is counted unless the schedule reported the author itself. -/
theorem evidence_of_others {c h s ev} (hc : c.WF) (hr : Reach c h s) (he : s.evidence = some ev)
    (ha : .resolved c.author ∉ h) : c.author ∉ ev.map (·.1) := by
  intro hm
  obtain ⟨⟨p, x⟩, h1, h2⟩ := List.mem_map.mp hm
  obtain ⟨_, m, h3, h4⟩ := (reach_inv hc hr).2.from' p x (.inr ⟨ev, he, h1⟩)
  exact author_silent hc hr ha m h3 (h4.trans h2)

/-- C166. When success was signalled to the collector, the result of `run` holds signatures of the
majority of others. -/
theorem ok_means {c h s ev} (hc : c.WF) (hr : Reach c h s) (hok : .ok ∈ s.signals)
    (he : s.evidence = some ev) (hd : s.phase ≠ .dead) : c.count.majorityOfOthers ≤ ev.length := by
  obtain ⟨_, hH⟩ := reach_inv hc hr
  rcases hH.ok hok with ⟨h1, _⟩ | ⟨ev', h1, h2⟩ | h1
  · rw [hH.ph (.inr h1)] at he; cases he
  · rw [he] at h1; cases h1; exact h2
  · exact absurd h1 hd

/-- C166. Success is signalled when the status of the collector comes with enough attempts made and
the majority of others has signed. -/
theorem ok_when {c h s e t} (hc : c.WF) (hr : Reach c h s) (he : enabled s e) (ht : step c s e = some t)
    (hn : .ok ∈ t.signals) (ho : .ok ∉ s.signals) :
    c.count.majorityOfOthers ≤ s.sigs.length ∧ (s.sigs.map (·.1)).Nodup ∧
      ∃ a, e = .status a ∧ c.minAttempts ≤ a := by
  obtain ⟨hI, _⟩ := reach_inv hc hr
  rcases (step_frame hc hI he ht).ok hn with h | ⟨_, h1, h2⟩
  · exact absurd h ho
  · exact ⟨h1, hI.uniq.1, h2⟩

/-- C166. And it is signalled then, unless too many refuse or a signal was sent before. -/
theorem ok_sent {c h s a t} (hc : c.WF) (hr : Reach c h s) (he : enabled s (.status a))
    (ht : step c s (.status a) = some t) (hs : s.signals = [])
    (hm : c.count.majorityOfOthers ≤ s.sigs.length) (ha : c.minAttempts ≤ a)
    (hj : s.rejections.length < c.count.reliableMinority) : t.signals = [.ok] := by
  obtain ⟨hI, _⟩ := reach_inv hc hr
  have hi : s.phase ≠ .idle := by rw [show s.phase = .run from he]; simp
  simp only [step, shouldFinish] at ht
  rw [if_neg (by omega), if_pos ⟨ha, hm, hs⟩] at ht
  exact (attempt_frame hc (inv_signals (sg := [.ok]) hI) hi ht).1.signals

/-- C166. Failure is signalled only when a reliable minority of distinct peers gave an answer that
counts as a refusal, and `run` ends with it. -/
theorem err_means {c h s} (hc : c.WF) (hr : Reach c h s) (herr : .err ∈ s.signals) :
    ∃ l : List Nat, l.Nodup ∧ c.count.reliableMinority ≤ l.length ∧ ∀ p ∈ l, ∃ e ∈ h, Refusal c p e :=
  (reach_inv hc hr).2.err herr

/-- C166. When a reliable minority refuses, the next status of the collector ends `run`. -/
theorem err_ends {c s a t} (ht : step c s (.status a) = some t)
    (hj : c.count.reliableMinority ≤ s.rejections.length) :
    t.phase = .done ∧ t.signals ≠ [] ∧ (s.signals = [] → t.signals = [.err]) := by
  simp only [step, shouldFinish, if_pos hj] at ht
  cases ht
  refine ⟨rfl, ?_, fun h => by simp [h]⟩
  dsimp only; split
  · simp
  · assumption

/-- C166. At most one signal is sent. -/
theorem one_signal {c h s} (hc : c.WF) (hr : Reach c h s) : s.signals.length ≤ 1 :=
  (reach_inv hc hr).2.one

end Tycho.Broadcaster
