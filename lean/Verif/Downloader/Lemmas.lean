import Mathlib.Data.List.Nodup
import Mathlib.Data.List.Perm.Basic
import Verif.Downloader.Spec

namespace Tycho.Downloader
open Tycho.Table

/-! ## Choosing a peer -/

theorem key_le {a b : Status} (h : a.key ≤ b.key) {n : Nat} (hb : b.ready n = true) : a.ready n = true := by
  simp only [Status.ready, Bool.and_eq_true, Bool.not_eq_true'] at hb ⊢
  obtain ⟨⟨h1, h2⟩, h3⟩ := hb
  simp only [Status.key, Prod.Lex.toLex_le_toLex, h1, h2] at h
  simp only [if_true, Bool.false_eq_true, if_false, Nat.not_lt_zero, false_or] at h
  obtain ⟨k1, k2, h⟩ := h
  have e1 : a.resolved = true := by
    cases hr : a.resolved
    · simp [hr] at k1
    · rfl
  have e2 : a.inFlight = false := by
    cases hr : a.inFlight
    · rfl
    · simp [hr] at k2
  refine ⟨⟨e1, e2⟩, ?_⟩
  have hle : (match a.last with | none => 0 | some a => a + 1) ≤ (match b.last with | none => 0 | some a => a + 1) := by
    rcases h with h | h
    · exact Nat.le_of_lt h
    · exact Nat.le_of_eq h.1
  cases ha : a.last with
  | none => rfl
  | some x =>
    rw [ha] at hle
    cases hb : b.last with
    | none => rw [hb] at hle; simp at hle
    | some y => rw [hb] at hle h3; simp at hle h3 ⊢; omega

theorem take_some {t : Table Nat Status} (hu : Uniq t) {n p t'} (h : take t n = some (p, t')) :
    ∃ x, get t p = some x ∧ x.ready n = true ∧ t' = put t p { x with inFlight := true, last := some n } ∧
      ∀ q y, get t q = some y → x.key ≤ y.key := by
  unfold take at h
  cases hb : best t with
  | none => rw [hb] at h; cases h
  | some e =>
    obtain ⟨q, x⟩ := e
    rw [hb] at h
    dsimp only at h
    by_cases hr : x.ready n = true
    · rw [if_pos hr] at h
      simp only [Option.some.injEq, Prod.mk.injEq] at h
      obtain ⟨rfl, rfl⟩ := h
      refine ⟨x, get_of_mem t hu _ _ (List.argmin_mem hb), hr, rfl, ?_⟩
      intro q' y hy
      exact List.le_of_mem_argmin (f := fun e : Nat × Status => e.2.key) (mem_of_get t q' y hy) hb
    · rw [if_neg hr] at h; cases h

theorem take_none {t : Table Nat Status} {n} (h : take t n = none) :
    ∀ p x, get t p = some x → x.ready n = false := by
  intro p x hx
  have hm := mem_of_get t p x hx
  unfold take at h
  cases hb : best t with
  | none =>
    unfold best at hb
    rw [List.argmin_eq_none] at hb
    rw [hb] at hm; cases hm
  | some e =>
    obtain ⟨q, y⟩ := e
    rw [hb] at h
    dsimp only at h
    by_cases hr : y.ready n = true
    · rw [if_pos hr] at h; cases h
    · cases hx' : x.ready n
      · rfl
      · exact absurd (key_le (List.le_of_mem_argmin (f := fun e : Nat × Status => e.2.key) hm hb) hx') hr

/-! ## The invariant -/

/-- What holds while a download runs; `B` are the peers being dealt with. -/
structure Inv (c : Cfg) (s : St) (B : List Nat) : Prop where
  uniq : Uniq s.peers
  nodup : B.Nodup
  flight : ∀ p x, get s.peers p = some x → (x.inFlight = true ↔ p ∈ B)
  known : ∀ p ∈ B, s.left p
  dom : ∀ p, s.left p → p ∈ c.signers.map (·.1) ∨ p = c.author
  nfnd : s.notFound.Nodup
  nfout : ∀ p ∈ s.notFound, ¬ s.left p ∧ p ∈ c.signers.map (·.1)
  slotq : s.slot = none → s.queue = []
  rest : ∀ p ∈ c.signers.map (·.1), s.left p ∨ p ∈ s.notFound
  cap : s.downloading.length ≤ c.count.reliableMinority

theorem Inv.perm {c s B B'} (h : Inv c s B) (hp : B.Perm B') : Inv c s B' := by
  obtain ⟨h1, h2, h3, h4, h5, h6, h7, h8, h9, h10⟩ := h
  exact ⟨h1, hp.nodup_iff.mp h2, fun p x hx => (h3 p x hx).trans hp.mem_iff, fun p hp' => h4 p (hp.mem_iff.mpr hp'),
    h5, h6, h7, h8, h9, h10⟩

theorem left_put {t : Table Nat Status} {p q x y} (h : get t p = some y) :
    (get (put t p x) q).isSome ↔ (get t q).isSome := by
  rw [get_put]
  by_cases hq : q = p
  · subst hq; simp [h]
  · rw [if_neg hq]

/-- What asking peers leaves alone. -/
structure Ask (s t : St) : Prop where
  notFound : t.notFound = s.notFound
  slot : t.slot = s.slot
  queue : t.queue = s.queue
  attempt : t.attempt = s.attempt
  result : t.result = s.result
  left : ∀ p, t.left p ↔ s.left p

theorem busy_eq {s t : St} (h : Ask s t) : t.busy = t.downloading ++ (s.slot.toList ++ s.queue) := by
  rw [St.busy, h.slot, h.queue]

theorem askLoop_inv {c : Cfg} : ∀ (n : Nat) (s : St), Inv c s s.busy →
    s.downloading.length + n ≤ c.count.reliableMinority →
    Inv c (askLoop s n) (askLoop s n).busy ∧ Ask s (askLoop s n) ∧
      ∃ m, (askLoop s n).downloading = m.reverse ++ s.downloading ∧ (askLoop s n).sent = s.sent ++ m ∧
        m.length ≤ n ∧ (∀ q ∈ m, ∃ x, get s.peers q = some x ∧ x.ready s.attempt = true) ∧
        ((∀ p x, get (askLoop s n).peers p = some x → x.ready s.attempt = false) ∨ m.length = n) := by
  intro n
  induction n with
  | zero => intro s h _; exact ⟨h, ⟨rfl, rfl, rfl, rfl, rfl, fun _ => .rfl⟩, [], by simp [askLoop], by simp [askLoop], by simp, by simp, .inr rfl⟩
  | succ n ih =>
    intro s h hn
    unfold askLoop
    cases ht : take s.peers s.attempt with
    | none => exact ⟨h, ⟨rfl, rfl, rfl, rfl, rfl, fun _ => .rfl⟩, [], by simp, by simp, by simp, by simp, .inl (take_none ht)⟩
    | some e =>
      obtain ⟨p, t⟩ := e
      obtain ⟨x, hx, hr, rfl, _⟩ := take_some h.uniq ht
      dsimp only
      have hL : ∀ q, (get (put s.peers p { x with inFlight := true, last := some s.attempt }) q).isSome ↔ s.left q :=
        fun q => left_put hx
      have hr' := hr
      simp only [Status.ready, Bool.and_eq_true, Bool.not_eq_true'] at hr
      have hpB : p ∉ s.busy := fun hm => by rw [(h.flight p x hx).mpr hm] at hr; simp at hr
      obtain ⟨h1, h2, h3, h4, h5, h6, h7, h8, h9, h10⟩ := h
      have hI : Inv c { s with peers := put s.peers p { x with inFlight := true, last := some s.attempt },
                               downloading := p :: s.downloading, sent := s.sent ++ [p] } (p :: s.busy) := by
        refine ⟨?_, List.nodup_cons.mpr ⟨hpB, h2⟩, ?_, ?_, fun q hq => h5 q ((hL q).mp hq), h6,
          fun q hq => ⟨fun hl => (h7 q hq).1 ((hL q).mp hl), (h7 q hq).2⟩, h8,
          fun q hq => (h9 q hq).imp (hL q).mpr id, by simp only [List.length_cons]; omega⟩
        · simp only [Uniq, put, List.map_cons, List.nodup_cons]
          refine ⟨?_, uniq_del _ _ h1⟩
          intro hm
          obtain ⟨e, he, hk⟩ := List.mem_map.mp hm
          simp [del] at he
          exact he.2 hk
        · intro q y hy
          simp only [get_put] at hy
          by_cases hq : q = p
          · subst hq; rw [if_pos rfl] at hy; cases hy; simp
          · rw [if_neg hq] at hy
            rw [h3 q y hy]; simp [hq]
        · intro q hq
          refine (hL q).mpr ?_
          rcases List.mem_cons.mp hq with rfl | hq
          · simp [St.left, hx]
          · exact h4 q hq
      obtain ⟨k1, k2, m, k3, k4, k5, k7, k6⟩ := ih _ hI (by simp only [List.length_cons]; omega)
      refine ⟨k1, ⟨k2.notFound, k2.slot, k2.queue, k2.attempt, k2.result, fun q => (k2.left q).trans (hL q)⟩,
        p :: m, by simp [k3], by simp [k4], by simp only [List.length_cons]; omega, ?_, ?_⟩
      · intro q hq
        rcases List.mem_cons.mp hq with rfl | hq
        · exact ⟨x, hx, hr'⟩
        · obtain ⟨y, hy, hyr⟩ := k7 q hq
          simp only [get_put] at hy
          by_cases hqp : q = p
          · subst hqp; rw [if_pos rfl] at hy; cases hy
            simp [Status.ready] at hyr
          · rw [if_neg hqp] at hy; exact ⟨y, hy, hyr⟩
      rcases k6 with k6 | k6
      · exact .inl k6
      · exact .inr (by simp [k6])

theorem random_inv {c : Cfg} {s : St} (h : Inv c s s.busy) :
    Inv c (downloadRandom c s) (downloadRandom c s).busy ∧ Ask s (downloadRandom c s) ∧
      ∃ m, (downloadRandom c s).downloading = m.reverse ++ s.downloading ∧ (downloadRandom c s).sent = s.sent ++ m ∧
        (∀ q ∈ m, ∃ x, get s.peers q = some x ∧ x.ready s.attempt = true) ∧
        ((∀ p x, get (downloadRandom c s).peers p = some x → x.ready s.attempt = false) ∨
          (downloadRandom c s).downloading.length =
            max s.downloading.length (min (max (c.downloadPeers * s.attempt) 1) c.count.reliableMinority)) := by
  have hc := h.cap
  obtain ⟨k1, k2, m, k3, k4, k5, k7, k6⟩ := askLoop_inv (currentPeers c s.attempt s.downloading.length) s h
    (by unfold currentPeers; omega)
  refine ⟨k1, k2, m, k3, k4, k7, ?_⟩
  rcases k6 with k6 | k6
  · exact .inl k6
  · refine .inr ?_
    show (askLoop s _).downloading.length = _
    rw [k3, List.length_append, List.length_reverse, k6]
    unfold currentPeers; omega

/-! ## How often a peer is asked -/

/-- A peer was asked at most once per attempt so far. -/
def Once (s : St) : Prop := ∀ p, s.sent.count p ≤ s.attempt + 1 ∧
  ∀ x, get s.peers p = some x → s.sent.count p ≤ x.last.elim 0 (· + 1)

theorem askLoop_once : ∀ (n : Nat) (s : St), Uniq s.peers → Once s → Once (askLoop s n) := by
  intro n
  induction n with
  | zero => intro s _ h; exact h
  | succ n ih =>
    intro s hu h
    unfold askLoop
    cases ht : take s.peers s.attempt with
    | none => exact h
    | some e =>
      obtain ⟨p, t⟩ := e
      obtain ⟨x, hx, hr, rfl, _⟩ := take_some hu ht
      refine ih _ (uniq_put _ _ _ hu) ?_
      have hc : s.sent.count p ≤ s.attempt := by
        have := (h p).2 x hx
        simp only [Status.ready, Bool.and_eq_true] at hr
        cases hl : x.last with
        | none => rw [hl] at this; simp at this; omega
        | some a => rw [hl] at this hr; simp at this hr; omega
      intro q
      simp only [List.count_append, List.count_singleton, get_put]
      by_cases hq : q = p
      · subst hq
        simp only [beq_self_eq_true, if_true]
        refine ⟨by omega, ?_⟩
        intro y hy; cases hy; simp; omega
      · have : (p == q) = false := by simpa using fun e => hq e.symm
        simp only [this, Bool.false_eq_true, if_false, if_neg hq, Nat.add_zero]
        exact h q

end Tycho.Downloader
