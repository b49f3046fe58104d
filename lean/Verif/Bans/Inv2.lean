import Verif.Bans.Inv
import Mathlib.Tactic.Tauto
/-!
The journal of a running node: events and starts.
-/
namespace Tycho.Bans
open Tycho.Table (Table get put del get_put get_del Uniq putAll)

/-- An event, with the ban for it or without. -/
theorem jinv_event {cfg : Config} {s s' : St} (w : JInv cfg s) (p tag t : Nat) (hp : s.pend = some (p, tag, t)) (h' : Hist)
    (l : List Rec) (hl : l = [] ∨ ∃ u, l = [⟨(s.now, s.seq + 1), p, .banned u⟩] ∧ u ≤ s.now + cfg.ttl)
    (hh : HGood cfg t tag (eventsOf (jour s) p tag ++ [(t, s.seq)]) h')
    (hdue : tooMany (cfg.of tag) (eventsOf (jour s) p tag ++ [(t, s.seq)]) t → ∃ r, l = [r] ∧ r.peer = p ∧ r.kind = .banned (t + (cfg.of tag).dur))
    (h1 : s'.now = s.now) (h2 : s'.started = s.started) (h3 : s'.seq = s.seq + 1 + l.length)
    (h4 : s'.hist = put s.hist (p, tag) h') (h5 : ∀ q, get s'.bans q = l.foldl (banStep s.started q) (get s.bans q)) (h6 : s'.pend = none)
    (h7 : s'.disk = s.disk) (h8 : s'.queue = s.queue ++ [⟨(t, s.seq), p, .event tag⟩ :: l]) :
    JInv cfg s' ∧ ∃ a b, jour s = a ++ b ∧ jour s' = a ++ ⟨(t, s.seq), p, .event tag⟩ :: b ++ l := by
  obtain ⟨ht1, ht2, hpb⟩ := w.pend p tag t hp
  obtain ⟨a, b, hab, hins, ha, hb⟩ := insert_mid ⟨(t, s.seq), p, .event tag⟩ (jour s) w.jour.up
  have hbk : ∀ x ∈ b, klt (t, s.seq) x.key = true := by
    intro x hx
    have hx2 : x ∈ jour s := by rw [hab]; simp [hx]
    have h1 := hb x hx
    have h2 := w.keys x hx2
    unfold klt at h1 ⊢
    simp only [decide_eq_false_iff_not, decide_eq_true_eq, not_or] at h1 ⊢
    have h3 : t ≤ x.key.1 := by omega
    have h4 := h2.2 (by omega)
    omega
  have hbb : ∀ x ∈ b, ∃ u, x.kind = .banned u := by
    intro x hx
    rcases hpb x (by rw [hab]; simp [hx]) with h | h
    · have := klt_asymm h; rw [hbk x hx] at this; cases this
    · exact h
  have hl3 : ∀ x ∈ jour s, ∀ y ∈ l, klt x.key y.key = true := by
    intro x hx y hy
    rcases hl with rfl | ⟨u, rfl, _⟩
    · cases hy
    · rw [List.mem_singleton] at hy; subst hy; exact w.below x hx _ (by omega)
  have hl4 : ∀ y ∈ l, klt (t, s.seq) y.key = true := by
    intro y hy
    rcases hl with rfl | ⟨u, rfl, _⟩
    · cases hy
    · rw [List.mem_singleton] at hy; subst hy
      unfold klt; simp only [decide_eq_true_eq]; omega
  have hins2 : insertAll (jour s) (⟨(t, s.seq), p, .event tag⟩ :: l) = a ++ ⟨(t, s.seq), p, .event tag⟩ :: b ++ l := by
    unfold insertAll
    rw [List.foldl_cons, hins]
    rcases hl with rfl | ⟨u, rfl, _⟩
    · simp
    · rw [List.foldl_cons, List.foldl_nil]
      apply insert_end
      intro x hx
      simp only [List.mem_append, List.mem_cons] at hx
      rcases hx with hx | rfl | hx
      · exact hl3 x (by rw [hab]; simp [hx]) _ (by simp)
      · exact hl4 _ (by simp)
      · exact hl3 x (by rw [hab]; simp [hx]) _ (by simp)
  have hj : jour s' = a ++ ⟨(t, s.seq), p, .event tag⟩ :: b ++ l := by
    rw [← hins2]
    unfold jour
    rw [h7, h8, List.foldl_append]
    rfl
  have hbl : ∀ x ∈ b ++ l, ∀ tg, x.kind ≠ .event tg := by
    intro x hx tg
    rcases List.mem_append.1 hx with hx | hx
    · obtain ⟨u, hu⟩ := hbb x hx; rw [hu]; simp
    · rcases hl with rfl | ⟨u, rfl, _⟩
      · cases hx
      · rw [List.mem_singleton] at hx; subst hx; simp
  have hea : ∀ q tg, eventsOf (jour s) q tg = eventsOf a q tg := by
    intro q tg
    rw [hab]
    exact eventsOf_bans _ _ (fun x hx => hbl x (by simp [hx])) _ _
  have hea2 : ∀ q tg, eventsOf (jour s') q tg = eventsOf (a ++ [⟨(t, s.seq), p, .event tag⟩]) q tg := by
    intro q tg
    have : jour s' = (a ++ [⟨(t, s.seq), p, .event tag⟩]) ++ (b ++ l) := by rw [hj]; simp
    rw [this]
    exact eventsOf_bans _ _ hbl _ _
  have hfull : Jok cfg (a ++ ⟨(t, s.seq), p, .event tag⟩ :: b ++ l) := by
    refine jok_event (hab ▸ w.jour) _ tag rfl ha hbk hbb l (by rw [← hab]; exact hl3) hl4 ?_ ?_
    · rcases hl with h | ⟨u, h, hu⟩
      · exact Or.inl h
      · exact Or.inr ⟨_, u, h, rfl, hu⟩
    · intro htm
      apply hdue
      rw [eventsOf_snoc, if_pos ⟨rfl, rfl⟩] at htm
      rw [hea]; exact htm
  refine ⟨⟨by rw [h1, h2]; exact w.startLe, ?_, ?_, ?_, ?_, ?_⟩, a, b, hab, hj⟩
  · intro x hx
    rw [hj] at hx
    rw [h1, h2, h3]
    have hold : x ∈ jour s → x.key.1 ≤ s.now ∧ (s.started ≤ x.key.1 → x.key.2 < s.seq + 1 + l.length) := by
      intro hx
      have := w.keys x hx
      exact ⟨this.1, fun h => by have := this.2 h; omega⟩
    simp only [List.mem_append, List.mem_cons] at hx
    rcases hx with (hx | rfl | hx) | hx
    · exact hold (by rw [hab]; simp [hx])
    · exact ⟨ht2, fun _ => by simp only; omega⟩
    · exact hold (by rw [hab]; simp [hx])
    · rcases hl with rfl | ⟨u, rfl, _⟩
      · cases hx
      · rw [List.mem_singleton] at hx; subst hx
        exact ⟨Nat.le_refl _, fun _ => by simp⟩
  · intro p' tag' t' h; rw [h6] at h; cases h
  · intro q1 q2 h
    rw [h8] at h
    rw [h7]
    rcases List.append_eq_append_iff.1 h with ⟨c, ec, ed⟩ | ⟨c, ec, ed⟩
    · cases c with
      | nil => rw [List.append_nil] at ec; rw [ec]; exact w.jour
      | cons y c =>
        have : c = [] ∧ y = (⟨(t, s.seq), p, .event tag⟩ :: l) := by
          simp only [List.cons_append, List.cons.injEq] at ed
          have h9 := ed.2
          cases c with
          | nil => exact ⟨rfl, ed.1.symm⟩
          | cons z c => simp at h9
        obtain ⟨rfl, rfl⟩ := this
        rw [ec, List.foldl_append]
        have : List.foldl insertAll (s.queue.foldl insertAll s.disk) [⟨(t, s.seq), p, .event tag⟩ :: l] = a ++ ⟨(t, s.seq), p, .event tag⟩ :: b ++ l := hins2
        rw [this]
        exact hfull
    · exact w.jok q1 c ec
  · intro q
    rw [h5, h2, hj, w.bans q]
    have : banNow s.started (a ++ ⟨(t, s.seq), p, .event tag⟩ :: b) q = banNow s.started (jour s) q := by
      rw [hab]; exact banNow_event _ _ _ _ tag rfl _
    rw [← this]
    unfold banNow
    rw [← List.foldl_append]
  · have hfl : floor s = t := by unfold floor; rw [hp]
    have hfl' : floor s' = s.now := by unfold floor; rw [h6, h1]
    intro q tg
    rw [h4, hfl', hea2, eventsOf_snoc, get_put]
    by_cases hc : q = p ∧ tg = tag
    · obtain ⟨rfl, rfl⟩ := hc
      rw [if_pos ⟨rfl, rfl⟩, if_pos rfl, Option.getD_some, ← hea]
      exact hh.mono ht2
    · rw [if_neg (by simp; intro e1 e2; exact hc ⟨e1.symm, e2.symm⟩), if_neg (by intro e; exact hc (by simpa using e)), ← hea]
      have := w.hist q tg
      rw [hfl] at this
      exact this.mono ht2

/-- The handling of an event: a ban exactly if there were too many. -/
theorem handle_spec {cfg : Config} (hv : Valid cfg) {s : St} (w : JInv cfg s) (p tag t : Nat) (hp : s.pend = some (p, tag, t)) :
    JInv cfg (s.handle cfg) ∧ (s.handle cfg).bad = s.bad ∧ (s.handle cfg).last = s.last ∧
      ((tooMany (cfg.of tag) (eventsOf (jour s) p tag ++ [(t, s.seq)]) t ∧
          (∃ a b, jour s = a ++ b ∧ jour (s.handle cfg) = a ++ ⟨(t, s.seq), p, .event tag⟩ :: b ++ [⟨(s.now, s.seq + 1), p, .banned (t + (cfg.of tag).dur)⟩]) ∧
          (s.handle cfg).bans = (s.upsert p (t + (cfg.of tag).dur)).1.bans ∧ (s.handle cfg).chan = (s.upsert p (t + (cfg.of tag).dur)).1.chan ∧
          (s.handle cfg).net = (s.upsert p (t + (cfg.of tag).dur)).1.net) ∨
        (¬ tooMany (cfg.of tag) (eventsOf (jour s) p tag ++ [(t, s.seq)]) t ∧
          (∃ a b, jour s = a ++ b ∧ jour (s.handle cfg) = a ++ ⟨(t, s.seq), p, .event tag⟩ :: b) ∧
          (s.handle cfg).bans = s.bans ∧ (s.handle cfg).chan = s.chan ∧ (s.handle cfg).net = s.net)) := by
  obtain ⟨ht1, ht2, hpb⟩ := w.pend p tag t hp
  have hfl : floor s = t := by unfold floor; rw [hp]
  obtain ⟨B, b1, b2, b3, b4⟩ := w.hist p tag
  rw [hfl] at b2 b3 b4
  have hup : Up (eventsOf (jour s) p tag ++ [(t, s.seq)]) := by
    refine List.pairwise_append.2 ⟨eventsOf_up w.jour.up _ _, by simp, ?_⟩
    intro k hk y hy
    rw [List.mem_singleton] at hy; subst hy
    obtain ⟨r, hr, e, _, hkind⟩ := mem_eventsOf hk
    rcases hpb r hr with h | ⟨u, hu⟩
    · rw [← e]; exact h
    · rw [hu] at hkind; cases hkind
  obtain ⟨h', m1, m2, m3⟩ := maybeBan_ok (cfg.of tag) (eventsOf (jour s) p tag) B _ (t, s.seq) b1 hup
    (by
      generalize hlst : ((get s.hist (p, tag)).getD ⟨none, []⟩).last = l at b2
      cases l with
      | none => exact Nat.le_refl _
      | some l => exact b2 l rfl) b3
  have hh : HGood cfg t tag (eventsOf (jour s) p tag ++ [(t, s.seq)]) h' := by
    refine ⟨_, m3, ?_, ?_, ?_⟩
    · intro l hl; rw [m2] at hl; simp at hl; omega
    · unfold bound; split
      · exact b3
      · simp only; omega
    · intro w' n hw
      have := b4 w' n hw
      unfold bound; rw [hw]; simp only; omega
  have htm : over (cfg.of tag) (eventsOf (jour s) p tag ++ [(t, s.seq)]) (bound (cfg.of tag) B t) = true ↔
      tooMany (cfg.of tag) (eventsOf (jour s) p tag ++ [(t, s.seq)]) t :=
    ⟨tooMany_of_over _ _ _ _, over_of_tooMany _ _ _ _ b4⟩
  unfold St.handle
  rw [hp]
  simp only [St.onEvent, St.newKey]
  rw [m1]
  by_cases hov : over (cfg.of tag) (eventsOf (jour s) p tag ++ [(t, s.seq)]) (bound (cfg.of tag) B (t, s.seq).1) = true
  · simp only [if_pos hov]
    have u0 := upsert_rest { s with pend := none, hist := put s.hist (p, tag) h', seq := s.seq + 1 + 1 } p (t + (cfg.of tag).dur)
    have u1 := upsert_bans { s with pend := none, hist := put s.hist (p, tag) h', seq := s.seq + 1 + 1 } p (t + (cfg.of tag).dur)
    have u2 : ∀ s1 : St, s1.bans = s.bans → s1.chan = s.chan → s1.net = s.net → (s1.upsert p (t + (cfg.of tag).dur)).1.bans = (s.upsert p (t + (cfg.of tag).dur)).1.bans ∧
        (s1.upsert p (t + (cfg.of tag).dur)).1.chan = (s.upsert p (t + (cfg.of tag).dur)).1.chan ∧
        (s1.upsert p (t + (cfg.of tag).dur)).1.net = (s.upsert p (t + (cfg.of tag).dur)).1.net := by
      intro s1 e1 e2 e3
      unfold St.upsert
      rw [e1]
      cases get s.bans p with
      | none => simp [St.netBan, e2, e3]
      | some old => simp only; split <;> simp [e1, e2, e3]
    have u3 := u2 { s with pend := none, hist := put s.hist (p, tag) h', seq := s.seq + 1 + 1 } rfl rfl rfl
    generalize (St.upsert { s with pend := none, hist := put s.hist (p, tag) h', seq := s.seq + 1 + 1 } p (t + (cfg.of tag).dur)).1 = s1 at *
    simp only at u0 u1
    obtain ⟨v1, v2, v3, v4, v5, v6, v7, v8, v9⟩ := u0
    have hpos := hv.pos tag
    have hdl := hv.durLe tag
    have httl := hv.ttl
    have := jinv_event (s' := s1.write [⟨(t, s.seq), p, .event tag⟩, ⟨(s.now, s.seq + 1), p, .banned (t + (cfg.of tag).dur)⟩]) w p tag t hp h'
      [⟨(s.now, s.seq + 1), p, .banned (t + (cfg.of tag).dur)⟩] (Or.inr ⟨_, rfl, by omega⟩) hh (fun _ => ⟨_, rfl, rfl, rfl⟩)
      v1 v2 v3 v4 (by
        intro q
        simp only [St.write, List.foldl_cons, List.foldl_nil]
        rw [u1]
        unfold banStep
        by_cases hq : q = p
        · subst hq; simp only [if_true]; rw [if_pos (by omega)]
        · rw [if_neg hq, if_neg (by simp; exact fun e => hq e.symm)]) v5 v6 (by simp [St.write, v7])
    obtain ⟨ji, a, b, hab, hj⟩ := this
    exact ⟨ji, v9, v8, Or.inl ⟨htm.1 hov, ⟨a, b, hab, hj⟩, u3⟩⟩
  · simp only [if_neg hov]
    have hn : ¬ tooMany (cfg.of tag) (eventsOf (jour s) p tag ++ [(t, s.seq)]) t := fun h => hov (htm.2 h)
    have := jinv_event (s' := St.write { s with pend := none, hist := put s.hist (p, tag) h', seq := s.seq + 1 } [⟨(t, s.seq), p, .event tag⟩]) w p tag t hp h'
      [] (Or.inl rfl) hh (fun h => absurd h hn) rfl rfl rfl rfl (fun q => rfl) rfl rfl rfl
    obtain ⟨ji, a, b, hab, hj⟩ := this
    rw [List.append_nil] at hj
    exact ⟨ji, rfl, rfl, Or.inr ⟨hn, ⟨a, b, hab, hj⟩, rfl, rfl, rfl⟩⟩

theorem restore_uniq (cfg : Config) (st : Nat) (l : List Rec) : ∀ x : Restored, Uniq x.temp → Uniq (l.foldl (restoreStep cfg st) x).temp := by
  induction l with
  | nil => intro x h; exact h
  | cons r l ih =>
    intro x h
    apply ih
    unfold restoreStep
    split
    · split
      · exact h
      · exact h
      · split
        · exact Table.uniq_put _ _ _ h
        · exact h
    · split
      · exact Table.uniq_put _ _ _ h
      · exact h
    · exact Table.uniq_del x.temp (fun p => decide (p = r.peer)) h

theorem applyTemp_all (l : List (Nat × Temp)) : ∀ s : St, (∀ e ∈ l, ∃ u, e.2 = .stored u) → l.foldl St.applyTemp s =
    { s with bans := putAll s.bans (l.map (fun e => (e.1, e.2.til))), chan := s.chan ++ l.map (fun e => Item.banned e.1 e.2.til) } := by
  induction l with
  | nil => intro s _; simp [putAll]
  | cons e l ih =>
    intro s h
    obtain ⟨u, hu⟩ := h e (by simp)
    rw [List.foldl_cons, ih _ (fun y hy => h y (by simp [hy]))]
    obtain ⟨p, t⟩ := e
    simp only at hu
    subst hu
    simp [St.applyTemp, putAll, Temp.til]

/-- A start on a sound journal of the past: the state is this one. -/
theorem start_eq (cfg : Config) (hv : Valid cfg) (st : Nat) (j : List Rec) (jok : Jok cfg j) :
    let x := restoreLoop cfg st (load cfg st j)
    start cfg st j = ⟨st, st, 1, x.hist, putAll [] (x.temp.map (fun e => (e.1, e.2.til))), none,
      x.temp.map (fun e => Item.banned e.1 e.2.til), [], none, j, [], false⟩ ∧ Uniq x.temp := by
  intro x
  have hu : Uniq x.temp := restore_uniq cfg st _ _ Table.uniq_nil
  have hs : ∀ e ∈ x.temp, ∃ u, e.2 = .stored u := by
    intro e he
    have h1 := Table.get_of_mem _ hu e.1 e.2 he
    rw [restored_bans cfg hv st j jok] at h1
    cases hb : banNow st j e.1 with
    | none => rw [hb] at h1; cases h1
    | some u => rw [hb] at h1; exact ⟨u, by simpa using h1.symm⟩
  refine ⟨?_, hu⟩
  unfold start
  simp only
  rw [applyTemp_all _ _ hs]
  have := (restore_ok cfg hv st j jok).good
  simp [x, this]

theorem get_putAll_map (l : Table Nat Temp) (hu : Uniq l) (p : Nat) :
    get (putAll [] (l.map (fun e => (e.1, e.2.til)))) p = (get l p).map Temp.til := by
  cases hg : get l p with
  | none =>
    rw [Table.get_putAll_not]
    · rfl
    · intro e he hp
      obtain ⟨y, hy, rfl⟩ := List.mem_map.1 he
      have := Table.get_some_of_mem l y.1 y.2 hy
      rw [← hp] at hg
      simp only at hg
      rw [hg] at this; cases this
  | some t =>
    have hm := Table.mem_of_get _ _ _ hg
    have := Table.get_putAll_mem ([] : Table Nat Nat) (l.map (fun e => (e.1, e.2.til))) (by rw [List.map_map]; exact hu) (p, t.til)
      (List.mem_map.2 ⟨(p, t), hm, rfl⟩)
    exact this

theorem start_bans (cfg : Config) (hv : Valid cfg) (st : Nat) (j : List Rec) (jok : Jok cfg j) (p : Nat) :
    get (start cfg st j).bans p = banNow st j p := by
  obtain ⟨h1, h2⟩ := start_eq cfg hv st j jok
  rw [h1]
  simp only
  rw [get_putAll_map _ h2, restored_bans cfg hv st j jok]
  cases banNow st j p <;> rfl

theorem jinv_start (cfg : Config) (hv : Valid cfg) (st : Nat) (j : List Rec) (jok : Jok cfg j) (hj : ∀ r ∈ j, r.key.1 < st) :
    JInv cfg (start cfg st j) := by
  have hb := start_bans cfg hv st j jok
  have hr := restore_ok cfg hv st j jok
  obtain ⟨h1, h2⟩ := start_eq cfg hv st j jok
  rw [h1] at hb ⊢
  refine ⟨Nat.le_refl _, ?_, ?_, ?_, hb, ?_⟩
  · intro r hr
    have := hj r hr
    simp only; omega
  · intro p tag t h; cases h
  · intro q1 q2 h
    have : q1 = [] := (List.append_eq_nil_iff.1 h.symm).1
    subst this; exact jok
  · intro p tag
    obtain ⟨B, b1, b2, b3, b4⟩ := hr.hist p tag
    have hk : ∀ k ∈ eventsOf j p tag, k.1 < st := by
      intro k hk
      obtain ⟨r, hr, e, _⟩ := mem_eventsOf hk
      rw [← e]; exact hj r hr
    refine ⟨B, b1, ?_, ?_, ?_⟩
    · intro l hl
      obtain ⟨k, hk2, e⟩ := b2 l hl
      have := hk k hk2
      simp only [floor]; omega
    · simp only [floor]
      rcases b4 with b4 | ⟨k, hk2, w, n, _, h5⟩
      · omega
      · have := hk k hk2; omega
    · intro w n hw
      simp only [floor]
      rcases b4 with b4 | ⟨k, hk2, w', n', hw', h5⟩
      · have := hv.tolLe tag w n hw; omega
      · have := hk k hk2
        rw [hw] at hw'; simp only [Option.some.injEq, Prod.mk.injEq] at hw'
        omega

theorem jok_nil (cfg : Config) : Jok cfg [] :=
  ⟨by simp [Up], by simp, by intro a e b tag h; simp at h⟩

theorem jinv_step {cfg : Config} (hv : Valid cfg) {s : St} (w : JInv cfg s) (op : Op) : JInv cfg (step cfg s op) := by
  cases op with
  | tick d =>
    have := w.startLe
    refine ⟨by simp only [step]; omega, ?_, ?_, w.jok, w.bans, ?_⟩
    · intro r hr
      have := w.keys r hr
      exact ⟨by simp only [step]; omega, this.2⟩
    · intro p tag t h
      have := w.pend p tag t h
      exact ⟨this.1, by simp only [step]; omega, this.2.2⟩
    · intro p tag
      refine (w.hist p tag).mono ?_
      unfold floor step
      simp only
      split <;> simp_all
  | report p tag => exact w.same rfl rfl (Nat.le_refl _) rfl rfl rfl rfl rfl
  | manualBan p dur =>
    simp only [step]
    split
    · rename_i h; exact jinv_manualBan w p dur h.1 h.2
    · exact w
  | askUnban p => exact w.same rfl rfl (Nat.le_refl _) rfl rfl rfl rfl rfl
  | recv => exact jinv_recv w
  | handle =>
    simp only [step]
    cases hp : s.pend with
    | none => unfold St.handle; rw [hp]; exact w
    | some x =>
      obtain ⟨p, tag, t⟩ := x
      exact (handle_spec hv w p tag t hp).1
  | expire p =>
    simp only [step]
    split
    · rename_i hp; exact jinv_autoUnban w hp p
    · exact w
  | flush => exact jinv_flush w
  | setSchedule => exact w.same rfl rfl (Nat.le_refl _) rfl rfl rfl rfl rfl
  | restart d =>
    refine jinv_start cfg hv _ _ (w.jok [] s.queue rfl) ?_
    intro r hr
    have : r ∈ jour s := by
      unfold jour
      have key : ∀ (g : List Rec) (d : List Rec), r ∈ d → r ∈ insertAll d g := by
        intro g
        induction g with
        | nil => intro d h; exact h
        | cons x g ih =>
          intro d h
          apply ih
          unfold insert
          have h2 : r ∈ d.takeWhile (fun y => klt y.key x.key) ++ d.dropWhile (fun y => klt y.key x.key) := by
            rw [List.takeWhile_append_dropWhile]; exact h
          simp only [List.mem_append, List.mem_cons] at h2 ⊢
          tauto
      have key2 : ∀ (q : List (List Rec)) (d : List Rec), r ∈ d → r ∈ q.foldl insertAll d := by
        intro q
        induction q with
        | nil => intro d h; exact h
        | cons g q ih => intro d h; exact ih _ (key g d h)
      exact key2 _ _ hr
    have := (w.keys r this).1
    omega

theorem jinv_run {cfg : Config} (hv : Valid cfg) (t0 : Nat) (ops : List Op) : JInv cfg (run cfg t0 ops) := by
  unfold run
  have h0 : JInv cfg (start cfg t0 []) := jinv_start cfg hv t0 [] (jok_nil cfg) (by simp)
  generalize start cfg t0 [] = s at h0
  induction ops generalizing s with
  | nil => exact h0
  | cons o ops ih => exact ih _ (jinv_step hv h0 o)

end Tycho.Bans
