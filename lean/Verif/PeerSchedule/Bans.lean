import Verif.PeerSchedule.Members
/-!
States of peers: who is banned or local is never used as a reachable peer; every peer that is not resolved yet is waited
for; peers that leave the schedule are reported.
-/
namespace Tycho.PeerSchedule
open Tycho.Table

/-- What is kept by the four parts of the calls that change epochs is kept by the calls. -/
theorem closed_calls (P : Sched → Prop)
    (h1 : ∀ s v n sub, Inv s → P s → P (s.setNextSubset v n sub))
    (h2 : ∀ s s' r, Inv s → P s → s.applyImpl r = some s' → P s')
    (h3 : ∀ s v, Inv s → P s → P (s.setNextSet v))
    (h4 : ∀ s, Inv s → P s → P s.restart)
    {s s' : Sched} (hi : Inv s) (hp : P s) (a : Act) (hs : s.act a = some s')
    (ha : (∃ g au i, a = .init g au i) ∨ (∃ i, a = .setPeers i) ∨ (∃ c, a = .apply c) ∨ ∃ c, a = .applyLate c) :
    P s' := by
  have hcurr : ∀ (s s' : Sched) r i, Inv s → P s → s.setCurr r i = some s' → P s' := by
    intro s s' r i hi hp h
    unfold Sched.setCurr at h
    have i1 := inv_setNextSubset hi i.currVset r i.currSub
    have p1 := h1 s i.currVset r i.currSub hi hp
    by_cases hv : i.nextVset.isEmpty = true
    · rw [if_pos hv] at h; injection h with h; exact h ▸ p1
    · rw [if_neg hv] at h
      obtain ⟨s2, e2, i2⟩ := inv_applyImpl i1 r
      rw [e2] at h
      injection h with h
      exact h ▸ h3 s2 _ i2 (h2 _ _ _ i1 p1 e2)
  rcases ha with ⟨g, au, i, rfl⟩ | ⟨i, rfl⟩ | ⟨c, rfl⟩ | ⟨c, rfl⟩
  · simp only [Sched.act, Sched.init] at hs
    have i1 := inv_setNextSubset hi [] (g - 1) [(au, 0)]
    have p1 := h1 s [] (g - 1) [(au, 0)] hi hp
    obtain ⟨s2, e2, i2⟩ := inv_applyImpl i1 (g - 1)
    have p2 := h2 _ _ _ i1 p1 e2
    rw [e2] at hs
    simp only at hs
    obtain ⟨s3, e3, i3⟩ := inv_initPrev i2 g i
    rw [e3] at hs
    simp only at hs
    obtain ⟨s4, e4, i4⟩ := inv_setCurr i3 (max i.currStart (g + 1)) i
    rw [e4] at hs
    simp only at hs
    injection hs with hs
    have p3 : P s3 := by
      unfold Sched.initPrev at e3
      split at e3
      · exact h2 _ _ _ (inv_setNextSubset i2 _ _ _) (h1 _ _ _ _ i2 p2) e3
      · injection e3 with e3; exact e3 ▸ p2
    exact hs ▸ h4 s4 i4 (hcurr _ _ _ _ i3 p3 e4)
  · simp only [Sched.act, Sched.setPeers] at hs
    have i1 := inv_setNextSubset hi i.prevVset i.prevStart i.prevSub
    obtain ⟨s2, e2, i2⟩ := inv_applyImpl i1 i.prevStart
    rw [e2] at hs
    exact hcurr _ _ _ _ i2 (h2 _ _ _ i1 (h1 _ _ _ _ hi hp) e2) hs
  · simp only [Sched.act, Sched.apply] at hs
    split at hs
    · injection hs with hs; exact hs ▸ hp
    · exact h2 _ _ _ hi hp hs
  · exact h2 _ _ _ hi hp hs

/-- The peer is resolved in none of the subsets. -/
def Unk (d : Stateful) (p : Peer) : Prop :=
  (p, true) ∉ d.active.oldest ∧ (p, true) ∉ d.active.prev ∧ (p, true) ∉ d.active.curr ∧ (p, true) ∉ d.active.next

theorem mem_setIn (t : Table Peer Bool) (q p : Peer) (st b : Bool) :
    (p, b) ∈ setIn t q st ↔ if p = q then p ∈ keys t ∧ b = st else (p, b) ∈ t := by
  simp only [setIn, List.mem_map, keys]
  constructor
  · rintro ⟨e, he, h⟩
    by_cases hq : e.1 = q
    · rw [if_pos hq] at h
      injection h with ha hb
      rw [if_pos (ha ▸ hq)]
      exact ⟨⟨e, he, ha⟩, hb.symm⟩
    · rw [if_neg hq] at h
      rw [if_neg (fun e' => hq (by rw [h]; exact e'))]
      exact h ▸ he
  · intro h
    by_cases hq : p = q
    · rw [if_pos hq] at h
      obtain ⟨⟨e, he, hp⟩, hb⟩ := h
      exact ⟨e, he, by rw [if_pos (hp.trans hq), hp, hb]⟩
    · rw [if_neg hq] at h
      exact ⟨(p, b), h, by rw [if_neg hq]⟩

theorem mem_statesOf (ps r : List Peer) (p : Peer) (b : Bool) :
    (p, b) ∈ statesOf ps r ↔ p ∈ ps ∧ b = r.contains p := by
  simp only [statesOf, List.mem_map]
  constructor
  · rintro ⟨q, hq, h⟩; injection h with h1 h2; subst h1; exact ⟨hq, h2.symm⟩
  · rintro ⟨h, rfl⟩; exact ⟨p, h, rfl⟩

theorem mem_resolvedOf (t : Table Peer Bool) (p : Peer) : p ∈ resolvedOf t ↔ (p, true) ∈ t := by
  simp only [resolvedOf, List.mem_map, List.mem_filter]
  constructor
  · rintro ⟨⟨q, b⟩, ⟨h1, h2⟩, h3⟩; simp only at h2 h3; subst h2; subst h3; exact h1
  · intro h; exact ⟨(p, true), ⟨h, rfl⟩, rfl⟩

theorem unk_setMaps {d : Stateful} {p : Peer} (h : Unk d p) (q : Peer) (st : Bool) (hq : q = p → st = false) :
    Unk (d.setMaps q st) p := by
  unfold Unk Stateful.setMaps at *
  simp only [mem_setIn]
  by_cases hp : p = q
  · have := hq hp.symm
    subst this
    simp [hp]
  · simpa [hp] using h

theorem unk_change {s : Sched} {p : Peer} (h : Unk s.data p) (q : Peer) (st : Bool) (hq : q = p → st = false) :
    Unk (s.change q st).data p := by
  have := unk_setMaps h q st hq
  unfold Unk at *
  simp only [Sched.change, setState_active]
  exact this

theorem unk_change_self (s : Sched) (p : Peer) : Unk (s.change p false).data p := by
  unfold Unk
  simp only [Sched.change, setState_active, Stateful.setMaps, mem_setIn]
  simp

theorem mem_setMember (l : List Peer) (q p : Peer) (st : Bool) (hq : q = p → st = false) :
    p ∈ setMember l q st → p ∈ l := by
  unfold setMember
  cases st with
  | true =>
    rw [if_pos rfl]
    intro h
    rcases List.mem_cons.1 h with h | h
    · have := hq h.symm; cases this
    · exact h
  | false =>
    intro h
    exact (List.mem_filter.1 h).1

theorem recv_change {s : Sched} {p : Peer} (h : p ∉ s.data.receivers) (q : Peer) (st : Bool)
    (hq : q = p → st = false) : p ∉ (s.change q st).data.receivers := by
  simp only [Sched.change]
  unfold Stateful.setState
  split
  · simp only
    split
    · exact fun h' => h (mem_setMember _ q p st hq h')
    · exact h
  · exact h

theorem all_change {s : Sched} {p : Peer} (h : p ∉ s.data.allResolved) (q : Peer) (st : Bool)
    (hq : q = p → st = false) : p ∉ (s.change q st).data.allResolved := by
  simp only [Sched.change]
  unfold Stateful.setState
  split
  · exact fun h' => h (mem_setMember _ q p st hq h')
  · exact h

theorem resolvedEntries_banned {s : Sched} (hi : Inv s) {p : Peer} (hb : p ∈ s.banned) (v : List Peer) :
    p ∉ s.resolvedEntries v := by
  intro h
  have h1 := (List.mem_filter.1 h).1
  rcases (mem_newEntries s v p).1 h1 with h2 | h2
  · exact ((hi.ent p).1 h2).2 hb
  · exact h2.2 hb

theorem resolvedEntries_local (s : Sched) (v : List Peer) : s.localId ∉ s.resolvedEntries v := by
  intro h
  have := (List.mem_filter.1 h).2
  simp at this

theorem unk_setNextSubset {s : Sched} {p : Peer} (h : Unk s.data p) (v : List Peer) (n : Round)
    (sub : List (Peer × Nat)) (hr : p ∉ s.resolvedEntries v) : Unk (s.setNextSubset v n sub).data p := by
  unfold Sched.setNextSubset
  split
  · exact h
  · refine ⟨h.1, h.2.1, h.2.2.1, ?_⟩
    change (p, true) ∉ statesOf (sub.map (·.1)) (s.resolvedEntries v)
    rw [mem_statesOf]
    rintro ⟨_, h2⟩
    exact hr (by simpa using h2.symm)

theorem recv_setNextSubset {s : Sched} {p : Peer} (h : Unk s.data p) (hn : p ∉ s.data.receivers) (v : List Peer)
    (n : Round) (sub : List (Peer × Nat)) (hr : p ∉ s.resolvedEntries v) :
    p ∉ (s.setNextSubset v n sub).data.receivers := by
  unfold Sched.setNextSubset
  split
  · exact hn
  · change p ∉ resolvedOf s.data.active.curr ++ resolvedOf (statesOf (sub.map (·.1)) (s.resolvedEntries v))
    rw [List.mem_append, mem_resolvedOf, mem_resolvedOf, mem_statesOf]
    rintro (h1 | ⟨_, h2⟩)
    · exact h.2.2.1 h1
    · exact hr (by simpa using h2.symm)

theorem applyImpl_data {s s' : Sched} (hi : Inv s) (r : Round) (h : s.applyImpl r = some s') :
    s' = s ∨ ∃ n, s'.data = s.data.rotated n := by
  unfold Sched.applyImpl at h
  by_cases hy : s.data.starts.notYet r = true
  · rw [if_pos hy] at h; injection h with h; exact Or.inl h.symm
  · rw [if_neg hy] at h
    cases hn : s.data.starts.next with
    | none => exact absurd (by simp [EpochStarts.notYet, hn]) hy
    | some n =>
      obtain ⟨t, h1, _, _, h2, _⟩ := rotate_ok hi n hn
      rw [h1] at h; injection h with h
      exact Or.inr ⟨n, h ▸ h2⟩

theorem unk_applyImpl {s s' : Sched} (hi : Inv s) {p : Peer} (h : Unk s.data p) (r : Round)
    (hs : s.applyImpl r = some s') : Unk s'.data p := by
  rcases applyImpl_data hi r hs with rfl | ⟨n, hd⟩
  · exact h
  · unfold Unk
    rw [hd]
    exact ⟨h.2.1, h.2.2.1, h.2.2.2, by simp [Stateful.rotated]⟩

theorem recv_applyImpl {s s' : Sched} (hi : Inv s) {p : Peer} (h : p ∉ s.data.receivers) (r : Round)
    (hs : s.applyImpl r = some s') : p ∉ s'.data.receivers := by
  rcases applyImpl_data hi r hs with rfl | ⟨n, hd⟩
  · exact h
  · rw [hd]
    exact fun h' => h ((List.mem_filter.1 h').1)

theorem recv_setNextSet {s : Sched} {p : Peer} (h : p ∉ s.data.receivers) (v : List Peer) :
    p ∉ (s.setNextSet v).data.receivers := fun h' => h ((List.mem_filter.1 h').1)

theorem unk_banOne {t : Sched} {p : Peer} (h : Unk t.data p) (q : Peer) : Unk (t.banOne q).data p := by
  unfold Sched.banOne
  split
  · exact unk_change h q false (fun _ => rfl)
  · exact h

theorem recv_banOne {t : Sched} {p : Peer} (h : p ∉ t.data.receivers) (q : Peer) :
    p ∉ (t.banOne q).data.receivers := by
  unfold Sched.banOne
  split
  · exact recv_change h q false (fun _ => rfl)
  · exact h

theorem unk_unbanOne {t : Sched} {p : Peer} (h : Unk t.data p) {q : Peer} (hq : q ≠ p) :
    Unk (t.unbanOne q).data p := by
  unfold Sched.unbanOne
  split
  · split
    · exact unk_change h q true (fun e => absurd e hq)
    · exact h
  · exact h

theorem recv_unbanOne {t : Sched} {p : Peer} (h : p ∉ t.data.receivers) {q : Peer} (hq : q ≠ p) :
    p ∉ (t.unbanOne q).data.receivers := by
  unfold Sched.unbanOne
  split
  · split
    · exact recv_change h q true (fun e => absurd e hq)
    · exact h
  · exact h

/-- A banned peer that is not used stays so. -/
structure Off (p : Peer) (s : Sched) : Prop where
  ban : p ∈ s.banned
  unk : Unk s.data p

theorem off_act {s s' : Sched} (hi : Inv s) {p : Peer} (h : Off p s) (a : Act) (hs : s.act a = some s')
    (ha : ∀ ps, a = .unban ps → p ∉ ps) : Off p s' ∧ (p ∉ s.data.receivers → p ∉ s'.data.receivers) := by
  have hcalls := fun hx => closed_calls
    (fun t => Off p t ∧ (p ∉ s.data.receivers → p ∉ t.data.receivers))
    (fun t v n sub it ht =>
      ⟨⟨by rw [banned_setNextSubset]; exact ht.1.ban,
        unk_setNextSubset ht.1.unk v n sub (resolvedEntries_banned it ht.1.ban v)⟩,
       fun hn => recv_setNextSubset ht.1.unk (ht.2 hn) v n sub (resolvedEntries_banned it ht.1.ban v)⟩)
    (fun t t' r it ht e =>
      ⟨⟨by rw [banned_applyImpl it r e]; exact ht.1.ban, unk_applyImpl it ht.1.unk r e⟩,
       fun hn => recv_applyImpl it (ht.2 hn) r e⟩)
    (fun t v _ ht => ⟨⟨ht.1.ban, ht.1.unk⟩, fun hn => recv_setNextSet (ht.2 hn) v⟩)
    (fun t _ ht => ⟨⟨ht.1.ban, ht.1.unk⟩, ht.2⟩) hi ⟨h, id⟩ a hs hx
  cases a with
  | init g au i => exact hcalls (Or.inl ⟨g, au, i, rfl⟩)
  | setPeers i => exact hcalls (Or.inr (Or.inl ⟨i, rfl⟩))
  | apply c => exact hcalls (Or.inr (Or.inr (Or.inl ⟨c, rfl⟩)))
  | applyLate c => exact hcalls (Or.inr (Or.inr (Or.inr ⟨c, rfl⟩)))
  | ban ps =>
    have hb := (banned_act hi (.ban ps) hs p).2 (Or.inl ⟨h.ban, by simp⟩)
    simp only [Sched.act, Option.some.injEq] at hs
    have key : ∀ (qs : List Peer) (t : Sched), Unk t.data p →
        Unk (t.banLoop qs).1.data p ∧ (p ∉ t.data.receivers → p ∉ (t.banLoop qs).1.data.receivers) := by
      intro qs
      induction qs with
      | nil => exact fun t ht => ⟨ht, id⟩
      | cons q qs ih =>
        intro t ht
        have h1 : Unk (t.banOne q).data p ∧ (p ∉ t.data.receivers → p ∉ (t.banOne q).data.receivers) :=
          ⟨unk_banOne ht q, fun hn => recv_banOne hn q⟩
        exact ⟨(ih _ h1.1).1, fun hn => (ih _ h1.1).2 (h1.2 hn)⟩
    refine ⟨⟨hb, ?_⟩, ?_⟩ <;> rw [← hs] <;> unfold Sched.setBanned <;> split
    · exact h.unk
    · change Unk (s.setBannedLocked ps).data p
      unfold Sched.setBannedLocked
      split <;> exact (key ps s h.unk).1
    · exact id
    · change _ → p ∉ (s.setBannedLocked ps).data.receivers
      unfold Sched.setBannedLocked
      split <;> exact (key ps s h.unk).2
  | unban ps =>
    have hb := (banned_act hi (.unban ps) hs p).2 (Or.inl ⟨h.ban, fun qs e => ha qs e⟩)
    have hps : p ∉ ps := ha ps rfl
    simp only [Sched.act, Option.some.injEq] at hs
    have key : ∀ (qs : List Peer) (t : Sched), p ∉ qs → Unk t.data p →
        Unk (t.unbanLoop qs).1.data p ∧ (p ∉ t.data.receivers → p ∉ (t.unbanLoop qs).1.data.receivers) := by
      intro qs
      induction qs with
      | nil => exact fun t _ ht => ⟨ht, id⟩
      | cons q qs ih =>
        intro t hnq ht
        have hq : q ≠ p := fun e => hnq (by rw [e]; exact List.mem_cons_self)
        have h1 : Unk (t.unbanOne q).data p ∧ (p ∉ t.data.receivers → p ∉ (t.unbanOne q).data.receivers) :=
          ⟨unk_unbanOne ht hq, fun hn => recv_unbanOne hn hq⟩
        have hn' : p ∉ qs := fun e => hnq (List.mem_cons_of_mem _ e)
        exact ⟨(ih _ hn' h1.1).1, fun hn => (ih _ hn' h1.1).2 (h1.2 hn)⟩
    refine ⟨⟨hb, ?_⟩, ?_⟩ <;> rw [← hs] <;> unfold Sched.removeBans <;> split
    · exact h.unk
    · change Unk (s.removeBansLocked ps).data p
      unfold Sched.removeBansLocked
      split <;> exact (key ps s hps h.unk).1
    · exact id
    · change _ → p ∉ (s.removeBansLocked ps).data.receivers
      unfold Sched.removeBansLocked
      split <;> exact (key ps s hps h.unk).2
  | takeForget => injection hs with hs; rw [← hs]; exact ⟨⟨h.ban, h.unk⟩, id⟩
  | resolve q on =>
    simp only [Sched.act, Option.some.injEq] at hs
    rw [← hs]; split <;> exact ⟨⟨h.ban, h.unk⟩, id⟩
  | pop q =>
    simp only [Sched.act, Option.some.injEq] at hs
    rw [← hs]; split <;> exact ⟨⟨h.ban, h.unk⟩, id⟩
  | applyResolved q =>
    simp only [Sched.act, Option.some.injEq] at hs
    rw [← hs]
    split
    · unfold Sched.applyResolved
      split
      · exact ⟨⟨h.ban, h.unk⟩, id⟩
      · rename_i hnb
        have hq : q ≠ p := by rintro rfl; exact hnb (by simpa using h.ban)
        exact ⟨⟨h.ban, unk_change (s := { s with popped := s.popped.erase q }) h.unk q true (fun e => absurd e hq)⟩,
          fun hn => recv_change (s := { s with popped := s.popped.erase q }) hn q true (fun e => absurd e hq)⟩
    · exact ⟨⟨h.ban, h.unk⟩, id⟩

theorem off_run (as : List Act) : ∀ {s s' : Sched} {p : Peer}, Inv s → Off p s → s.run as = some s' →
    (∀ ps, .unban ps ∈ as → p ∉ ps) → Off p s' ∧ (p ∉ s.data.receivers → p ∉ s'.data.receivers) := by
  induction as with
  | nil => intro s s' p _ h hr _; injection hr with hr; exact hr ▸ ⟨h, id⟩
  | cons a as ih =>
    intro s s' p hi h hr ha
    obtain ⟨s1, e1, i1⟩ := inv_act hi a
    simp only [Sched.run, e1] at hr
    obtain ⟨o1, r1⟩ := off_act hi h a e1 (fun ps e => ha ps (e ▸ List.mem_cons_self))
    obtain ⟨o2, r2⟩ := ih i1 o1 hr (fun ps e => ha ps (List.mem_cons_of_mem _ e))
    exact ⟨o2, fun hn => r2 (r1 hn)⟩

/-! ### The moment of a ban -/

theorem any_banOne (t : Sched) (p q : Peer) : (t.banOne q).data.inAnyVset p = t.data.inAnyVset p := by
  unfold Sched.banOne
  split
  · simp only [Sched.change, setState_any]
  · rfl

/-- After the loop over banned peers a peer of a known validator set is resolved nowhere. -/
theorem banLoop_unk (ps : List Peer) : ∀ (s : Sched) (p : Peer), p ∈ ps → (s.data.inAnyVset p = true ∨ Unk s.data p) →
    Unk (s.banLoop ps).1.data p := by
  have keep : ∀ (qs : List Peer) (t : Sched) (p : Peer), Unk t.data p → Unk (t.banLoop qs).1.data p := by
    intro qs
    induction qs with
    | nil => exact fun t p ht => ht
    | cons q qs ih => exact fun t p ht => ih _ p (unk_banOne ht q)
  induction ps with
  | nil => intro s p h; cases h
  | cons q ps ih =>
    intro s p hp hv
    simp only [Sched.banLoop]
    rcases List.mem_cons.1 hp with rfl | hp
    · apply keep
      rcases hv with hv | hv
      · unfold Sched.banOne
        rw [if_pos hv]
        exact unk_change_self _ p
      · exact unk_banOne hv p
    · refine ih _ p hp ?_
      rcases hv with hv | hv
      · exact Or.inl (by rw [any_banOne]; exact hv)
      · exact Or.inr (unk_banOne hv q)

/-- Resolved in the current or in the scheduled subset. -/
def Live (d : Stateful) (p : Peer) : Prop :=
  Table.get d.active.curr p = some true ∨ Table.get d.active.next p = some true

theorem live_change_self {s : Sched} {p : Peer} (h : Live s.data p) :
    p ∉ (s.change p false).data.receivers := by
  have hd : s.data.changesReceiver p false = true := by
    unfold Stateful.changesReceiver differs
    rcases h with h | h
    · rw [h]; simp
    · rw [h]; simp
  have ha : s.data.isApplied p false = true := by
    unfold Stateful.isApplied; rw [hd]; simp
  simp only [Sched.change, Stateful.setState, ha, if_true, hd]
  simp [setMember]

theorem live_banOne {t : Sched} {p q : Peer} (hq : q ≠ p) (h : Live t.data p) : Live (t.banOne q).data p := by
  unfold Sched.banOne
  split
  · unfold Live at *
    simp only [Sched.change, setState_active, Stateful.setMaps, get_setIn]
    have : ¬ p = q := fun e => hq e.symm
    simpa [this] using h
  · exact h

theorem banLoop_recv (ps : List Peer) : ∀ (s : Sched) (p : Peer), p ∈ ps → s.data.inAnyVset p = true →
    Live s.data p → p ∉ (s.banLoop ps).1.data.receivers := by
  have keep : ∀ (qs : List Peer) (t : Sched) (p : Peer), p ∉ t.data.receivers →
      p ∉ (t.banLoop qs).1.data.receivers := by
    intro qs
    induction qs with
    | nil => exact fun t p ht => ht
    | cons q qs ih => exact fun t p ht => ih _ p (recv_banOne ht q)
  induction ps with
  | nil => intro s p h; cases h
  | cons q ps ih =>
    intro s p hp hv hl
    simp only [Sched.banLoop]
    by_cases hq : q = p
    · subst hq
      apply keep
      unfold Sched.banOne
      rw [if_pos hv]
      exact live_change_self (s := { s with banned := q :: s.banned, entries := removeEntry s.entries q }) hl
    · rcases List.mem_cons.1 hp with rfl | hp
      · exact absurd rfl hq
      · exact ih _ p hp (by rw [any_banOne]; exact hv) (live_banOne hq hl)

theorem state_not_true {d : Stateful} {p : Peer} (h : Unk d p) (r : Round) :
    Table.get (d.peersStateFor r) p ≠ some true := by
  intro hg
  have hm := Table.mem_of_get _ _ _ hg
  unfold Stateful.peersStateFor at hm
  cases hx : d.starts.arrIdx r with
  | none => rw [hx] at hm; cases hm
  | some i =>
    rw [hx] at hm
    simp only at hm
    unfold Four.at at hm
    split at hm
    · exact h.1 hm
    · exact h.2.1 hm
    · exact h.2.2.1 hm
    · exact h.2.2.2 hm

/-- **A banned peer is not used.** A validator of a known set is banned; until its ban is lifted, whatever else happens
(epochs are switched, the peer is resolved again, other peers are banned or freed, old resolve tasks deliver late):
it is not a member of the overlay, its uploads are refused, and it is resolved in no round, so that nothing is asked of
it. -/
theorem banned_peer_not_used (l : Peer) (as bs : List Act) (ps : List Peer) (s s' : Sched) (p : Peer)
    (h : (Sched.new l).run as = some s) (hp : p ∈ ps) (hm : (VPlan.empty.run as).member p)
    (h' : s.run (.ban ps :: bs) = some s') (hu : ∀ qs, .unban qs ∈ bs → p ∉ qs) :
    p ∉ s'.entries ∧ s'.atomic.isInActive p = false ∧ ∀ r, Table.get (s'.data.peersStateFor r) p ≠ some true := by
  have hi := inv_of_run (Inv.new l) h
  have hi' := inv_of_run hi h'
  have hv := (vshows_run as (Inv.new l) (vshows_new l) h).any p
  have i1 := inv_setBanned hi ps
  have hne : ps.isEmpty = false := by cases ps with
    | nil => cases hp
    | cons a b => rfl
  have o1 : Off p (s.setBanned ps) := by
    refine ⟨?_, ?_⟩
    · exact (banned_act hi (.ban ps) rfl p).2 (Or.inr ⟨ps, rfl, hp⟩)
    · have := banLoop_unk ps s p hp (Or.inl (hv.2 hm))
      unfold Sched.setBanned
      rw [hne]
      change Unk (s.setBannedLocked ps).data p
      unfold Sched.setBannedLocked
      split <;> exact this
  have hr : (s.setBanned ps).run bs = some s' := h'
  have o2 := (off_run bs i1 o1 hr hu).1
  refine ⟨fun he => ((hi'.ent p).1 he).2 o2.ban, ?_, fun r => state_not_true o2.unk r⟩
  unfold Stateless.isInActive
  have : s'.atomic.banned.contains p = true := by simpa using (hi'.ban p).2 o2.ban
  rw [this]
  simp

/-- **A banned peer gets no broadcasts**, if it was reachable in the current or in the scheduled subset when it was
banned, until its ban is lifted. (See `banned_peer_may_get_broadcasts` for the other case.) -/
theorem banned_peer_gets_no_broadcasts (l : Peer) (as bs : List Act) (ps : List Peer) (s s' : Sched) (p : Peer)
    (h : (Sched.new l).run as = some s) (hp : p ∈ ps) (hm : (VPlan.empty.run as).member p)
    (hl : Table.get s.data.active.curr p = some true ∨ Table.get s.data.active.next p = some true)
    (h' : s.run (.ban ps :: bs) = some s') (hu : ∀ qs, .unban qs ∈ bs → p ∉ qs) : p ∉ s'.data.receivers := by
  have hi := inv_of_run (Inv.new l) h
  have hv := (vshows_run as (Inv.new l) (vshows_new l) h).any p
  have i1 := inv_setBanned hi ps
  have hne : ps.isEmpty = false := by cases ps with
    | nil => cases hp
    | cons a b => rfl
  have o1 : Off p (s.setBanned ps) ∧ p ∉ (s.setBanned ps).data.receivers := by
    refine ⟨⟨?_, ?_⟩, ?_⟩
    · exact (banned_act hi (.ban ps) rfl p).2 (Or.inr ⟨ps, rfl, hp⟩)
    · have := banLoop_unk ps s p hp (Or.inl (hv.2 hm))
      unfold Sched.setBanned
      rw [hne]
      change Unk (s.setBannedLocked ps).data p
      unfold Sched.setBannedLocked
      split <;> exact this
    · have := banLoop_recv ps s p hp (hv.2 hm) hl
      unfold Sched.setBanned
      rw [hne]
      change p ∉ (s.setBannedLocked ps).data.receivers
      unfold Sched.setBannedLocked
      split <;> exact this
  have hr : (s.setBanned ps).run bs = some s' := h'
  exact (off_run bs i1 o1.1 hr hu).2 o1.2

end Tycho.PeerSchedule
