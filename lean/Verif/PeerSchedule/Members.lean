import Verif.PeerSchedule.Rounds
/-!
Members of the private overlay, bans, and peers to forget.
-/
namespace Tycho.PeerSchedule
open Tycho.Table

/-- The `k`-th newest validator set. -/
def VPlan.nth (p : VPlan) (k : Nat) : List Peer := p.vsets.getD k []

/-- The schedule shows the plan with validator sets. -/
structure VShows (s : Sched) (p : VPlan) : Prop where
  sh : Shows s.atomic p.plan
  k0 : keys s.data.vset.oldest = p.nth 2
  k1 : keys s.data.vset.prev = p.nth 1
  k2 : keys s.data.vset.curr = p.nth 0
  k3 : keys s.data.vset.next = p.nextVset

theorem vshows_new (l : Peer) : VShows (.new l) .empty := ⟨shows_new l, rfl, rfl, rfl, rfl⟩

theorem vshows_schedule {s : Sched} {p : VPlan} (hi : Inv s) (h : VShows s p) (v : List Peer) (e : Epoch) :
    VShows (s.setNextSubset v e.start e.sub) (p.schedule v e) := by
  have hsh := shows_schedule hi h.sh v e
  have hc : s.data.starts.curr = p.plan.currStart := by rw [hi.starts, h.sh.s2, nth_currStart]
  unfold VPlan.schedule
  by_cases hg : e.start ≤ p.plan.currStart ∨ e.sub.isEmpty = true
  · rw [if_pos hg]
    have he : s.setNextSubset v e.start e.sub = s := by
      unfold Sched.setNextSubset; rw [hc, if_pos hg]
    rw [he]; exact h
  · rw [if_neg hg]
    have hd : (s.setNextSubset v e.start e.sub).data.vset =
        { s.data.vset with next := statesOf v (s.resolvedEntries v) } := by
      unfold Sched.setNextSubset; rw [hc, if_neg hg]; rfl
    refine ⟨hsh, ?_, ?_, ?_, ?_⟩ <;> rw [hd]
    · exact h.k0
    · exact h.k1
    · exact h.k2
    · exact keys_statesOf _ _

theorem vshows_reach {s s' : Sched} {p : VPlan} (hi : Inv s) (h : VShows s p) (r : Round)
    (hs : s.applyImpl r = some s') : VShows s' (p.reach r) := by
  have hsh := shows_reach hi h.sh r hs
  have h3 : s.data.starts.next = p.plan.next.map (·.start) := by rw [hi.starts]; exact h.sh.s3
  unfold Sched.applyImpl at hs
  unfold VPlan.reach
  cases hn : p.plan.next with
  | none =>
    rw [if_pos (by simp [EpochStarts.notYet, h3, hn])] at hs
    injection hs with hs
    exact hs ▸ h
  | some e =>
    have hne : s.data.starts.next = some e.start := by rw [h3, hn]; rfl
    simp only
    by_cases he : e.start ≤ r
    · rw [if_pos he]
      rw [if_neg (by simp [EpochStarts.notYet, hne, he])] at hs
      obtain ⟨t, ht, _, _, hd, _⟩ := rotate_ok hi e.start hne
      rw [ht] at hs; injection hs with hs
      subst hs
      refine ⟨hsh, ?_, ?_, ?_, ?_⟩ <;> rw [hd]
      · exact h.k1
      · exact h.k2
      · exact h.k3
      · rfl
    · rw [if_neg he]
      rw [if_pos (by simp only [EpochStarts.notYet, hne]; exact decide_eq_true (Nat.lt_of_not_le he))] at hs
      injection hs with hs
      exact hs ▸ h

theorem vshows_setCurr {s s' : Sched} {p : VPlan} (hi : Inv s) (h : VShows s p) (start : Round) (i : InitPeers)
    (hs : s.setCurr start i = some s') : VShows s' (p.setCurr start i) := by
  have h1 := vshows_schedule hi h i.currVset ⟨start, i.currSub⟩
  have hi1 := inv_setNextSubset hi i.currVset start i.currSub
  unfold Sched.setCurr at hs
  unfold VPlan.setCurr
  by_cases hv : i.nextVset.isEmpty = true
  · rw [if_pos hv] at hs ⊢; injection hs with hs; exact hs ▸ h1
  · rw [if_neg hv] at hs ⊢
    obtain ⟨s2, e2, h2⟩ := inv_applyImpl hi1 start
    rw [e2] at hs
    injection hs with hs
    have := vshows_reach hi1 h1 start e2
    rw [← hs]
    exact ⟨this.sh, this.k0, this.k1, this.k2, keys_statesOf _ _⟩

/-- A change that leaves the keys of sets as they are. -/
theorem VShows.congr {s s' : Sched} {p : VPlan} (h : VShows s p) (hsh : Shows s'.atomic p.plan)
    (h0 : keys s'.data.vset.oldest = keys s.data.vset.oldest) (h1 : keys s'.data.vset.prev = keys s.data.vset.prev)
    (h2 : keys s'.data.vset.curr = keys s.data.vset.curr) (h3 : keys s'.data.vset.next = keys s.data.vset.next) :
    VShows s' p := ⟨hsh, h0.trans h.k0, h1.trans h.k1, h2.trans h.k2, h3.trans h.k3⟩

/-- The keys of the four validator sets. -/
def vkeys (d : Stateful) : Four (List Peer) :=
  ⟨keys d.vset.oldest, keys d.vset.prev, keys d.vset.curr, keys d.vset.next⟩

theorem vkeys_change (s : Sched) (p : Peer) (st : Bool) : vkeys (s.change p st).data = vkeys s.data := by
  unfold vkeys
  simp only [Sched.change, setState_vset, Stateful.setMaps, keys_setIn]

theorem vkeys_banLoop (ps : List Peer) : ∀ s : Sched, vkeys (s.banLoop ps).1.data = vkeys s.data := by
  induction ps with
  | nil => intro s; rfl
  | cons p ps ih =>
    intro s
    refine (ih (s.banOne p)).trans ?_
    unfold Sched.banOne; split
    · exact vkeys_change _ p false
    · rfl

theorem vkeys_unbanLoop (ps : List Peer) : ∀ s : Sched, vkeys (s.unbanLoop ps).1.data = vkeys s.data := by
  induction ps with
  | nil => intro s; rfl
  | cons p ps ih =>
    intro s
    refine (ih (s.unbanOne p)).trans ?_
    unfold Sched.unbanOne; split
    · split
      · exact vkeys_change _ p true
      · rfl
    · rfl

theorem VShows.of_vkeys {s s' : Sched} {p : VPlan} (h : VShows s p) (hsh : Shows s'.atomic p.plan)
    (hk : vkeys s'.data = vkeys s.data) : VShows s' p := by
  have h0 := congrArg Four.oldest hk
  have h1 := congrArg Four.prev hk
  have h2 := congrArg Four.curr hk
  have h3 := congrArg Four.next hk
  exact h.congr hsh h0 h1 h2 h3

theorem VPlan.plan_schedule (p : VPlan) (v : List Peer) (e : Epoch) : (p.schedule v e).plan = p.plan.schedule e := by
  unfold VPlan.schedule
  split
  · rename_i h; unfold Plan.schedule; rw [if_pos h]
  · rfl

theorem VPlan.plan_reach (p : VPlan) (r : Round) : (p.reach r).plan = p.plan.reach r := by
  unfold VPlan.reach
  cases hn : p.plan.next with
  | none => simp only [Plan.reach, hn]
  | some e =>
    simp only
    split
    · rfl
    · rename_i h; simp only [Plan.reach, hn, if_neg h]

theorem VPlan.plan_setCurr (p : VPlan) (start : Round) (i : InitPeers) : (p.setCurr start i).plan =
    if i.nextVset.isEmpty then p.plan.schedule ⟨start, i.currSub⟩
      else (p.plan.schedule ⟨start, i.currSub⟩).reach start := by
  unfold VPlan.setCurr
  split
  · exact VPlan.plan_schedule _ _ _
  · change ((p.schedule i.currVset ⟨start, i.currSub⟩).reach start).plan = _
    rw [VPlan.plan_reach, VPlan.plan_schedule]

theorem VPlan.plan_act (p : VPlan) (a : Act) : (p.act a).plan = p.plan.act a := by
  cases a <;> simp only [VPlan.act, Plan.act]
  case init g au i =>
    rw [VPlan.plan_setCurr]
    have : (if g + 1 < i.currStart then
        (((p.schedule [] ⟨g - 1, [(au, 0)]⟩).reach (g - 1)).schedule i.prevVset
          ⟨max i.prevStart (g + 1), i.prevSub⟩).reach (max i.prevStart (g + 1))
        else (p.schedule [] ⟨g - 1, [(au, 0)]⟩).reach (g - 1)).plan = (if g + 1 < i.currStart then
        (((p.plan.schedule ⟨g - 1, [(au, 0)]⟩).reach (g - 1)).schedule ⟨max i.prevStart (g + 1), i.prevSub⟩).reach
          (max i.prevStart (g + 1)) else (p.plan.schedule ⟨g - 1, [(au, 0)]⟩).reach (g - 1)) := by
      split <;> simp only [VPlan.plan_reach, VPlan.plan_schedule]
    rw [this]
  case setPeers i => rw [VPlan.plan_setCurr, VPlan.plan_reach, VPlan.plan_schedule]
  case apply c => exact VPlan.plan_reach p c
  case applyLate c => exact VPlan.plan_reach p c

theorem vshows_act {s s' : Sched} {p : VPlan} (hi : Inv s) (h : VShows s p) (a : Act) (hs : s.act a = some s') :
    VShows s' (p.act a) := by
  have hsh := shows_act hi h.sh a hs
  cases a with
  | init g au i =>
    simp only [Sched.act, Sched.init] at hs
    simp only [VPlan.act]
    have i1 := inv_setNextSubset hi [] (g - 1) [(au, 0)]
    have h1 := vshows_schedule hi h [] ⟨g - 1, [(au, 0)]⟩
    obtain ⟨s2, e2, i2⟩ := inv_applyImpl i1 (g - 1)
    have h2 := vshows_reach i1 h1 (g - 1) e2
    rw [e2] at hs
    simp only at hs
    obtain ⟨s3, e3, i3⟩ := inv_initPrev i2 g i
    rw [e3] at hs
    simp only at hs
    have h3 : VShows s3 (if g + 1 < i.currStart then
        (((p.schedule [] ⟨g - 1, [(au, 0)]⟩).reach (g - 1)).schedule i.prevVset
          ⟨max i.prevStart (g + 1), i.prevSub⟩).reach (max i.prevStart (g + 1))
        else (p.schedule [] ⟨g - 1, [(au, 0)]⟩).reach (g - 1)) := by
      unfold Sched.initPrev at e3
      by_cases hg : g + 1 < i.currStart
      · rw [if_pos hg] at e3 ⊢
        exact vshows_reach (inv_setNextSubset i2 _ _ _)
          (vshows_schedule i2 h2 i.prevVset ⟨max i.prevStart (g + 1), i.prevSub⟩) _ e3
      · rw [if_neg hg] at e3 ⊢
        injection e3 with e3
        exact e3 ▸ h2
    obtain ⟨s4, e4, i4⟩ := inv_setCurr i3 (max i.currStart (g + 1)) i
    rw [e4] at hs
    simp only at hs
    injection hs with hs
    have h4 := vshows_setCurr i3 h3 _ i e4
    rw [← hs]
    exact ⟨h4.sh, h4.k0, h4.k1, h4.k2, h4.k3⟩
  | setPeers i =>
    simp only [Sched.act, Sched.setPeers] at hs
    simp only [VPlan.act]
    have i1 := inv_setNextSubset hi i.prevVset i.prevStart i.prevSub
    have h1 := vshows_schedule hi h i.prevVset ⟨i.prevStart, i.prevSub⟩
    obtain ⟨s2, e2, i2⟩ := inv_applyImpl i1 i.prevStart
    rw [e2] at hs
    exact vshows_setCurr i2 (vshows_reach i1 h1 _ e2) _ i hs
  | apply c =>
    simp only [Sched.act, Sched.apply] at hs
    by_cases hn : s.atomic.starts.notYet c = true
    · rw [if_pos hn] at hs
      injection hs with hs
      subst hs
      have : s.applyImpl c = some s := by
        unfold Sched.applyImpl; rw [hi.starts, if_pos hn]
      exact vshows_reach hi h c this
    · rw [if_neg hn] at hs
      exact vshows_reach hi h c hs
  | applyLate c => exact vshows_reach hi h c hs
  | ban ps =>
    simp only [Sched.act, Option.some.injEq] at hs
    refine h.of_vkeys hsh ?_
    rw [← hs]
    unfold Sched.setBanned
    split
    · rfl
    · change vkeys (s.setBannedLocked ps).data = _
      unfold Sched.setBannedLocked
      split <;> exact vkeys_banLoop ps s
  | unban ps =>
    simp only [Sched.act, Option.some.injEq] at hs
    refine h.of_vkeys hsh ?_
    rw [← hs]
    unfold Sched.removeBans
    split
    · rfl
    · change vkeys (s.removeBansLocked ps).data = _
      unfold Sched.removeBansLocked
      split <;> exact vkeys_unbanLoop ps s
  | takeForget => injection hs with hs; rw [← hs]; exact ⟨h.sh, h.k0, h.k1, h.k2, h.k3⟩
  | resolve q on =>
    simp only [Sched.act, Option.some.injEq] at hs
    refine h.of_vkeys hsh ?_
    rw [← hs]; split <;> rfl
  | pop q =>
    simp only [Sched.act, Option.some.injEq] at hs
    refine h.of_vkeys hsh ?_
    rw [← hs]; split <;> rfl
  | applyResolved q =>
    simp only [Sched.act, Option.some.injEq] at hs
    refine h.of_vkeys hsh ?_
    rw [← hs]
    split
    · unfold Sched.applyResolved; split
      · rfl
      · exact vkeys_change _ q true
    · rfl

theorem vshows_run (as : List Act) : ∀ {s s' : Sched} {p : VPlan}, Inv s → VShows s p → s.run as = some s' →
    VShows s' (p.run as) := by
  induction as with
  | nil => intro s s' p _ h hr; injection hr with hr; exact hr ▸ h
  | cons a as ih =>
    intro s s' p hi h hr
    obtain ⟨s1, e1, i1⟩ := inv_act hi a
    simp only [Sched.run, e1] at hr
    exact ih i1 (vshows_act hi h a e1) hr

theorem VShows.any {s : Sched} {p : VPlan} (h : VShows s p) (x : Peer) :
    s.data.inAnyVset x = true ↔ p.member x := by
  rw [inAnyVset_iff, h.k0, h.k1, h.k2, h.k3]
  unfold VPlan.member VPlan.nth
  match p.vsets with
  | [] => simp
  | [a] => simp [or_comm]
  | [a, b] =>
    simp only [List.getD_cons_zero, List.getD_cons_succ, List.getD_nil, List.not_mem_nil, false_or, List.take,
      List.mem_cons, or_false, exists_eq_or_imp, exists_eq_left]
    constructor
    · rintro (h | h | h) <;> simp [h]
    · rintro (h | h | h) <;> simp [h]
  | a :: b :: c :: rest =>
    simp only [List.getD_cons_zero, List.getD_cons_succ, List.take, List.mem_cons, List.not_mem_nil, or_false,
      exists_eq_or_imp, exists_eq_left]
    constructor
    · rintro (h | h | h | h) <;> simp [h]
    · rintro (h | h | h | h) <;> simp [h]

/-! ### Bans -/

theorem banned_setNextSubset (s : Sched) (v : List Peer) (n : Round) (sub : List (Peer × Nat)) :
    (s.setNextSubset v n sub).banned = s.banned := by
  unfold Sched.setNextSubset; split <;> rfl

theorem banned_applyImpl {s s' : Sched} (hi : Inv s) (r : Round) (h : s.applyImpl r = some s') :
    s'.banned = s.banned := by
  unfold Sched.applyImpl at h
  by_cases hy : s.data.starts.notYet r = true
  · rw [if_pos hy] at h; injection h with h; rw [h]
  · rw [if_neg hy] at h
    cases hn : s.data.starts.next with
    | none => exact absurd (by simp [EpochStarts.notYet, hn]) hy
    | some n =>
      obtain ⟨t, h1, _, _, _, _, h2, _⟩ := rotate_ok hi n hn
      rw [h1] at h; injection h with h; rw [← h]; exact h2

theorem banned_setCurr {s s' : Sched} (hi : Inv s) (r : Round) (i : InitPeers) (h : s.setCurr r i = some s') :
    s'.banned = s.banned := by
  unfold Sched.setCurr at h
  by_cases hv : i.nextVset.isEmpty = true
  · rw [if_pos hv] at h; injection h with h; rw [← h, banned_setNextSubset]
  · rw [if_neg hv] at h
    have i1 := inv_setNextSubset hi i.currVset r i.currSub
    obtain ⟨s2, e2, _⟩ := inv_applyImpl i1 r
    rw [e2] at h
    injection h with h
    rw [← h]
    exact (banned_applyImpl i1 r e2).trans (banned_setNextSubset _ _ _ _)

theorem banned_act {s s' : Sched} (hi : Inv s) (a : Act) (hs : s.act a = some s') (p : Peer) :
    p ∈ s'.banned ↔ (p ∈ s.banned ∧ ∀ ps, a = .unban ps → p ∉ ps) ∨ ∃ ps, a = .ban ps ∧ p ∈ ps := by
  have same : (∀ ps, a ≠ .unban ps) → (∀ ps, a ≠ .ban ps) → s'.banned = s.banned →
      (p ∈ s'.banned ↔ (p ∈ s.banned ∧ ∀ ps, a = .unban ps → p ∉ ps) ∨ ∃ ps, a = .ban ps ∧ p ∈ ps) := by
    intro h1 h2 h3
    rw [h3]
    constructor
    · exact fun h => Or.inl ⟨h, fun ps e => absurd e (h1 ps)⟩
    · rintro (h | ⟨ps, e, _⟩)
      · exact h.1
      · exact absurd e (h2 ps)
  cases a with
  | init g au i =>
    refine same (by simp) (by simp) ?_
    simp only [Sched.act, Sched.init] at hs
    have i1 := inv_setNextSubset hi [] (g - 1) [(au, 0)]
    obtain ⟨s2, e2, i2⟩ := inv_applyImpl i1 (g - 1)
    rw [e2] at hs
    simp only at hs
    obtain ⟨s3, e3, i3⟩ := inv_initPrev i2 g i
    rw [e3] at hs
    simp only at hs
    obtain ⟨s4, e4, i4⟩ := inv_setCurr i3 (max i.currStart (g + 1)) i
    rw [e4] at hs
    simp only at hs
    injection hs with hs
    have l3 : s3.banned = s2.banned := by
      unfold Sched.initPrev at e3
      split at e3
      · exact (banned_applyImpl (inv_setNextSubset i2 _ _ _) _ e3).trans (banned_setNextSubset _ _ _ _)
      · injection e3 with e3; rw [e3]
    rw [← hs]
    exact (banned_setCurr i3 _ i e4).trans
      (l3.trans ((banned_applyImpl i1 _ e2).trans (banned_setNextSubset _ _ _ _)))
  | setPeers i =>
    refine same (by simp) (by simp) ?_
    simp only [Sched.act, Sched.setPeers] at hs
    have i1 := inv_setNextSubset hi i.prevVset i.prevStart i.prevSub
    obtain ⟨s2, e2, i2⟩ := inv_applyImpl i1 i.prevStart
    rw [e2] at hs
    exact (banned_setCurr i2 _ i hs).trans ((banned_applyImpl i1 _ e2).trans (banned_setNextSubset _ _ _ _))
  | apply c =>
    refine same (by simp) (by simp) ?_
    simp only [Sched.act, Sched.apply] at hs
    split at hs
    · injection hs with hs; rw [hs]
    · exact banned_applyImpl hi c hs
  | applyLate c => exact same (by simp) (by simp) (banned_applyImpl hi c hs)
  | ban ps =>
    simp only [Sched.act, Option.some.injEq] at hs
    have : p ∈ s'.banned ↔ p ∈ ps ∨ p ∈ s.banned := by
      rw [← hs]
      unfold Sched.setBanned
      split
      · rename_i he
        have : ps = [] := List.isEmpty_iff.1 he
        simp [this]
      · change p ∈ (s.setBannedLocked ps).banned ↔ _
        unfold Sched.setBannedLocked
        split <;> exact (banLoop_ok ps s hi.to0).2.2 p
    rw [this]
    simp only [reduceCtorEq, false_imp_iff, implies_true, and_true, Act.ban.injEq]
    constructor
    · rintro (h | h)
      · exact Or.inr ⟨ps, rfl, h⟩
      · exact Or.inl h
    · rintro (h | ⟨qs, rfl, h⟩)
      · exact Or.inr h
      · exact Or.inl h
  | unban ps =>
    simp only [Sched.act, Option.some.injEq] at hs
    have : p ∈ s'.banned ↔ p ∈ s.banned ∧ p ∉ ps := by
      rw [← hs]
      unfold Sched.removeBans
      split
      · rename_i he
        have : ps = [] := List.isEmpty_iff.1 he
        simp [this]
      · change p ∈ (s.removeBansLocked ps).banned ↔ _
        unfold Sched.removeBansLocked
        split <;> exact (unbanLoop_ok ps s hi.to0).2.2 p
    rw [this]
    simp
  | takeForget => exact same (by simp) (by simp) (by injection hs with hs; rw [← hs])
  | resolve q on =>
    refine same (by simp) (by simp) ?_
    simp only [Sched.act, Option.some.injEq] at hs
    rw [← hs]; split <;> rfl
  | pop q =>
    refine same (by simp) (by simp) ?_
    simp only [Sched.act, Option.some.injEq] at hs
    rw [← hs]; split <;> rfl
  | applyResolved q =>
    refine same (by simp) (by simp) ?_
    simp only [Sched.act, Option.some.injEq] at hs
    rw [← hs]
    split
    · unfold Sched.applyResolved; split <;> rfl
    · rfl

theorem banned_run (as : List Act) : ∀ {s s' : Sched} {b : List Peer}, Inv s → (∀ p, p ∈ s.banned ↔ p ∈ b) →
    s.run as = some s' → ∀ p, p ∈ s'.banned ↔ p ∈ bannedAfter b as := by
  induction as with
  | nil => intro s s' b _ h hr; injection hr with hr; exact hr ▸ h
  | cons a as ih =>
    intro s s' b hi h hr
    obtain ⟨s1, e1, i1⟩ := inv_act hi a
    simp only [Sched.run, e1] at hr
    have hb := banned_act hi a e1
    cases a <;> simp only [bannedAfter]
    case ban ps =>
      refine ih i1 (fun p => ?_) hr
      rw [hb p]
      simp only [reduceCtorEq, false_imp_iff, implies_true, and_true, Act.ban.injEq, List.mem_append, h p]
      constructor
      · rintro (h | ⟨qs, rfl, h⟩)
        · exact Or.inr h
        · exact Or.inl h
      · rintro (h | h)
        · exact Or.inr ⟨ps, rfl, h⟩
        · exact Or.inl h
    case unban ps =>
      refine ih i1 (fun p => ?_) hr
      rw [hb p]
      simp [h p]
    all_goals
      refine ih i1 (fun p => ?_) hr
      rw [hb p]
      simp [h p]

/-- **The overlay has exactly the validators that are not banned**: after any history of calls, a peer is a member of
the private overlay (so that its queries are served) if and only if it is a validator of one of the last three epochs
or of the known next set, and is not banned. -/
theorem overlay_members_exact (l : Peer) (as : List Act) (s : Sched) (h : (Sched.new l).run as = some s) (p : Peer) :
    p ∈ s.entries ↔ (VPlan.empty.run as).member p ∧ p ∉ bannedAfter [] as := by
  have hi := inv_of_run (Inv.new l) h
  have hv := vshows_run as (Inv.new l) (vshows_new l) h
  have hb := banned_run as (Inv.new l) (b := []) (by simp [Sched.new]) h
  rw [hi.ent, hv.any, hb]

theorem plan_run_eq (as : List Act) : ∀ (v : VPlan), (v.run as).plan = v.plan.run as := by
  induction as with
  | nil => intro v; rfl
  | cons a as ih =>
    intro v
    have := ih (v.act a)
    rw [VPlan.plan_act] at this
    exact this

/-- **Only active validators that are not banned are served**: the check of uploads accepts exactly the peers of the
scheduled and of the last three epochs that are not banned. -/
theorem uploads_served_exactly (l : Peer) (as : List Act) (s : Sched) (h : (Sched.new l).run as = some s) (p : Peer) :
    s.atomic.isInActive p = true ↔
      (∃ e, (e ∈ (Plan.empty.run as).applied.take 3 ∨ (Plan.empty.run as).next = some e) ∧ p ∈ e.peers) ∧
        p ∉ bannedAfter [] as := by
  have hi := inv_of_run (Inv.new l) h
  have hs := shows_run as (Inv.new l) (shows_new l) h
  have hb := banned_run as (Inv.new l) (b := []) (by simp [Sched.new]) h
  unfold Stateless.isInActive
  have hs3 := hs.s3
  have hv3 := hs.v3
  have hno := hi.snap.noNext
  rw [hi.snap.setOldest, hi.snap.setPrev, hi.snap.setCurr, hi.snap.setNext, hs.v0, hs.v1, hs.v2]
  generalize Plan.empty.run as = pl at *
  obtain ⟨ap, nx⟩ := pl
  simp only at hs3 hv3
  have hn : p ∈ s.atomic.vecs.next ↔ ∃ e, nx = some e ∧ p ∈ e.peers := by
    cases nx with
    | none => rw [hno hs3]; simp
    | some e => rw [hv3 e rfl]; simp
  simp only [Bool.and_eq_true, Bool.or_eq_true, List.contains_iff_mem, Bool.not_eq_true', ← Bool.not_eq_true, hn,
    hi.ban, hb]
  refine and_congr ?_ Iff.rfl
  unfold Plan.nth
  match ap with
  | [] => simp [Epoch.peers]
  | [a] =>
    simp only [List.getD_cons_zero, List.getD_cons_succ, List.getD_nil, Epoch.peers, List.map_nil, List.not_mem_nil,
      or_false, List.take, List.mem_cons]
    constructor
    · rintro (h | ⟨e, h1, h2⟩)
      · exact ⟨a, Or.inl rfl, h⟩
      · exact ⟨e, Or.inr h1, h2⟩
    · rintro ⟨e, rfl | h1, h2⟩
      · exact Or.inl h2
      · exact Or.inr ⟨e, h1, h2⟩
  | [a, b] =>
    simp only [List.getD_cons_zero, List.getD_cons_succ, List.getD_nil, Epoch.peers, List.map_nil, List.not_mem_nil,
      or_false, List.take, List.mem_cons]
    constructor
    · rintro ((h | h) | ⟨e, h1, h2⟩)
      · exact ⟨a, Or.inl (Or.inl rfl), h⟩
      · exact ⟨b, Or.inl (Or.inr rfl), h⟩
      · exact ⟨e, Or.inr h1, h2⟩
    · rintro ⟨e, (rfl | rfl) | h1, h2⟩
      · exact Or.inl (Or.inl h2)
      · exact Or.inl (Or.inr h2)
      · exact Or.inr ⟨e, h1, h2⟩
  | a :: b :: c :: rest =>
    simp only [List.getD_cons_zero, List.getD_cons_succ, Epoch.peers, List.take, List.mem_cons, List.not_mem_nil,
      or_false]
    constructor
    · rintro (((h | h) | ⟨e, h1, h2⟩) | h)
      · exact ⟨a, Or.inl (Or.inl rfl), h⟩
      · exact ⟨b, Or.inl (Or.inr (Or.inl rfl)), h⟩
      · exact ⟨e, Or.inr h1, h2⟩
      · exact ⟨c, Or.inl (Or.inr (Or.inr rfl)), h⟩
    · rintro ⟨e, (rfl | rfl | rfl) | h1, h2⟩
      · exact Or.inl (Or.inl (Or.inl h2))
      · exact Or.inl (Or.inl (Or.inr h2))
      · exact Or.inr h2
      · exact Or.inl (Or.inr ⟨e, h1, h2⟩)

/-- **Snapshots read without the lock are whole**: in each snapshot that was ever published, the set and the ordered
list of peers of any round are the same, and an epoch that is scheduled is in the future of the current one. -/
theorem snapshots_are_whole (l : Peer) (as : List Act) (s : Sched) (h : (Sched.new l).run as = some s) (a : Stateless)
    (ha : a ∈ s.published) (r : Round) :
    a.peersFor r = a.peersOrderedFor r ∧ a.localId = l ∧ ∀ n, a.starts.next = some n → a.starts.curr < n := by
  have hi := inv_of_run (Inv.new l) h
  obtain ⟨h1, h2⟩ := hi.pub a ha
  exact ⟨h1.peersFor_eq r, h2.trans (local_run as (Inv.new l) h), h1.future⟩

end Tycho.PeerSchedule
