import Verif.PeerSchedule.Inv
import Verif.PeerSchedule.Spec
/-!
The schedule answers what the plan says.
-/
namespace Tycho.PeerSchedule
open Tycho.Table

/-- The `k`-th newest epoch; before the first one there is an empty epoch from round 0. -/
def Plan.nth (p : Plan) (k : Nat) : Epoch := p.applied.getD k ⟨0, []⟩

/-- Slots of an epoch. -/
def Epoch.slots (e : Epoch) : Table Peer Nat := slotsFrom 0 (sortByIdx e.sub)

/-- A snapshot shows the plan. -/
structure Shows (a : Stateless) (p : Plan) : Prop where
  s0 : a.starts.oldest = (p.nth 2).start
  s1 : a.starts.prev = (p.nth 1).start
  s2 : a.starts.curr = (p.nth 0).start
  s3 : a.starts.next = p.next.map (·.start)
  v0 : a.vecs.oldest = (p.nth 2).peers
  v1 : a.vecs.prev = (p.nth 1).peers
  v2 : a.vecs.curr = (p.nth 0).peers
  v3 : ∀ e, p.next = some e → a.vecs.next = e.peers
  t0 : a.slots.oldest = (p.nth 2).slots
  t1 : a.slots.prev = (p.nth 1).slots
  t2 : a.slots.curr = (p.nth 0).slots
  t3 : ∀ e, p.next = some e → a.slots.next = e.slots

/-- Starts of a plan grow. -/
structure PlanOk (p : Plan) : Prop where
  sorted : p.applied.Pairwise (fun a b => b.start < a.start)
  pos : ∀ e ∈ p.applied, 0 < e.start
  future : ∀ e, p.next = some e → p.currStart < e.start

theorem nth_currStart (p : Plan) : (p.nth 0).start = p.currStart := by
  unfold Plan.nth Plan.currStart
  cases p.applied <;> rfl

theorem planOk_empty : PlanOk .empty := ⟨List.Pairwise.nil, by simp [Plan.empty], by simp [Plan.empty]⟩

theorem planOk_schedule {p : Plan} (h : PlanOk p) (e : Epoch) : PlanOk (p.schedule e) := by
  unfold Plan.schedule
  split
  · exact h
  · rename_i hc
    refine ⟨h.sorted, h.pos, ?_⟩
    intro e' he'
    injection he' with he'
    subst he'
    exact Nat.lt_of_not_le (fun hl => hc (Or.inl hl))

theorem planOk_reach {p : Plan} (h : PlanOk p) (r : Round) : PlanOk (p.reach r) := by
  unfold Plan.reach
  cases hn : p.next with
  | none => exact h
  | some e =>
    simp only
    split
    · have hf := h.future e hn
      refine ⟨?_, ?_, by simp⟩
      · refine List.pairwise_cons.2 ⟨?_, h.sorted⟩
        intro b hb
        have : b.start ≤ p.currStart := by
          unfold Plan.currStart
          have hs := h.sorted
          revert hb hs
          cases p.applied with
          | nil => intro hb; cases hb
          | cons c l =>
            intro hb hs
            rcases List.mem_cons.1 hb with rfl | hb
            · exact Nat.le_refl _
            · exact Nat.le_of_lt ((List.pairwise_cons.1 hs).1 b hb)
        exact Nat.lt_of_le_of_lt this hf
      · intro b hb
        rcases List.mem_cons.1 hb with rfl | hb
        · exact Nat.lt_of_le_of_lt (Nat.zero_le _) hf
        · exact h.pos b hb
    · exact h

theorem planOk_act {p : Plan} (h : PlanOk p) (a : Act) : PlanOk (p.act a) := by
  cases a <;> simp only [Plan.act]
  case init g au i =>
    have h1 := planOk_reach (planOk_schedule h ⟨g - 1, [(au, 0)]⟩) (g - 1)
    have h2 : PlanOk (if g + 1 < i.currStart then
      ((((p.schedule ⟨g - 1, [(au, 0)]⟩).reach (g - 1)).schedule ⟨max i.prevStart (g + 1), i.prevSub⟩).reach
        (max i.prevStart (g + 1))) else (p.schedule ⟨g - 1, [(au, 0)]⟩).reach (g - 1)) := by
      split
      · exact planOk_reach (planOk_schedule h1 _) _
      · exact h1
    have h3 := planOk_schedule h2 ⟨max i.currStart (g + 1), i.currSub⟩
    by_cases hv : i.nextVset.isEmpty = true
    · rw [if_pos hv]; exact h3
    · rw [if_neg hv]; exact planOk_reach h3 _
  case setPeers i =>
    have h3 := planOk_schedule (planOk_reach (planOk_schedule h ⟨i.prevStart, i.prevSub⟩) i.prevStart)
      ⟨i.currStart, i.currSub⟩
    by_cases hv : i.nextVset.isEmpty = true
    · rw [if_pos hv]; exact h3
    · rw [if_neg hv]; exact planOk_reach h3 _
  case apply c => exact planOk_reach h c
  case applyLate c => exact planOk_reach h c
  all_goals exact h

theorem planOk_run (as : List Act) : ∀ {p : Plan}, PlanOk p → PlanOk (p.run as) := by
  induction as with
  | nil => exact fun h => h
  | cons a as ih => exact fun h => ih (planOk_act h a)

/-- The lists of a snapshot are the ones of the epoch of the round. -/
theorem Shows.idx {a : Stateless} {p : Plan} (h : Shows a p) (r : Round) :
    (∀ e, p.epochOf r = some e → ∃ i, a.starts.arrIdx r = some i ∧ a.vecs.at i = e.peers ∧ a.slots.at i = e.slots ∧
        a.starts.epochStart r = some e.start) ∧
      (p.epochOf r = none → a.starts.arrIdx r = none ∨
        ∃ i, a.starts.arrIdx r = some i ∧ a.vecs.at i = [] ∧ a.slots.at i = [] ∧ a.starts.epochStart r = some 0) := by
  obtain ⟨ap, nx⟩ := p
  have s0 := h.s0; have s1 := h.s1; have s2 := h.s2; have s3 := h.s3
  have v0 := h.v0; have v1 := h.v1; have v2 := h.v2; have v3 := h.v3
  have t0 := h.t0; have t1 := h.t1; have t2 := h.t2; have t3 := h.t3
  simp only at s3 v3 t3
  -- the scheduled epoch
  by_cases hn : ∃ e, nx = some e ∧ e.start ≤ r
  · obtain ⟨e, rfl, he⟩ := hn
    have hi : a.starts.inNext r = true := by simp [EpochStarts.inNext, s3, he]
    have hx : a.starts.arrIdx r = some 3 := by simp [EpochStarts.arrIdx, hi]
    have hp : (⟨ap, some e⟩ : Plan).epochOf r = some e := by simp [Plan.epochOf, he]
    refine ⟨?_, ?_⟩
    · intro e' he'
      rw [hp] at he'; injection he' with he'; subst he'
      exact ⟨3, hx, v3 e rfl, t3 e rfl, by simp [EpochStarts.epochStart, hx, s3]⟩
    · intro h0; rw [hp] at h0; cases h0
  · have hi : a.starts.inNext r = false := by
      unfold EpochStarts.inNext
      rw [s3]
      cases nx with
      | none => rfl
      | some e => simp only [Option.map_some]; exact decide_eq_false (fun he => hn ⟨e, rfl, he⟩)
    have hp : (⟨ap, nx⟩ : Plan).epochOf r = (ap.take 3).find? (fun e => decide (e.start ≤ r)) := by
      unfold Plan.epochOf
      cases nx with
      | none => rfl
      | some e =>
        have : ¬ e.start ≤ r := fun he => hn ⟨e, rfl, he⟩
        simp [this]
    rw [hp]
    have hx : a.starts.arrIdx r = if a.starts.curr ≤ r then some 2 else if a.starts.prev ≤ r then some 1
        else if a.starts.oldest ≤ r then some 0 else none := by simp [EpochStarts.arrIdx, hi]
    have hE : a.starts.epochStart r = if a.starts.curr ≤ r then some a.starts.curr else if a.starts.prev ≤ r then
        some a.starts.prev else if a.starts.oldest ≤ r then some a.starts.oldest else none := by
      unfold EpochStarts.epochStart
      rw [hx]
      by_cases h2 : a.starts.curr ≤ r
      · simp only [if_pos h2]
      · by_cases h1 : a.starts.prev ≤ r
        · simp only [if_neg h2, if_pos h1]
        · by_cases h0 : a.starts.oldest ≤ r
          · simp only [if_neg h2, if_neg h1, if_pos h0]
          · simp only [if_neg h2, if_neg h1, if_neg h0]
    rw [hx, hE]
    match ap, s0, s1, s2, v0, v1, v2, t0, t1, t2 with
    | [], s0, s1, s2, v0, v1, v2, t0, t1, t2 =>
      simp only [Plan.nth, List.getD_nil] at s0 s1 s2 v0 v1 v2 t0 t1 t2
      refine ⟨by simp, fun _ => Or.inr ⟨2, ?_, v2, t2, ?_⟩⟩ <;> simp [s2]
    | [c], s0, s1, s2, v0, v1, v2, t0, t1, t2 =>
      simp only [Plan.nth, List.getD_cons_zero, List.getD_cons_succ, List.getD_nil] at s0 s1 s2 v0 v1 v2 t0 t1 t2
      by_cases hc : c.start ≤ r
      · refine ⟨?_, by simp [hc]⟩
        intro e he
        simp only [List.take, List.find?, decide_eq_true hc, Option.some.injEq] at he
        subst he
        exact ⟨2, by simp [s2, hc], v2, t2, by simp [s2, hc]⟩
      · refine ⟨by simp [hc], fun _ => Or.inr ⟨1, ?_, v1, t1, ?_⟩⟩ <;> simp [s2, s1, hc]
    | [c, d], s0, s1, s2, v0, v1, v2, t0, t1, t2 =>
      simp only [Plan.nth, List.getD_cons_zero, List.getD_cons_succ, List.getD_nil] at s0 s1 s2 v0 v1 v2 t0 t1 t2
      by_cases hc : c.start ≤ r
      · refine ⟨?_, by simp [hc]⟩
        intro e he
        simp only [List.take, List.find?, decide_eq_true hc, Option.some.injEq] at he
        subst he
        exact ⟨2, by simp [s2, hc], v2, t2, by simp [s2, hc]⟩
      · by_cases hd : d.start ≤ r
        · refine ⟨?_, by simp [hc, hd]⟩
          intro e he
          simp only [List.take, List.find?, decide_eq_true hd, decide_eq_false hc, Option.some.injEq] at he
          subst he
          exact ⟨1, by simp [s2, hc, s1, hd], v1, t1, by simp [s2, hc, s1, hd]⟩
        · refine ⟨by simp [hc, hd], fun _ => Or.inr ⟨0, ?_, v0, t0, ?_⟩⟩ <;> simp [s2, s1, s0, hc, hd]
    | c :: d :: b :: rest, s0, s1, s2, v0, v1, v2, t0, t1, t2 =>
      simp only [Plan.nth, List.getD_cons_zero, List.getD_cons_succ] at s0 s1 s2 v0 v1 v2 t0 t1 t2
      by_cases hc : c.start ≤ r
      · refine ⟨?_, by simp [hc]⟩
        intro e he
        simp only [List.take, List.find?, decide_eq_true hc, Option.some.injEq] at he
        subst he
        exact ⟨2, by simp [s2, hc], v2, t2, by simp [s2, hc]⟩
      · by_cases hd : d.start ≤ r
        · refine ⟨?_, by simp [hc, hd]⟩
          intro e he
          simp only [List.take, List.find?, decide_eq_true hd, decide_eq_false hc, Option.some.injEq] at he
          subst he
          exact ⟨1, by simp [s2, hc, s1, hd], v1, t1, by simp [s2, hc, s1, hd]⟩
        · by_cases hb : b.start ≤ r
          · refine ⟨?_, by simp [hc, hd, hb]⟩
            intro e he
            simp only [List.take, List.find?, decide_eq_true hb, decide_eq_false hd, decide_eq_false hc,
              Option.some.injEq] at he
            subst he
            exact ⟨0, by simp [s2, hc, s1, hd, s0, hb], v0, t0, by simp [s2, hc, s1, hd, s0, hb]⟩
          · refine ⟨by simp [hc, hd, hb], fun _ => Or.inl ?_⟩
            simp [s2, s1, s0, hc, hd, hb]

theorem Shows.ordered {a : Stateless} {p : Plan} (h : Shows a p) (r : Round) : a.peersOrderedFor r = p.peersOf r := by
  obtain ⟨h1, h2⟩ := h.idx r
  unfold Stateless.peersOrderedFor Plan.peersOf
  cases he : p.epochOf r with
  | none =>
    rcases h2 he with hx | ⟨i, hx, hv, _⟩
    · rw [hx]
    · rw [hx]; exact hv
  | some e =>
    obtain ⟨i, hx, hv, _⟩ := h1 e he
    rw [hx]; exact hv

theorem SnapOk.at_eq {a : Stateless} (h : SnapOk a) (i : Nat) : a.sets.at i = a.vecs.at i := by
  unfold Four.at
  split
  · exact h.setOldest
  · exact h.setPrev
  · exact h.setCurr
  · exact h.setNext

theorem SnapOk.peersFor_eq {a : Stateless} (h : SnapOk a) (r : Round) : a.peersFor r = a.peersOrderedFor r := by
  unfold Stateless.peersFor Stateless.peersOrderedFor
  cases a.starts.arrIdx r with
  | none => rfl
  | some i => exact h.at_eq i

theorem shows_new (l : Peer) : Shows (.new l) .empty := by
  constructor <;> first | rfl | (intro e he; cases he)

/-- A change of bans shows the same plan. -/
theorem Shows.withBan {a : Stateless} {p : Plan} (h : Shows a p) (b : List Peer) : Shows { a with banned := b } p :=
  ⟨h.s0, h.s1, h.s2, h.s3, h.v0, h.v1, h.v2, h.v3, h.t0, h.t1, h.t2, h.t3⟩

theorem shows_schedule {s : Sched} {p : Plan} (hi : Inv s) (h : Shows s.atomic p) (vset : List Peer) (e : Epoch) :
    Shows (s.setNextSubset vset e.start e.sub).atomic (p.schedule e) := by
  unfold Sched.setNextSubset Plan.schedule
  have hc : s.data.starts.curr = p.currStart := by rw [hi.starts, h.s2, nth_currStart]
  rw [hc]
  by_cases hg : e.start ≤ p.currStart ∨ e.sub.isEmpty = true
  · rw [if_pos hg, if_pos hg]; exact h
  · rw [if_neg hg, if_neg hg]
    refine ⟨h.s0, h.s1, h.s2, rfl, h.v0, h.v1, h.v2, ?_, h.t0, h.t1, h.t2, ?_⟩
    · intro e' he'; injection he' with he'; subst he'; rfl
    · intro e' he'; injection he' with he'; subst he'; rfl

theorem shows_reach {s s' : Sched} {p : Plan} (hi : Inv s) (h : Shows s.atomic p) (r : Round)
    (hs : s.applyImpl r = some s') : Shows s'.atomic (p.reach r) := by
  unfold Sched.applyImpl at hs
  have h3 : s.data.starts.next = p.next.map (·.start) := by rw [hi.starts]; exact h.s3
  unfold Plan.reach
  cases hn : p.next with
  | none =>
    rw [if_pos (by simp [EpochStarts.notYet, h3, hn])] at hs
    injection hs with hs
    exact hs ▸ h
  | some e =>
    have hne : s.data.starts.next = some e.start := by rw [h3, hn]; rfl
    simp only
    by_cases he : e.start ≤ r
    · rw [if_pos he]
      rw [if_neg (by simp [EpochStarts.notYet, hne, he])] at hs
      obtain ⟨t, ht, _, ha, _⟩ := rotate_ok hi e.start hne
      rw [ht] at hs; injection hs with hs
      rw [← hs, ha]
      exact ⟨h.s1, h.s2, rfl, rfl, h.v1, h.v2, h.v3 e hn, by simp, h.t1, h.t2, h.t3 e hn, by simp⟩
    · rw [if_neg he]
      rw [if_pos (by simp only [EpochStarts.notYet, hne]; exact decide_eq_true (Nat.lt_of_not_le he))] at hs
      injection hs with hs
      exact hs ▸ h

theorem shows_setCurr {s s' : Sched} {p : Plan} (hi : Inv s) (h : Shows s.atomic p) (start : Round) (i : InitPeers)
    (hs : s.setCurr start i = some s') :
    Shows s'.atomic (if i.nextVset.isEmpty then p.schedule ⟨start, i.currSub⟩
      else (p.schedule ⟨start, i.currSub⟩).reach start) := by
  have h1 := shows_schedule hi h i.currVset ⟨start, i.currSub⟩
  have hi1 := inv_setNextSubset hi i.currVset start i.currSub
  unfold Sched.setCurr at hs
  by_cases hv : i.nextVset.isEmpty = true
  · rw [if_pos hv] at hs ⊢; injection hs with hs; exact hs ▸ h1
  · rw [if_neg hv] at hs ⊢
    obtain ⟨s2, e2, h2⟩ := inv_applyImpl hi1 start
    rw [e2] at hs
    injection hs with hs
    have := shows_reach hi1 h1 start e2
    rw [← hs]
    exact this

theorem shows_act {s s' : Sched} {p : Plan} (hi : Inv s) (h : Shows s.atomic p) (a : Act) (hs : s.act a = some s') :
    Shows s'.atomic (p.act a) := by
  cases a with
  | init g au i =>
    simp only [Sched.act, Sched.init] at hs
    simp only [Plan.act]
    have i1 := inv_setNextSubset hi [] (g - 1) [(au, 0)]
    have h1 := shows_schedule hi h [] ⟨g - 1, [(au, 0)]⟩
    obtain ⟨s2, e2, i2⟩ := inv_applyImpl i1 (g - 1)
    have h2 := shows_reach i1 h1 (g - 1) e2
    rw [e2] at hs
    simp only at hs
    obtain ⟨s3, e3, i3⟩ := inv_initPrev i2 g i
    rw [e3] at hs
    simp only at hs
    have h3 : Shows s3.atomic (if g + 1 < i.currStart then
        (((p.schedule ⟨g - 1, [(au, 0)]⟩).reach (g - 1)).schedule ⟨max i.prevStart (g + 1), i.prevSub⟩).reach
          (max i.prevStart (g + 1)) else (p.schedule ⟨g - 1, [(au, 0)]⟩).reach (g - 1)) := by
      unfold Sched.initPrev at e3
      by_cases hg : g + 1 < i.currStart
      · rw [if_pos hg] at e3 ⊢
        exact shows_reach (inv_setNextSubset i2 _ _ _)
          (shows_schedule i2 h2 i.prevVset ⟨max i.prevStart (g + 1), i.prevSub⟩) _ e3
      · rw [if_neg hg] at e3 ⊢
        injection e3 with e3
        exact e3 ▸ h2
    obtain ⟨s4, e4, i4⟩ := inv_setCurr i3 (max i.currStart (g + 1)) i
    rw [e4] at hs
    simp only at hs
    injection hs with hs
    have h4 := shows_setCurr i3 h3 _ i e4
    rw [← hs]
    exact h4
  | setPeers i =>
    simp only [Sched.act, Sched.setPeers] at hs
    simp only [Plan.act]
    have i1 := inv_setNextSubset hi i.prevVset i.prevStart i.prevSub
    have h1 := shows_schedule hi h i.prevVset ⟨i.prevStart, i.prevSub⟩
    obtain ⟨s2, e2, i2⟩ := inv_applyImpl i1 i.prevStart
    rw [e2] at hs
    exact shows_setCurr i2 (shows_reach i1 h1 _ e2) _ i hs
  | apply c =>
    simp only [Sched.act, Sched.apply] at hs
    by_cases hn : s.atomic.starts.notYet c = true
    · rw [if_pos hn] at hs
      injection hs with hs
      subst hs
      have : s.applyImpl c = some s := by
        unfold Sched.applyImpl; rw [hi.starts, if_pos hn]
      exact shows_reach hi h c this
    · rw [if_neg hn] at hs
      exact shows_reach hi h c hs
  | applyLate c => exact shows_reach hi h c hs
  | ban ps =>
    simp only [Sched.act, Option.some.injEq] at hs
    rw [← hs]
    simp only [Plan.act]
    unfold Sched.setBanned
    split
    · exact h
    · have ha : (s.setBannedLocked ps).atomic = s.atomic := by
        unfold Sched.setBannedLocked
        split <;> exact (banLoop_ok ps s hi.to0).2.1
      change Shows ((s.setBannedLocked ps).atomic.insertBanned ps) p
      rw [ha]
      exact h.withBan _
  | unban ps =>
    simp only [Sched.act, Option.some.injEq] at hs
    rw [← hs]
    simp only [Plan.act]
    unfold Sched.removeBans
    split
    · exact h
    · have ha : (s.removeBansLocked ps).atomic = s.atomic := by
        unfold Sched.removeBansLocked
        split <;> exact (unbanLoop_ok ps s hi.to0).2.1
      change Shows ((s.removeBansLocked ps).atomic.removeBanned ps) p
      rw [ha]
      exact h.withBan _
  | takeForget => injection hs with hs; rw [← hs]; exact h
  | resolve q on =>
    simp only [Sched.act, Option.some.injEq] at hs
    rw [← hs]; simp only [Plan.act]; split <;> exact h
  | pop q =>
    simp only [Sched.act, Option.some.injEq] at hs
    rw [← hs]; simp only [Plan.act]; split <;> exact h
  | applyResolved q =>
    simp only [Sched.act, Option.some.injEq] at hs
    rw [← hs]; simp only [Plan.act]
    split
    · unfold Sched.applyResolved; split <;> exact h
    · exact h

theorem shows_run (as : List Act) : ∀ {s s' : Sched} {p : Plan}, Inv s → Shows s.atomic p → s.run as = some s' →
    Shows s'.atomic (p.run as) := by
  induction as with
  | nil => intro s s' p _ h hr; injection hr with hr; exact hr ▸ h
  | cons a as ih =>
    intro s s' p hi h hr
    obtain ⟨s1, e1, i1⟩ := inv_act hi a
    simp only [Sched.run, e1] at hr
    exact ih i1 (shows_act hi h a e1) hr

theorem local_setNextSubset (s : Sched) (v : List Peer) (n : Round) (sub : List (Peer × Nat)) :
    (s.setNextSubset v n sub).localId = s.localId := by
  unfold Sched.setNextSubset; split <;> rfl

theorem local_applyImpl {s s' : Sched} (hi : Inv s) (r : Round) (h : s.applyImpl r = some s') :
    s'.localId = s.localId := by
  unfold Sched.applyImpl at h
  by_cases hy : s.data.starts.notYet r = true
  · rw [if_pos hy] at h; injection h with h; rw [h]
  · rw [if_neg hy] at h
    cases hn : s.data.starts.next with
    | none => exact absurd (by simp [EpochStarts.notYet, hn]) hy
    | some n =>
      obtain ⟨t, h1, _, _, _, _, _, h2, _⟩ := rotate_ok hi n hn
      rw [h1] at h; injection h with h; rw [← h]; exact h2

theorem local_setCurr {s s' : Sched} (hi : Inv s) (r : Round) (i : InitPeers) (h : s.setCurr r i = some s') :
    s'.localId = s.localId := by
  unfold Sched.setCurr at h
  by_cases hv : i.nextVset.isEmpty = true
  · rw [if_pos hv] at h; injection h with h; rw [← h, local_setNextSubset]
  · rw [if_neg hv] at h
    have i1 := inv_setNextSubset hi i.currVset r i.currSub
    obtain ⟨s2, e2, _⟩ := inv_applyImpl i1 r
    rw [e2] at h
    injection h with h
    rw [← h]
    exact (local_applyImpl i1 r e2).trans (local_setNextSubset _ _ _ _)

theorem local_banLoop (ps : List Peer) : ∀ s : Sched, (s.banLoop ps).1.localId = s.localId := by
  induction ps with
  | nil => intro s; rfl
  | cons p ps ih =>
    intro s
    refine (ih (s.banOne p)).trans ?_
    unfold Sched.banOne; split <;> rfl

theorem local_unbanLoop (ps : List Peer) : ∀ s : Sched, (s.unbanLoop ps).1.localId = s.localId := by
  induction ps with
  | nil => intro s; rfl
  | cons p ps ih =>
    intro s
    refine (ih (s.unbanOne p)).trans ?_
    unfold Sched.unbanOne; split
    · split <;> rfl
    · rfl

theorem local_act {s s' : Sched} (hi : Inv s) (a : Act) (hs : s.act a = some s') : s'.localId = s.localId := by
  cases a with
  | init g au i =>
    simp only [Sched.act, Sched.init] at hs
    have i1 := inv_setNextSubset hi [] (g - 1) [(au, 0)]
    obtain ⟨s2, e2, i2⟩ := inv_applyImpl i1 (g - 1)
    rw [e2] at hs
    simp only at hs
    obtain ⟨s3, e3, i3⟩ := inv_initPrev i2 g i
    rw [e3] at hs
    simp only at hs
    obtain ⟨s4, e4, i4⟩ := inv_setCurr i3 (max i.currStart (g + 1)) i
    rw [e4] at hs
    simp only at hs
    injection hs with hs
    have l3 : s3.localId = s2.localId := by
      unfold Sched.initPrev at e3
      split at e3
      · exact (local_applyImpl (inv_setNextSubset i2 _ _ _) _ e3).trans (local_setNextSubset _ _ _ _)
      · injection e3 with e3; rw [e3]
    rw [← hs]
    exact (local_setCurr i3 _ i e4).trans (l3.trans ((local_applyImpl i1 _ e2).trans (local_setNextSubset _ _ _ _)))
  | setPeers i =>
    simp only [Sched.act, Sched.setPeers] at hs
    have i1 := inv_setNextSubset hi i.prevVset i.prevStart i.prevSub
    obtain ⟨s2, e2, i2⟩ := inv_applyImpl i1 i.prevStart
    rw [e2] at hs
    exact (local_setCurr i2 _ i hs).trans ((local_applyImpl i1 _ e2).trans (local_setNextSubset _ _ _ _))
  | apply c =>
    simp only [Sched.act, Sched.apply] at hs
    split at hs
    · injection hs with hs; rw [hs]
    · exact local_applyImpl hi c hs
  | applyLate c => exact local_applyImpl hi c hs
  | ban ps =>
    simp only [Sched.act, Option.some.injEq] at hs
    rw [← hs]
    unfold Sched.setBanned
    split
    · rfl
    · change (s.setBannedLocked ps).localId = _
      unfold Sched.setBannedLocked
      split <;> exact local_banLoop ps s
  | unban ps =>
    simp only [Sched.act, Option.some.injEq] at hs
    rw [← hs]
    unfold Sched.removeBans
    split
    · rfl
    · change (s.removeBansLocked ps).localId = _
      unfold Sched.removeBansLocked
      split <;> exact local_unbanLoop ps s
  | takeForget => injection hs with hs; rw [← hs]
  | resolve q on =>
    simp only [Sched.act, Option.some.injEq] at hs
    rw [← hs]; split <;> rfl
  | pop q =>
    simp only [Sched.act, Option.some.injEq] at hs
    rw [← hs]; split <;> rfl
  | applyResolved q =>
    simp only [Sched.act, Option.some.injEq] at hs
    rw [← hs]
    split
    · unfold Sched.applyResolved; split <;> rfl
    · rfl

theorem local_run (as : List Act) : ∀ {s s' : Sched}, Inv s → s.run as = some s' → s'.localId = s.localId := by
  induction as with
  | nil => intro s s' _ hr; injection hr with hr; rw [hr]
  | cons a as ih =>
    intro s s' hi hr
    obtain ⟨s1, e1, i1⟩ := inv_act hi a
    simp only [Sched.run, e1] at hr
    exact (ih i1 hr).trans (local_act hi a e1)

/-! ### Theorems -/

/-- **No history of calls makes the schedule panic.** -/
theorem schedule_never_panics (l : Peer) (as : List Act) : ∃ s, (Sched.new l).run as = some s := by
  obtain ⟨s, h, _⟩ := inv_run as (Inv.new l)
  exact ⟨s, h⟩

/-- **The peers in charge of a round are the peers of the epoch of the round**: after any history of calls, the ordered
list, the set and the map of states all have exactly the peers of the newest known epoch that starts not later than the
round, or nothing. -/
theorem peers_for_round (l : Peer) (as : List Act) (s : Sched) (h : (Sched.new l).run as = some s) (r : Round) :
    s.atomic.peersOrderedFor r = (Plan.empty.run as).peersOf r ∧
      s.atomic.peersFor r = (Plan.empty.run as).peersOf r ∧
      (s.data.peersStateFor r).map (·.1) = (Plan.empty.run as).peersOf r := by
  have hi := inv_of_run (Inv.new l) h
  have hs := shows_run as (Inv.new l) (shows_new l) h
  have ho := hs.ordered r
  refine ⟨ho, (hi.snap.peersFor_eq r).trans ho, ?_⟩
  rw [← ho]
  unfold Stateful.peersStateFor Stateless.peersOrderedFor
  rw [hi.starts]
  cases s.atomic.starts.arrIdx r with
  | none => rfl
  | some i =>
    change keys (s.data.active.at i) = s.atomic.vecs.at i
    unfold Four.at
    split
    · exact hi.actOldest
    · exact hi.actPrev
    · exact hi.actCurr
    · exact hi.actNext

/-- **Use of the local key**: it may be used in a round exactly when the local peer is in charge of the round, to sign
others' points of the round when in charge of the next round, and for witnesses when in charge of both. -/
theorem key_use (l : Peer) (as : List Act) (s : Sched) (h : (Sched.new l).run as = some s) (r : Round) :
    (s.atomic.keyGroup r).toProduce = decide (l ∈ (Plan.empty.run as).peersOf r) ∧
      (s.atomic.keyGroup r).toInclude = decide (l ∈ (Plan.empty.run as).peersOf (r + 1)) ∧
      (s.atomic.keyGroup r).toWitness =
        decide (l ∈ (Plan.empty.run as).peersOf r ∧ l ∈ (Plan.empty.run as).peersOf (r + 1)) := by
  have hi := inv_of_run (Inv.new l) h
  have hl : s.localId = l := local_run as (Inv.new l) h
  have hk : ∀ r, s.atomic.localKeys r = decide (l ∈ (Plan.empty.run as).peersOf r) := by
    intro r
    unfold Stateless.localKeys
    rw [(peers_for_round l as s h r).2.1, hi.loc, hl]
    simp
  refine ⟨hk r, hk (r + 1), ?_⟩
  simp only [Stateless.keyGroup, hk]
  by_cases h1 : l ∈ (Plan.empty.run as).peersOf r <;> by_cases h2 : l ∈ (Plan.empty.run as).peersOf (r + 1) <;>
    simp [h1, h2]

end Tycho.PeerSchedule
