import Verif.PeerSchedule.Bans
import Mathlib.Tactic.ByContra
/-!
The local peer is never asked by itself; every member of the overlay that is not resolved yet is waited for; peers that
leave the schedule are reported.
-/
namespace Tycho.PeerSchedule
open Tycho.Table

theorem applyImpl_cases {s s' : Sched} (hi : Inv s) (r : Round) (h : s.applyImpl r = some s') :
    s' = s ∨ ∃ n, s'.data = s.data.rotated n ∧ s'.waiters = s.forgetOldest.waiters ∧
      s'.entries = s.forgetOldest.entries ∧ s'.popped = s.popped ∧ s'.resolved = s.resolved ∧
      s'.localId = s.localId := by
  unfold Sched.applyImpl at h
  by_cases hy : s.data.starts.notYet r = true
  · rw [if_pos hy] at h; injection h with h; exact Or.inl h.symm
  · rw [if_neg hy] at h
    cases hn : s.data.starts.next with
    | none => exact absurd (by simp [EpochStarts.notYet, hn]) hy
    | some n =>
      obtain ⟨t, h1, _, _, h2, _⟩ := rotate_ok hi n hn
      rw [h1] at h; injection h with h
      subst h
      refine Or.inr ⟨n, h2, ?_⟩
      unfold Sched.rotate at h1
      split at h1
      · injection h1 with h1; rw [← h1]; exact ⟨rfl, rfl, rfl, rfl, rfl⟩
      · cases h1

theorem local_notin_restart (s : Sched) : s.localId ∉ s.restart.waiters := by
  intro h
  have := (List.mem_filter.1 h).2
  simp at this

/-- The local peer is not used. -/
structure Loc (l : Peer) (s : Sched) : Prop where
  id : s.localId = l
  unk : Unk s.data l
  recv : l ∉ s.data.receivers
  all : l ∉ s.data.allResolved
  wait : l ∉ s.waiters
  pop : l ∉ s.popped

theorem loc_new (l : Peer) : Loc l (.new l) :=
  ⟨rfl, ⟨by simp [Sched.new, Stateful.new], by simp [Sched.new, Stateful.new], by simp [Sched.new, Stateful.new],
    by simp [Sched.new, Stateful.new]⟩, by simp [Sched.new, Stateful.new], by simp [Sched.new, Stateful.new],
    by simp [Sched.new], by simp [Sched.new]⟩

theorem loc_restart {l : Peer} {s : Sched} (h : Loc l s) : Loc l s.restart :=
  ⟨h.id, h.unk, h.recv, h.all, by have := local_notin_restart s; rw [h.id] at this; exact this, h.pop⟩

theorem loc_setNextSubset {l : Peer} {s : Sched} (h : Loc l s) (v : List Peer) (n : Round) (sub : List (Peer × Nat)) :
    Loc l (s.setNextSubset v n sub) := by
  have hr : l ∉ s.resolvedEntries v := by have := resolvedEntries_local s v; rw [h.id] at this; exact this
  refine ⟨by rw [local_setNextSubset]; exact h.id, unk_setNextSubset h.unk v n sub hr,
    recv_setNextSubset h.unk h.recv v n sub hr, ?_, ?_, ?_⟩ <;> unfold Sched.setNextSubset <;> split
  · exact h.all
  · exact hr
  · exact h.wait
  · change l ∉ (s.setNextSet v).waiters
    unfold Sched.setNextSet
    rw [← h.id]
    exact local_notin_restart _
  · exact h.pop
  · exact h.pop

theorem loc_applyImpl {l : Peer} {s s' : Sched} (hi : Inv s) (h : Loc l s) (r : Round) (e : s.applyImpl r = some s') :
    Loc l s' := by
  refine ⟨by rw [local_applyImpl hi r e]; exact h.id, unk_applyImpl hi h.unk r e, recv_applyImpl hi h.recv r e,
    ?_, ?_, ?_⟩ <;> rcases applyImpl_cases hi r e with rfl | ⟨n, hd, hw, _, hp, _, _⟩
  · exact h.all
  · rw [hd]; exact fun h' => h.all (List.mem_filter.1 h').1
  · exact h.wait
  · rw [hw, ← h.id]
    unfold Sched.forgetOldest
    exact local_notin_restart _
  · exact h.pop
  · rw [hp]; exact h.pop

theorem loc_setNextSet {l : Peer} {s : Sched} (h : Loc l s) (v : List Peer) : Loc l (s.setNextSet v) := by
  refine ⟨h.id, h.unk, recv_setNextSet h.recv v, ?_, ?_, h.pop⟩
  · have := resolvedEntries_local s v; rw [h.id] at this; exact this
  · unfold Sched.setNextSet
    rw [← h.id]
    exact local_notin_restart _

theorem loc_change {l : Peer} {s : Sched} (h : Loc l s) (q : Peer) (st : Bool) (hq : q = l → st = false) :
    Loc l (s.change q st) :=
  ⟨h.id, unk_change h.unk q st hq, recv_change h.recv q st hq, all_change h.all q st hq, h.wait, h.pop⟩

theorem loc_banOne {l : Peer} {s : Sched} (h : Loc l s) (q : Peer) : Loc l (s.banOne q) := by
  unfold Sched.banOne
  have h' : Loc l { s with banned := q :: s.banned, entries := removeEntry s.entries q } :=
    ⟨h.id, h.unk, h.recv, h.all, h.wait, h.pop⟩
  split
  · exact loc_change h' q false (fun _ => rfl)
  · exact h'

theorem loc_unbanOne {l : Peer} {s : Sched} (h : Loc l s) {q : Peer} (hq : q ≠ l) : Loc l (s.unbanOne q) := by
  unfold Sched.unbanOne
  have h' : Loc l { s with banned := removeEntry s.banned q, entries := insertEntry s.entries q } :=
    ⟨h.id, h.unk, h.recv, h.all, h.wait, h.pop⟩
  split
  · split
    · exact loc_change h' q true (fun e => absurd e hq)
    · exact h'
  · exact ⟨h.id, h.unk, h.recv, h.all, h.wait, h.pop⟩

theorem loc_banLoop {l : Peer} (ps : List Peer) : ∀ {s : Sched}, Loc l s → Loc l (s.banLoop ps).1 := by
  induction ps with
  | nil => exact fun h => h
  | cons q ps ih => exact fun h => ih (loc_banOne h q)

theorem loc_unbanLoop {l : Peer} (ps : List Peer) : ∀ {s : Sched}, l ∉ ps → Loc l s → Loc l (s.unbanLoop ps).1 := by
  induction ps with
  | nil => exact fun _ h => h
  | cons q ps ih =>
    exact fun hn h => ih (fun e => hn (List.mem_cons_of_mem _ e))
      (loc_unbanOne h (fun e => hn (by rw [e]; exact List.mem_cons_self)))

theorem loc_act {l : Peer} {s s' : Sched} (hi : Inv s) (h : Loc l s) (a : Act) (hs : s.act a = some s')
    (ha : ∀ ps, a = .unban ps → l ∉ ps) : Loc l s' := by
  have hcalls := fun hx => closed_calls (Loc l)
    (fun t v n sub _ ht => loc_setNextSubset ht v n sub)
    (fun t t' r it ht e => loc_applyImpl it ht r e)
    (fun t v _ ht => loc_setNextSet ht v)
    (fun t _ ht => loc_restart ht) hi h a hs hx
  cases a with
  | init g au i => exact hcalls (Or.inl ⟨g, au, i, rfl⟩)
  | setPeers i => exact hcalls (Or.inr (Or.inl ⟨i, rfl⟩))
  | apply c => exact hcalls (Or.inr (Or.inr (Or.inl ⟨c, rfl⟩)))
  | applyLate c => exact hcalls (Or.inr (Or.inr (Or.inr ⟨c, rfl⟩)))
  | ban ps =>
    simp only [Sched.act, Option.some.injEq] at hs
    rw [← hs]
    unfold Sched.setBanned
    split
    · exact h
    · have : Loc l (s.setBannedLocked ps) := by
        unfold Sched.setBannedLocked
        split
        · exact loc_restart (loc_banLoop ps h)
        · exact loc_banLoop ps h
      exact ⟨this.id, this.unk, this.recv, this.all, this.wait, this.pop⟩
  | unban ps =>
    simp only [Sched.act, Option.some.injEq] at hs
    rw [← hs]
    have hn := ha ps rfl
    unfold Sched.removeBans
    split
    · exact h
    · have : Loc l (s.removeBansLocked ps) := by
        unfold Sched.removeBansLocked
        split
        · exact loc_restart (loc_unbanLoop ps hn h)
        · exact loc_unbanLoop ps hn h
      exact ⟨this.id, this.unk, this.recv, this.all, this.wait, this.pop⟩
  | takeForget => injection hs with hs; rw [← hs]; exact ⟨h.id, h.unk, h.recv, h.all, h.wait, h.pop⟩
  | resolve q on =>
    simp only [Sched.act, Option.some.injEq] at hs
    rw [← hs]; split <;> exact ⟨h.id, h.unk, h.recv, h.all, h.wait, h.pop⟩
  | pop q =>
    simp only [Sched.act, Option.some.injEq] at hs
    rw [← hs]; split
    · rename_i hc
      have hq : q ≠ l := by
        rintro rfl
        simp only [Bool.and_eq_true, List.contains_iff_mem] at hc
        exact h.wait hc.1
      refine ⟨h.id, h.unk, h.recv, h.all, fun e => h.wait (List.mem_of_mem_erase e), fun e => ?_⟩
      rcases List.mem_cons.1 e with e | e
      · exact hq e.symm
      · exact h.pop e
    · exact h
  | applyResolved q =>
    simp only [Sched.act, Option.some.injEq] at hs
    rw [← hs]
    split
    · rename_i hc
      have hq : q ≠ l := by
        rintro rfl
        rw [List.contains_iff_mem] at hc
        exact h.pop hc
      unfold Sched.applyResolved
      split
      · exact ⟨h.id, h.unk, h.recv, h.all, h.wait, fun e => h.pop (List.mem_of_mem_erase e)⟩
      · have h' : Loc l { s with popped := s.popped.erase q } :=
          ⟨h.id, h.unk, h.recv, h.all, h.wait, fun e => h.pop (List.mem_of_mem_erase e)⟩
        exact loc_change h' q true (fun e => absurd e hq)
    · exact h

theorem loc_run {l : Peer} (as : List Act) : ∀ {s s' : Sched}, Inv s → Loc l s → s.run as = some s' →
    (∀ ps, .unban ps ∈ as → l ∉ ps) → Loc l s' := by
  induction as with
  | nil => intro s s' _ h hr _; injection hr with hr; exact hr ▸ h
  | cons a as ih =>
    intro s s' hi h hr ha
    obtain ⟨s1, e1, i1⟩ := inv_act hi a
    simp only [Sched.run, e1] at hr
    exact ih i1 (loc_act hi h a e1 (fun ps e => ha ps (e ▸ List.mem_cons_self))) hr
      (fun ps e => ha ps (List.mem_cons_of_mem _ e))

/-- **The local peer never asks itself.** After any history in which nobody lifts a ban from the local peer, it is not
resolved in any round, not among the receivers of broadcasts, and its own state is reported as unknown. -/
theorem local_peer_not_used (l : Peer) (as : List Act) (s : Sched) (h : (Sched.new l).run as = some s)
    (hu : ∀ ps, .unban ps ∈ as → l ∉ ps) :
    (∀ r, Table.get (s.data.peersStateFor r) l ≠ some true) ∧ l ∉ s.data.receivers ∧ s.data.peerState l = false := by
  have hl := loc_run as (Inv.new l) (loc_new l) h hu
  refine ⟨fun r => state_not_true hl.unk r, hl.recv, ?_⟩
  unfold Stateful.peerState
  rw [← Bool.not_eq_true, List.contains_iff_mem]
  exact hl.all

/-! ### Waiting for members -/

/-- Every member that is not resolved is waited for. -/
def Waits (s : Sched) : Prop := ∀ p ∈ s.entries, p ≠ s.localId → p ∈ s.resolved ∨ p ∈ s.waiters

theorem waits_restart (s : Sched) : Waits s.restart := by
  intro p hp hl
  by_cases hr : p ∈ s.resolved
  · exact Or.inl hr
  · refine Or.inr (List.mem_filter.2 ⟨hp, ?_⟩)
    have h1 : p ≠ s.localId := hl
    simp [h1, hr]

theorem banLoop_keeps (ps : List Peer) : ∀ s : Sched, (s.banLoop ps).1.resolved = s.resolved ∧
    (s.banLoop ps).1.waiters = s.waiters ∧ (s.banLoop ps).1.localId = s.localId ∧
    ∀ p, p ∈ (s.banLoop ps).1.entries → p ∈ s.entries := by
  induction ps with
  | nil => exact fun s => ⟨rfl, rfl, rfl, fun _ h => h⟩
  | cons q ps ih =>
    intro s
    obtain ⟨h1, h2, h3, h4⟩ := ih (s.banOne q)
    have hq : (s.banOne q).resolved = s.resolved ∧ (s.banOne q).waiters = s.waiters ∧
        (s.banOne q).localId = s.localId ∧ (s.banOne q).entries = removeEntry s.entries q := by
      unfold Sched.banOne; split <;> exact ⟨rfl, rfl, rfl, rfl⟩
    refine ⟨h1.trans hq.1, h2.trans hq.2.1, h3.trans hq.2.2.1, fun p hp => ?_⟩
    have := h4 p hp
    rw [hq.2.2.2] at this
    exact ((mem_removeEntry _ _ _).1 this).1

theorem unbanLoop_keeps (ps : List Peer) : ∀ s : Sched, (s.unbanLoop ps).2 = false →
    (s.unbanLoop ps).1.resolved = s.resolved ∧
    (s.unbanLoop ps).1.waiters = s.waiters ∧ (s.unbanLoop ps).1.localId = s.localId ∧
    ∀ p, p ∈ (s.unbanLoop ps).1.entries → p ∈ s.entries ∨ p ∈ s.resolved := by
  induction ps with
  | nil => exact fun s _ => ⟨rfl, rfl, rfl, fun _ h => Or.inl h⟩
  | cons q ps ih =>
    intro s hn
    simp only [Sched.unbanLoop, Bool.or_eq_false_iff] at hn
    obtain ⟨h1, h2, h3, h4⟩ := ih (s.unbanOne q) hn.2
    have hq : (s.unbanOne q).resolved = s.resolved ∧ (s.unbanOne q).waiters = s.waiters ∧
        (s.unbanOne q).localId = s.localId ∧
        ∀ p, p ∈ (s.unbanOne q).entries → p ∈ s.entries ∨ p ∈ s.resolved := by
      unfold Sched.unbanOne
      by_cases hv : s.data.inAnyVset q = true
      · have hr : s.resolved.contains q = true := by
          have := hn.1
          unfold Sched.unbanNeeds at this
          rw [hv] at this
          simpa using this
        rw [if_pos hv, if_pos hr]
        refine ⟨rfl, rfl, rfl, fun p hp => ?_⟩
        rcases (mem_insertEntry _ _ _).1 hp with e | e
        · exact Or.inr (by rw [e]; exact List.contains_iff_mem.1 hr)
        · exact Or.inl e
      · rw [if_neg hv]
        exact ⟨rfl, rfl, rfl, fun p hp => Or.inl hp⟩
    refine ⟨h1.trans hq.1, h2.trans hq.2.1, h3.trans hq.2.2.1, fun p hp => ?_⟩
    rcases h4 p hp with e | e
    · exact hq.2.2.2 p e
    · exact Or.inr (by rw [← hq.1]; exact e)

theorem waits_act {s s' : Sched} (hi : Inv s) (h : Waits s) (a : Act) (hs : s.act a = some s') : Waits s' := by
  have hcalls := fun hx => closed_calls Waits
    (fun t v n sub _ ht => by
      unfold Sched.setNextSubset
      split
      · exact ht
      · have := waits_restart { t with
          data := (t.data.setNextVset v (t.resolvedEntries v)).1
          entries := (t.data.setNextVset v (t.resolvedEntries v)).2.foldl removeEntry (t.newEntries v) }
        exact this)
    (fun t t' r it ht e => by
      rcases applyImpl_cases it r e with rfl | ⟨n, _, hw, he, _, hr, hl⟩
      · exact ht
      · have hw' : Waits t.forgetOldest := waits_restart _
        intro p hp hne
        rw [he] at hp
        rw [hr, hw]
        rw [hl] at hne
        exact hw' p hp hne)
    (fun t v _ ht => waits_restart _)
    (fun t _ ht => waits_restart t) hi h a hs hx
  cases a with
  | init g au i => exact hcalls (Or.inl ⟨g, au, i, rfl⟩)
  | setPeers i => exact hcalls (Or.inr (Or.inl ⟨i, rfl⟩))
  | apply c => exact hcalls (Or.inr (Or.inr (Or.inl ⟨c, rfl⟩)))
  | applyLate c => exact hcalls (Or.inr (Or.inr (Or.inr ⟨c, rfl⟩)))
  | ban ps =>
    simp only [Sched.act, Option.some.injEq] at hs
    rw [← hs]
    unfold Sched.setBanned
    split
    · exact h
    · change Waits (s.setBannedLocked ps)
      unfold Sched.setBannedLocked
      split
      · exact waits_restart _
      · obtain ⟨h1, h2, h3, h4⟩ := banLoop_keeps ps s
        intro p hp hl
        rw [h1, h2]
        rw [h3] at hl
        exact h p (h4 p hp) hl
  | unban ps =>
    simp only [Sched.act, Option.some.injEq] at hs
    rw [← hs]
    unfold Sched.removeBans
    split
    · exact h
    · change Waits (s.removeBansLocked ps)
      unfold Sched.removeBansLocked
      split
      · exact waits_restart _
      · rename_i hn
        obtain ⟨h1, h2, h3, h4⟩ := unbanLoop_keeps ps s (by simpa using hn)
        intro p hp hl
        rw [h1, h2]
        rw [h3] at hl
        rcases h4 p hp with e | e
        · exact h p e hl
        · exact Or.inl e
  | takeForget => injection hs with hs; rw [← hs]; exact h
  | resolve q on =>
    simp only [Sched.act, Option.some.injEq] at hs
    rw [← hs]
    split
    · rename_i hc
      intro p hp hl
      change p ∈ setMember s.resolved q on ∨ p ∈ s.waiters
      rcases h p hp hl with e | e
      · left
        unfold setMember
        cases on with
        | true => exact List.mem_cons_of_mem _ e
        | false =>
          simp only [Bool.false_or, Bool.not_eq_true', ← Bool.not_eq_true, List.contains_iff_mem] at hc
          refine List.mem_filter.2 ⟨e, ?_⟩
          have : p ≠ q := by rintro rfl; exact hc hp
          simp [this]
      · exact Or.inr e
    · exact h
  | pop q =>
    simp only [Sched.act, Option.some.injEq] at hs
    rw [← hs]
    split
    · rename_i hc
      simp only [Bool.and_eq_true, List.contains_iff_mem] at hc
      intro p hp hl
      change p ∈ s.resolved ∨ p ∈ s.waiters.erase q
      rcases h p hp hl with e | e
      · exact Or.inl e
      · by_cases hq : p = q
        · exact Or.inl (hq ▸ hc.2)
        · exact Or.inr ((List.mem_erase_of_ne hq).2 e)
    · exact h
  | applyResolved q =>
    simp only [Sched.act, Option.some.injEq] at hs
    rw [← hs]
    split
    · unfold Sched.applyResolved
      split
      · intro p hp hl
        exact h p ((mem_removeEntry _ _ _).1 hp).1 hl
      · exact h
    · exact h

theorem waits_run (as : List Act) : ∀ {s s' : Sched}, Inv s → Waits s → s.run as = some s' → Waits s' := by
  induction as with
  | nil => intro s s' _ h hr; injection hr with hr; exact hr ▸ h
  | cons a as ih =>
    intro s s' hi h hr
    obtain ⟨s1, e1, i1⟩ := inv_act hi a
    simp only [Sched.run, e1] at hr
    exact ih i1 (waits_act hi h a e1) hr

/-- **An unresolved validator is always waited for, and is used as soon as it is found.** After any history, a validator
of a known set that is neither banned nor local and whose address is not known is waited for; when its address is found
and the resolve task comes to its turn, the peer is resolved in every round it takes part in, other tasks are told so
if it is a peer of some known subset, and it gets broadcasts if it is in the current or in the scheduled subset. -/
theorem unresolved_validator_waited (l : Peer) (as : List Act) (s : Sched) (h : (Sched.new l).run as = some s)
    (p : Peer) (hm : (VPlan.empty.run as).member p) (hb : p ∉ bannedAfter [] as) (hl : p ≠ l) (hr : p ∉ s.resolved) :
    p ∈ s.waiters ∧ ∃ s', s.run [.resolve p true, .pop p, .applyResolved p] = some s' ∧
      (∀ r, Table.get (s'.data.peersStateFor r) p ≠ some false) ∧
      ((∃ r, Table.get (s.data.peersStateFor r) p = some false) → (p, true) ∈ s'.sent) ∧
      (Table.get s.data.active.curr p = some false ∨ Table.get s.data.active.next p = some false →
        p ∈ s'.data.receivers) := by
  have hi := inv_of_run (Inv.new l) h
  have hent := (overlay_members_exact l as s h p).2 ⟨hm, hb⟩
  have hloc : s.localId = l := local_run as (Inv.new l) h
  have hw : p ∈ s.waiters := by
    rcases waits_run as (Inv.new l) (by intro q hq; cases hq) h p hent (by rw [hloc]; exact hl) with e | e
    · exact absurd e hr
    · exact e
  refine ⟨hw, ?_⟩
  have hnb : p ∉ s.banned := ((hi.ent p).1 hent).2
  have e1 : s.run [.resolve p true, .pop p, .applyResolved p] =
      some (Sched.change { s with resolved := p :: s.resolved, waiters := s.waiters.erase p, popped := s.popped } p
        true) := by
    have hc1 : s.waiters.contains p = true := List.contains_iff_mem.2 hw
    have hc2 : s.banned.contains p = false := by rw [← Bool.not_eq_true, List.contains_iff_mem]; exact hnb
    simp [Sched.run, Sched.act, setMember, hw, Sched.applyResolved, hnb]
  refine ⟨_, e1, ?_, ?_, ?_⟩
  · intro r
    have hg : ∀ t : Table Peer Bool, Table.get (setIn t p true) p ≠ some false := by
      intro t
      rw [get_setIn]
      simp only [if_true]
      cases Table.get t p <;> simp
    simp only [Sched.change]
    unfold Stateful.peersStateFor
    rw [setState_starts, setState_active]
    cases s.data.starts.arrIdx r with
    | none => simp [Table.get]
    | some i =>
      simp only
      unfold Four.at Stateful.setMaps
      split <;> exact hg _
  · rintro ⟨r, hx⟩
    have ha : s.data.isApplied p true = true := by
      unfold Stateful.peersStateFor at hx
      unfold Stateful.isApplied Stateful.changesReceiver differs
      cases hi : s.data.starts.arrIdx r with
      | none => rw [hi] at hx; simp [Table.get] at hx
      | some i =>
        rw [hi] at hx
        simp only at hx
        unfold Four.at at hx
        split at hx <;> rw [hx] <;> simp
    simp [Sched.change, Stateful.setState, ha]
  · intro hx
    have hd : s.data.changesReceiver p true = true := by
      unfold Stateful.changesReceiver differs
      rcases hx with h | h <;> rw [h] <;> simp
    have ha : s.data.isApplied p true = true := by
      unfold Stateful.isApplied; rw [hd]; simp
    simp [Sched.change, Stateful.setState, ha, hd, setMember]

/-! ### Reports of the peers that leave -/

/-- Whoever was known or reported in `s` is so in `t`. -/
def Kept (s t : Sched) : Prop :=
  ∀ p, (s.data.inAnyVset p = true ∨ p ∈ s.data.toForget) → t.data.inAnyVset p = true ∨ p ∈ t.data.toForget

theorem kept_of {s t : Sched} (hv : ∀ p, t.data.inAnyVset p = s.data.inAnyVset p)
    (hf : t.data.toForget = s.data.toForget) : Kept s t := by
  intro p h; rw [hv, hf]; exact h

theorem setState_forget (d : Stateful) (p : Peer) (st : Bool) : (d.setState p st).1.toForget = d.toForget := by
  unfold Stateful.setState; split <;> rfl

theorem kept_setNextSet (s : Sched) (v : List Peer) : Kept s (s.setNextSet v) := by
  intro p h
  rcases h with h | h
  · rw [inAnyVset_iff] at h
    by_cases hf : p ∈ s.data.forgetNext (statesOf v (s.resolvedEntries v))
    · right
      change p ∈ s.data.toForget ++ _
      exact List.mem_append_right _ hf
    · left
      rw [inAnyVset_iff]
      change p ∈ keys s.data.vset.oldest ∨ p ∈ keys s.data.vset.prev ∨ p ∈ keys s.data.vset.curr ∨
        p ∈ keys (statesOf v (s.resolvedEntries v))
      rw [mem_forgetNext] at hf
      rcases h with h | h | h | h
      · exact Or.inl h
      · exact Or.inr (Or.inl h)
      · exact Or.inr (Or.inr (Or.inl h))
      · by_contra hc
        simp only [not_or] at hc
        exact hf ⟨h, hc.1, hc.2.1, hc.2.2.1, hc.2.2.2⟩
  · right
    change p ∈ s.data.toForget ++ _
    exact List.mem_append_left _ h

theorem kept_act {s s' : Sched} (hi : Inv s) (a : Act) (hs : s.act a = some s') (ha : a ≠ .takeForget) :
    Kept s s' := by
  have hcalls := fun hx => closed_calls (Kept s)
    (fun t v n sub _ ht p h => by
      have := kept_setNextSet t v p (ht p h)
      unfold Sched.setNextSubset
      split
      · exact ht p h
      · exact this)
    (fun t t' r it ht e p h => by
      have h0 := ht p h
      rcases applyImpl_cases it r e with rfl | ⟨n, hd, _⟩
      · exact h0
      · rw [hd]
        rcases h0 with h0 | h0
        · rw [inAnyVset_iff] at h0 ⊢
          change (p ∈ keys t.data.vset.prev ∨ p ∈ keys t.data.vset.curr ∨ p ∈ keys t.data.vset.next ∨ p ∈ keys []) ∨
            p ∈ t.data.toForget ++ keys t.data.onlyOldest
          by_cases ho : p ∈ keys t.data.onlyOldest
          · exact Or.inr (List.mem_append_right _ ho)
          · left
            rw [mem_onlyOldest] at ho
            rcases h0 with h0 | h0 | h0 | h0
            · by_contra hc
              simp only [not_or] at hc
              exact ho ⟨h0, hc.1, hc.2.1, hc.2.2.1⟩
            · exact Or.inl h0
            · exact Or.inr (Or.inl h0)
            · exact Or.inr (Or.inr (Or.inl h0))
        · right
          change p ∈ t.data.toForget ++ _
          exact List.mem_append_left _ h0)
    (fun t v _ ht p h => kept_setNextSet t v p (ht p h))
    (fun t _ ht => ht) hi (fun _ h => h) a hs hx
  cases a with
  | init g au i => exact hcalls (Or.inl ⟨g, au, i, rfl⟩)
  | setPeers i => exact hcalls (Or.inr (Or.inl ⟨i, rfl⟩))
  | apply c => exact hcalls (Or.inr (Or.inr (Or.inl ⟨c, rfl⟩)))
  | applyLate c => exact hcalls (Or.inr (Or.inr (Or.inr ⟨c, rfl⟩)))
  | ban ps =>
    simp only [Sched.act, Option.some.injEq] at hs
    rw [← hs]
    have key : ∀ (qs : List Peer) (t : Sched), (∀ p, (t.banLoop qs).1.data.inAnyVset p = t.data.inAnyVset p) ∧
        (t.banLoop qs).1.data.toForget = t.data.toForget := by
      intro qs
      induction qs with
      | nil => exact fun t => ⟨fun _ => rfl, rfl⟩
      | cons q qs ih =>
        intro t
        refine ⟨fun p => ((ih _).1 p).trans (any_banOne t p q), (ih _).2.trans ?_⟩
        unfold Sched.banOne
        split
        · exact setState_forget _ _ _
        · rfl
    unfold Sched.setBanned
    split
    · exact fun _ h => h
    · refine kept_of (fun p => ?_) ?_
      · change (s.setBannedLocked ps).data.inAnyVset p = _
        unfold Sched.setBannedLocked
        split <;> exact (key ps s).1 p
      · change (s.setBannedLocked ps).data.toForget = _
        unfold Sched.setBannedLocked
        split <;> exact (key ps s).2
  | unban ps =>
    simp only [Sched.act, Option.some.injEq] at hs
    rw [← hs]
    have key : ∀ (qs : List Peer) (t : Sched), (∀ p, (t.unbanLoop qs).1.data.inAnyVset p = t.data.inAnyVset p) ∧
        (t.unbanLoop qs).1.data.toForget = t.data.toForget := by
      intro qs
      induction qs with
      | nil => exact fun t => ⟨fun _ => rfl, rfl⟩
      | cons q qs ih =>
        intro t
        have h1 : (∀ p, (t.unbanOne q).data.inAnyVset p = t.data.inAnyVset p) ∧
            (t.unbanOne q).data.toForget = t.data.toForget := by
          unfold Sched.unbanOne
          split
          · split
            · exact ⟨fun p => setState_any _ _ _ _, setState_forget _ _ _⟩
            · exact ⟨fun _ => rfl, rfl⟩
          · exact ⟨fun _ => rfl, rfl⟩
        exact ⟨fun p => ((ih _).1 p).trans (h1.1 p), (ih _).2.trans h1.2⟩
    unfold Sched.removeBans
    split
    · exact fun _ h => h
    · refine kept_of (fun p => ?_) ?_
      · change (s.removeBansLocked ps).data.inAnyVset p = _
        unfold Sched.removeBansLocked
        split <;> exact (key ps s).1 p
      · change (s.removeBansLocked ps).data.toForget = _
        unfold Sched.removeBansLocked
        split <;> exact (key ps s).2
  | takeForget => exact absurd rfl ha
  | resolve q on =>
    simp only [Sched.act, Option.some.injEq] at hs
    rw [← hs]; split <;> exact fun _ h => h
  | pop q =>
    simp only [Sched.act, Option.some.injEq] at hs
    rw [← hs]; split <;> exact fun _ h => h
  | applyResolved q =>
    simp only [Sched.act, Option.some.injEq] at hs
    rw [← hs]
    split
    · unfold Sched.applyResolved
      split
      · exact fun _ h => h
      · exact kept_of (fun p => setState_any _ _ _ _) (setState_forget _ _ _)
    · exact fun _ h => h

/-- **Peers that leave are reported.** A validator known after some history that is not a validator of any known set
later is in the list of peers to forget, unless the list was taken in between. -/
theorem gone_peers_reported (l : Peer) (as bs : List Act) (s s' : Sched) (h : (Sched.new l).run as = some s)
    (h' : s.run bs = some s') (ht : .takeForget ∉ bs) (p : Peer) (hm : (VPlan.empty.run as).member p)
    (hg : ¬ (VPlan.empty.run (as ++ bs)).member p) : p ∈ s'.data.toForget := by
  have hi := inv_of_run (Inv.new l) h
  have hk : ∀ (bs : List Act) {s s' : Sched}, Inv s → s.run bs = some s' → .takeForget ∉ bs → Kept s s' := by
    intro bs
    induction bs with
    | nil => intro s s' _ hr _; injection hr with hr; exact hr ▸ fun _ h => h
    | cons b bs ih =>
      intro s s' hi hr hn
      obtain ⟨s1, e1, i1⟩ := inv_act hi b
      simp only [Sched.run, e1] at hr
      have k1 := kept_act hi b e1 (by rintro rfl; exact hn List.mem_cons_self)
      have k2 := ih i1 hr (fun e => hn (List.mem_cons_of_mem _ e))
      exact fun p hp => k2 p (k1 p hp)
  have hv := vshows_run as (Inv.new l) (vshows_new l) h
  have hv' := vshows_run bs hi hv h'
  rcases hk bs hi h' ht p (Or.inl ((hv.any p).2 hm)) with e | e
  · refine absurd ?_ hg
    unfold VPlan.run
    rw [List.foldl_append]
    exact (hv'.any p).1 e
  · exact e

end Tycho.PeerSchedule
