import Verif.PeerSchedule.Rounds
import Mathlib.Tactic.ByContra
/-!
Statistics of an epoch: since which round they are counted, and the slot of each peer.
-/
namespace Tycho.PeerSchedule
open Tycho.Table

/-- Known epochs, the newest first. -/
def Plan.known (p : Plan) : List Epoch := p.next.toList ++ p.applied.take 3

theorem known_sorted {p : Plan} (h : PlanOk p) : p.known.Pairwise (fun a b => b.start < a.start) := by
  unfold Plan.known
  have ht : (p.applied.take 3).Pairwise (fun a b => b.start < a.start) := h.sorted.sublist (List.take_sublist 3 _)
  cases hn : p.next with
  | none => exact ht
  | some e =>
    refine List.pairwise_cons.2 ⟨?_, ht⟩
    intro b hb
    have hf := h.future e hn
    refine Nat.lt_of_le_of_lt ?_ hf
    have hb' := List.mem_of_mem_take hb
    have hs := h.sorted
    unfold Plan.currStart
    revert hb' hs
    cases p.applied with
    | nil => intro hb'; cases hb'
    | cons c l =>
      intro hb' hs
      rcases List.mem_cons.1 hb' with rfl | hb'
      · exact Nat.le_refl _
      · exact Nat.le_of_lt ((List.pairwise_cons.1 hs).1 b hb')

/-- In a list of epochs, newest first, the epoch found for a round is the one found for any round between its start and
the round. -/
theorem find_between (L : List Epoch) (a x : Round) (e : Epoch) (hL : L.Pairwise (fun a b => b.start < a.start))
    (h : L.find? (fun e => decide (e.start ≤ a)) = some e) (h1 : e.start ≤ x) (h2 : x ≤ a) :
    L.find? (fun e => decide (e.start ≤ x)) = some e := by
  induction L with
  | nil => cases h
  | cons c L ih =>
    rw [List.find?_cons] at h ⊢
    by_cases hc : c.start ≤ a
    · rw [decide_eq_true hc] at h
      injection h with h
      subst h
      rw [decide_eq_true h1]
    · rw [decide_eq_false hc] at h
      have : ¬ c.start ≤ x := fun hx => hc (Nat.le_trans hx h2)
      rw [decide_eq_false this]
      exact ih (List.pairwise_cons.1 hL).2 h

theorem find_mem_le (L : List Epoch) (a : Round) (e : Epoch) (h : L.find? (fun e => decide (e.start ≤ a)) = some e) :
    e ∈ L ∧ e.start ≤ a := by
  refine ⟨List.mem_of_find?_eq_some h, ?_⟩
  have := List.find?_some h
  simpa using this

theorem sorted_inj {L : List Epoch} (hL : L.Pairwise (fun a b => b.start < a.start)) {a b : Epoch} (ha : a ∈ L)
    (hb : b ∈ L) (he : a.start = b.start) : a = b := by
  induction L with
  | nil => cases ha
  | cons c L ih =>
    obtain ⟨h1, h2⟩ := List.pairwise_cons.1 hL
    rcases List.mem_cons.1 ha with rfl | ha' <;> rcases List.mem_cons.1 hb with rfl | hb'
    · rfl
    · exact absurd he.symm (Nat.ne_of_lt (h1 b hb'))
    · exact absurd he (Nat.ne_of_lt (h1 a ha'))
    · exact ih h2 ha' hb'

theorem known_pos {p : Plan} (h : PlanOk p) : ∀ e ∈ p.known, 0 < e.start := by
  intro e he
  unfold Plan.known at he
  rcases List.mem_append.1 he with he | he
  · have : p.next = some e := by simpa using he
    exact Nat.lt_of_le_of_lt (Nat.zero_le _) (h.future e this)
  · exact h.pos e (List.mem_of_mem_take he)

/-- **Statistics are not counted across a switch of epochs.** If statistics of an anchor are counted since a round
`since` (and any epoch is known), then the anchor and all rounds up to the largest lag after it are in one epoch, which
starts at `since`. Conversely, if the anchor and the round of the largest lag after it are in the same epoch, the
statistics are counted since its start. -/
theorem stats_of_one_epoch (l : Peer) (as : List Act) (s : Sched) (h : (Sched.new l).run as = some s)
    (anchor lag : Round) :
    (∀ since, 0 < since → s.atomic.statsSince anchor lag = some since →
      ∃ e, e.start = since ∧ since ≤ anchor ∧
        ∀ x, since ≤ x → x ≤ anchor + lag → (Plan.empty.run as).epochOf x = some e) ∧
    (∀ e, (Plan.empty.run as).epochOf anchor = some e → (Plan.empty.run as).epochOf (anchor + lag) = some e →
      s.atomic.statsSince anchor lag = some e.start) := by
  have hs := shows_run as (Inv.new l) (shows_new l) h
  have hok : PlanOk (Plan.empty.run as) := planOk_run as planOk_empty
  have hL := known_sorted hok
  generalize Plan.empty.run as = p at *
  refine ⟨?_, ?_⟩
  · intro since hpos hst
    unfold Stateless.statsSince at hst
    split at hst
    · rename_i heq
      have key : ∀ x, s.atomic.starts.epochStart x = some since → ∃ e, p.epochOf x = some e ∧ e.start = since := by
        intro x hx
        obtain ⟨h1, h2⟩ := hs.idx x
        cases he : p.epochOf x with
        | none =>
          rcases h2 he with h3 | ⟨_, _, _, _, h3⟩
          · simp [EpochStarts.epochStart, h3] at hx
          · rw [h3] at hx; injection hx with hx; exact absurd hx (Nat.ne_of_lt hpos)
        | some e =>
          obtain ⟨_, _, _, _, h3⟩ := h1 e he
          rw [h3] at hx; injection hx with hx
          exact ⟨e, rfl, hx⟩
      obtain ⟨e, he, hes⟩ := key anchor hst
      obtain ⟨e', he', hes'⟩ := key (anchor + lag) (heq ▸ hst)
      have m1 := find_mem_le _ _ _ he
      have m2 := find_mem_le _ _ _ he'
      have hee : e' = e := sorted_inj hL m2.1 m1.1 (hes'.trans hes.symm)
      subst hee
      refine ⟨e', hes', hes' ▸ m1.2, ?_⟩
      intro x h1 h2
      exact find_between _ _ x e' hL he' (hes'.symm ▸ h1) h2
    · cases hst
  · intro e h1 h2
    obtain ⟨_, _, _, _, e1⟩ := (hs.idx anchor).1 e h1
    obtain ⟨_, _, _, _, e2⟩ := (hs.idx (anchor + lag)).1 e h2
    unfold Stateless.statsSince
    rw [e1, e2, if_pos rfl]

/-! ### Slots -/

theorem insertByIdx_perm (e : Peer × Nat) (l : List (Peer × Nat)) : (insertByIdx e l).Perm (e :: l) := by
  induction l with
  | nil => exact List.Perm.refl _
  | cons x l ih =>
    unfold insertByIdx
    split
    · exact List.Perm.refl _
    · exact (List.Perm.cons x ih).trans (List.Perm.swap e x l)

theorem sortByIdx_perm (l : List (Peer × Nat)) : (sortByIdx l).Perm l := by
  induction l with
  | nil => exact List.Perm.refl _
  | cons e l ih => exact (insertByIdx_perm e _).trans (List.Perm.cons e ih)

theorem insertByIdx_sorted (e : Peer × Nat) (l : List (Peer × Nat)) (h : l.Pairwise (fun a b => a.2 ≤ b.2)) :
    (insertByIdx e l).Pairwise (fun a b => a.2 ≤ b.2) := by
  induction l with
  | nil => simp [insertByIdx]
  | cons x l ih =>
    obtain ⟨h1, h2⟩ := List.pairwise_cons.1 h
    unfold insertByIdx
    split
    · rename_i hlt
      refine List.pairwise_cons.2 ⟨?_, h⟩
      intro b hb
      rcases List.mem_cons.1 hb with rfl | hb
      · omega
      · exact Nat.le_trans (Nat.le_of_lt hlt) (h1 b hb)
    · rename_i hge
      refine List.pairwise_cons.2 ⟨?_, ih h2⟩
      intro b hb
      rcases List.mem_cons.1 ((insertByIdx_perm e l).mem_iff.1 hb) with rfl | hb
      · omega
      · exact h1 b hb

theorem sortByIdx_sorted (l : List (Peer × Nat)) : (sortByIdx l).Pairwise (fun a b => a.2 ≤ b.2) := by
  induction l with
  | nil => exact List.Pairwise.nil
  | cons e l ih => exact insertByIdx_sorted e _ ih

theorem get_slotsFrom (l : List (Peer × Nat)) : ∀ (n : Nat), (l.map (·.1)).Nodup → (l.map (·.2)).Nodup →
    l.Pairwise (fun a b => a.2 ≤ b.2) → ∀ p k, Table.get (slotsFrom n l) p = some k ↔
      ∃ idx, (p, idx) ∈ l ∧ k = n + (l.filter (fun e => decide (e.2 < idx))).length := by
  induction l with
  | nil => intro n _ _ _ p k; simp [slotsFrom, Table.get]
  | cons e l ih =>
    intro n h1 h2 h3 p k
    obtain ⟨q, j⟩ := e
    simp only [List.map_cons, List.nodup_cons] at h1 h2
    obtain ⟨h3a, h3b⟩ := List.pairwise_cons.1 h3
    simp only [slotsFrom, Table.get]
    by_cases hq : q = p
    · subst hq
      rw [if_pos rfl]
      have hf : ((q, j) :: l).filter (fun e => decide (e.2 < j)) = [] := by
        rw [List.filter_eq_nil_iff]
        intro b hb
        rcases List.mem_cons.1 hb with rfl | hb
        · simp
        · have := h3a b hb
          simp; omega
      constructor
      · intro hk; injection hk with hk
        exact ⟨j, List.mem_cons_self, by rw [hf]; simp [hk]⟩
      · rintro ⟨idx, hm, hk⟩
        rcases List.mem_cons.1 hm with he | hm
        · injection he with _ he; subst he; rw [hf] at hk; simp [hk]
        · exact absurd (List.mem_map.2 ⟨_, hm, rfl⟩) h1.1
    · rw [if_neg hq, ih (n + 1) h1.2 h2.2 h3b p k]
      constructor
      · rintro ⟨idx, hm, hk⟩
        refine ⟨idx, List.mem_cons_of_mem _ hm, ?_⟩
        have hlt : j < idx := by
          have h4 := h3a _ hm
          have h5 : j ≠ idx := fun e => h2.1 (List.mem_map.2 ⟨_, hm, e.symm⟩)
          simp only at h4
          omega
        rw [List.filter_cons, if_pos (by simpa using hlt), List.length_cons, hk]
        omega
      · rintro ⟨idx, hm, hk⟩
        rcases List.mem_cons.1 hm with he | hm
        · injection he with he _; exact absurd he.symm hq
        · refine ⟨idx, hm, ?_⟩
          have hlt : j < idx := by
            have h4 := h3a _ hm
            have h5 : j ≠ idx := fun e => h2.1 (List.mem_map.2 ⟨_, hm, e.symm⟩)
            simp only at h4
            omega
          rw [List.filter_cons, if_pos (by simpa using hlt), List.length_cons] at hk
          omega

theorem slotsFrom_isEmpty (n : Nat) (l : List (Peer × Nat)) : (slotsFrom n l).isEmpty = l.isEmpty := by
  cases l <;> rfl

/-- **The slot of a peer in the statistics is its rank by validator index**, in the epoch of the anchor; if peers and
indices of the subset are different. -/
theorem slot_is_rank (l : Peer) (as : List Act) (s : Sched) (h : (Sched.new l).run as = some s) (anchor : Round)
    (e : Epoch) (he : (Plan.empty.run as).epochOf anchor = some e) (hne : e.sub ≠ [])
    (h1 : (e.sub.map (·.1)).Nodup) (h2 : (e.sub.map (·.2)).Nodup) :
    ∃ m, s.atomic.slotMap anchor = some m ∧ ∀ p k, Table.get m p = some k ↔
      ∃ idx, (p, idx) ∈ e.sub ∧ k = (e.sub.filter (fun x => decide (x.2 < idx))).length := by
  have hs := shows_run as (Inv.new l) (shows_new l) h
  obtain ⟨i, hi, _, ht, _⟩ := (hs.idx anchor).1 e he
  have hp := sortByIdx_perm e.sub
  have hemp : (slotsFrom 0 (sortByIdx e.sub)).isEmpty = false := by
    rw [slotsFrom_isEmpty]
    cases hc : sortByIdx e.sub with
    | nil => rw [hc] at hp; exact absurd hp.symm.eq_nil hne
    | cons a b => rfl
  refine ⟨e.slots, ?_, ?_⟩
  · unfold Stateless.slotMap
    rw [hi]
    simp only
    rw [ht]
    unfold Epoch.slots
    rw [hemp]
    rfl
  · intro p k
    unfold Epoch.slots
    rw [get_slotsFrom _ 0 ((hp.map _).nodup_iff.2 h1) ((hp.map _).nodup_iff.2 h2) (sortByIdx_sorted _)]
    constructor
    · rintro ⟨idx, hm, hk⟩
      refine ⟨idx, hp.mem_iff.1 hm, ?_⟩
      rw [hk, Nat.zero_add]
      exact (hp.filter _).length_eq
    · rintro ⟨idx, hm, hk⟩
      refine ⟨idx, hp.mem_iff.2 hm, ?_⟩
      rw [hk, Nat.zero_add]
      exact (hp.filter _).length_eq.symm

end Tycho.PeerSchedule
