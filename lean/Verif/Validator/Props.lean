import Verif.Validator.Keep

/-! ## Properties of validation -/
namespace Tycho.Validator

open Tycho.Table

/-- C40: a validation that completes has valid signatures of different validators with more than two thirds of the total weight, and reports their
exact weight; for any schedule, any answers of peers and any cancellations. -/
theorem complete_final {c : Cfg} (hc : CfgOk c) {start : Nat} {st : St} (h : Reach c start st) {t : Nat} {b : BlockId} {sigs : List (Peer × Sig)} {w : Nat}
    (ht : st.tasks t = some (.vDone (.complete b sigs w))) : Final c b sigs w := by
  obtain ⟨⟨rest, hr⟩, hw⟩ := (h.inv hc).task t _ ht
  refine ⟨hr.valid, ?_, hr.weight, ?_⟩
  · have := hr.perm.nodup_iff.2 hc.nodup
    exact (List.nodup_append.1 this).1
  · have h1 := hc.threshold
    have h2 := hc.small
    rw [thresholdOf, Nat.min_eq_left h2] at h1
    omega

/-- C40: the signers are validators. -/
theorem Final.mem {c : Cfg} {b : BlockId} {sigs : List (Peer × Sig)} {w : Nat} (h : Final c b sigs w) : ∀ p ∈ sigs.map (·.1), p ∈ c.own :: c.peers := by
  intro p hp
  obtain ⟨e, he, rfl⟩ := List.mem_map.1 hp
  rcases h.valid e he with ⟨h1, _⟩ | ⟨h1, _⟩
  · rw [h1]; exact List.mem_cons_self
  · exact List.mem_cons_of_mem _ h1

theorem sum_filter_mem (w : Peer → Nat) {l v : List Peer} (hl : l.Nodup) (hv : v.Nodup) (hs : ∀ p ∈ l, p ∈ v) : ((v.filter (fun p => decide (p ∈ l))).map w).sum = (l.map w).sum := by
  apply List.Perm.sum_eq
  apply List.Perm.map
  rw [List.perm_ext_iff_of_nodup (hv.filter _) hl]
  intro p
  rw [List.mem_filter, decide_eq_true_eq]
  exact ⟨fun h => h.2, fun h => ⟨hs p h, h⟩⟩

theorem incl_excl (w : Peer → Nat) (v : List Peer) (f g : Peer → Bool) :
    ((v.filter f).map w).sum + ((v.filter g).map w).sum ≤ (v.map w).sum + ((v.filter (fun p => f p && g p)).map w).sum := by
  induction v with
  | nil => simp
  | cons p v ih =>
    rw [List.filter_cons, List.filter_cons, List.filter_cons]
    cases f p <;> cases g p <;> simp only [Bool.and_true, Bool.and_false, Bool.false_and, if_true, if_false, Bool.false_eq_true, List.map_cons, List.sum_cons] <;> omega

/-- C41: any two blocks that are final, on whatever nodes, were signed by common validators with more than a third of the weight. -/
theorem finals_intersect {c1 c2 : Cfg} (hc : CfgOk c1) (hs : SameSet c1 c2) {b1 b2 : BlockId} {s1 s2 : List (Peer × Sig)} {w1 w2 : Nat}
    (h1 : Final c1 b1 s1 w1) (h2 : Final c2 b2 s2 w2) :
    totalWeight c1 < 3 * weightSum c1 ((c1.own :: c1.peers).filter (fun p => decide (p ∈ s1.map (·.1)) && decide (p ∈ s2.map (·.1)))) := by
  have hw : weightOf c2 = weightOf c1 := by funext p; exact (hs.weights p).symm
  have ht : totalWeight c2 = totalWeight c1 := by
    rw [totalWeight, totalWeight, hw]
    exact ((hs.members.map _).sum_eq).symm
  have e1 := sum_filter_mem (weightOf c1) h1.distinct hc.nodup h1.mem
  have e2 := sum_filter_mem (weightOf c1) h2.distinct hc.nodup (fun p hp => hs.members.mem_iff.2 (h2.mem p hp))
  have e3 := incl_excl (weightOf c1) (c1.own :: c1.peers) (fun p => decide (p ∈ s1.map (·.1))) (fun p => decide (p ∈ s2.map (·.1)))
  have t1 := h1.twoThirds
  have t2 := h2.twoThirds
  have e4 := h1.weight
  have e5 := h2.weight
  rw [hw] at e5
  rw [ht] at t2
  rw [e1, e2, ← e4, ← e5] at e3
  rw [← totalWeight] at e3
  rw [weightSum]
  omega

theorem filter_weight_le (w : Peer → Nat) (v : List Peer) (f g : Peer → Bool) (h : ∀ p ∈ v, f p = true → g p = true) : ((v.filter f).map w).sum ≤ ((v.filter g).map w).sum := by
  induction v with
  | nil => simp
  | cons p v ih =>
    have ih := ih (fun q hq => h q (List.mem_cons_of_mem _ hq))
    have hp := h p List.mem_cons_self
    rw [List.filter_cons, List.filter_cons]
    cases hf : f p
    · cases g p <;> simp only [if_true, if_false, Bool.false_eq_true, List.map_cons, List.sum_cons] <;> omega
    · rw [hp hf]; simp only [if_true, List.map_cons, List.sum_cons]; omega

/-- C41: if validators that sign two blocks of one seqno have at most a third of the weight, then two completed validations of one seqno,
on any nodes and in any executions, are of the same block. -/
theorem complete_agree {c1 c2 : Cfg} (hc1 : CfgOk c1) (hc2 : CfgOk c2) (hs : SameSet c1 c2) (honest : Peer → Bool) {b1 b2 : BlockId}
    (hh : ∀ p s1 s2, honest p = true → SigOk c1 b1 p s1 → SigOk c2 b2 p s2 → b1 = b2)
    (hw : 3 * weightSum c1 ((c1.own :: c1.peers).filter (fun p => !honest p)) ≤ totalWeight c1)
    {start1 start2 : Nat} {st1 st2 : St} (h1 : Reach c1 start1 st1) (h2 : Reach c2 start2 st2) {t1 t2 : Nat} {sigs1 sigs2 : List (Peer × Sig)} {w1 w2 : Nat}
    (ht1 : st1.tasks t1 = some (.vDone (.complete b1 sigs1 w1))) (ht2 : st2.tasks t2 = some (.vDone (.complete b2 sigs2 w2))) : b1 = b2 := by
  have f1 := complete_final hc1 h1 ht1
  have f2 := complete_final hc2 h2 ht2
  have hi := finals_intersect hc1 hs f1 f2
  cases hb : decide (b1 = b2) with
  | true => exact of_decide_eq_true hb
  | false =>
    exfalso
    have hb := of_decide_eq_false hb
    have : weightSum c1 ((c1.own :: c1.peers).filter (fun p => decide (p ∈ sigs1.map (·.1)) && decide (p ∈ sigs2.map (·.1)))) ≤
        weightSum c1 ((c1.own :: c1.peers).filter (fun p => !honest p)) := by
      apply filter_weight_le
      intro p _ hp
      rw [Bool.and_eq_true, decide_eq_true_eq, decide_eq_true_eq] at hp
      cases hho : honest p with
      | false => rfl
      | true =>
        exfalso
        obtain ⟨e1, he1, q1⟩ := List.mem_map.1 hp.1
        obtain ⟨e2, he2, q2⟩ := List.mem_map.1 hp.2
        have v1 := f1.valid e1 he1
        have v2 := f2.valid e2 he2
        rw [q1] at v1; rw [q2] at v2
        exact hb (hh p _ _ hho v1 v2)
    omega

theorem GivesOut.obj {c : Cfg} (hc : CfgOk c) {start : Nat} {st : St} (h : Reach c start st) {b : BlockId} (hg : GivesOut st b) : ∃ o, HasObj st o b := by
  rcases hg with hg | ⟨t, sigs, w, ht⟩
  · exact (h.inv hc).shared.exposed b hg
  · exact ((h.inv hc).task t _ ht).2.2

/-- C42: the node gives out its signature for at most one block of a seqno, unless that seqno is cancelled. -/
theorem no_equivocation {c : Cfg} (hc : CfgOk c) {start : Nat} {st : St} (h : Reach c start st) {b1 b2 : BlockId} (h1 : GivesOut st b1) (h2 : GivesOut st b2)
    (hs : c.seqno b1 = c.seqno b2) (hu : st.cancelledUntil < c.seqno b1) : b1 = b2 := by
  have hi := (h.inv hc).shared
  obtain ⟨o1, l1, e1⟩ := h1.obj hc h
  obtain ⟨o2, l2, e2⟩ := h2.obj hc h
  have g1 := hi.live o1 l1 (by rw [e1]; exact hu)
  have g2 := hi.live o2 l2 (by rw [e2, ← hs]; exact hu)
  rw [e1] at g1
  rw [e2, ← hs, g1] at g2
  cases g2
  rw [← e1, ← e2]

/-- C43: the signatures stored for a block are valid, of other validators, and once stored never change. -/
theorem stored_kept {c : Cfg} (hc : CfgOk c) {start : Nat} {st : St} (h : Reach c start st) {o : Nat} (ho : o < st.nobjs) {p : Peer} {s : Sig} (hs : (st.objs o).slots p = some s) :
    p ∈ c.peers ∧ c.verify p (st.objs o).block s = true ∧
    ∀ acts st', steps c st acts = some st' → (st'.objs o).slots p = some s ∧ (st'.objs o).block = (st.objs o).block := by
  obtain ⟨h1, h2⟩ := ((h.inv hc).shared.obj o ho).valid p s hs
  refine ⟨h1, h2, ?_⟩
  intro acts st' hst
  have := steps_le hc (h.inv hc) hst
  exact ⟨this.slots o p s ho hs, this.block o ho⟩

/-- C43: a block is marked as validated only when validators with more than two thirds of the weight have signed it (after which signatures of
others are no longer checked). -/
theorem validated_weight {c : Cfg} (hc : CfgOk c) {start : Nat} {st : St} (h : Reach c start st) {o : Nat} (ho : o < st.nobjs) (hv : (st.objs o).validated = true) :
    2 * totalWeight c < 3 * (c.ownWeight + ((c.peers.filter (fun p => ((st.objs o).slots p).isSome)).map c.weight).sum) := by
  have hob := (h.inv hc).shared.obj o ho
  have h1 := hob.sealed hv
  have h2 := hob.total
  have h3 : wsum c (st.objs o).counted ≤ wsum c (fun p => ((st.objs o).slots p).isSome) := filter_weight_le c.weight c.peers _ _ (fun p _ hp => hob.counted p hp)
  have h4 := hc.threshold
  rw [thresholdOf, Nat.min_eq_left hc.small] at h4
  rw [wsum, wsum] at h3
  rw [wsum] at h2
  omega

/-- C43: a validation never runs out of peers to wait for below the threshold. -/
theorem never_exhausted {c : Cfg} (hc : CfgOk c) {start : Nat} {st : St} (h : Reach c start st) (t : Nat) : st.tasks t ≠ some (.vDone .exhausted) :=
  fun ht => (h.inv hc).task t _ ht

/-- C43: and it never counts a peer for which it still waits. -/
theorem waits_for_rest {c : Cfg} (hc : CfgOk c) {start : Nat} {st : St} (h : Reach c start st) {t : Nat} {b : BlockId} {o : Nat} {res : List (Peer × Sig)} {pend : List (Nat × Peer)} {w : Nat}
    (ht : st.tasks t = some (.vCollect b o res pend w)) : (res.map (·.1) ++ pend.map (·.2)).Perm (c.own :: c.peers) ∧ w = weightSum c (res.map (·.1)) :=
  ⟨((h.inv hc).task t _ ht).2.1.perm, ((h.inv hc).task t _ ht).2.1.weight⟩

/-- C44: when `cancel_until(n)` has returned, every validation of a block up to `n` that still collects signatures is cancelled: if it has not
reached the threshold it may stop at once, as skipped. -/
theorem cancel_reaches {c : Cfg} (hc : CfgOk c) {start : Nat} {st : St} (h : Reach c start st) {tc n : Nat} (hd : st.tasks tc = some (.cDone n)) {t : Nat} {b : BlockId}
    {o : Nat} {res : List (Peer × Sig)} {pend : List (Nat × Peer)} {w : Nat} (ht : st.tasks t = some (.vCollect b o res pend w)) (hb : c.seqno b ≤ n) (hw : w < c.threshold) :
    ∃ st', step c st (.stop t) = some st' ∧ st'.tasks t = some (.vDone .skipped) := by
  have hok := (h.inv hc).task t _ ht
  have hcan : (st.objs o).cancelled = true := by
    rcases (h.live hc).done tc _ (n, []) hd rfl o hok.1.1 hok.2.2.2 (by rw [hok.1.2]; exact hb) with h1 | h1
    · exact h1
    · cases h1
  refine ⟨setTask st t (.vDone .skipped), ?_, setTask_self _ _ _⟩
  simp only [step, ht]
  rw [if_pos ⟨hw, by rw [isCancelled, hcan]; rfl⟩]

/-- C44: when `cancel_until(n)` has returned, a block up to `n` whose validation begins, or has only been registered, is skipped. -/
theorem cancel_skips {c : Cfg} (hc : CfgOk c) {start : Nat} {st : St} (h : Reach c start st) {tc n : Nat} (hd : st.tasks tc = some (.cDone n)) {b : BlockId} (hb : c.seqno b ≤ n) :
    (∀ t, st.tasks t = some (.vCheck1 b) → ∃ st', step c st (.run t) = some st' ∧ st'.tasks t = some (.vDone .skipped)) ∧
    (∀ t ch o, st.tasks t = some (.vCheck2 b ch o) → ∃ st', steps c st [.run t, .run t] = some st' ∧ st'.tasks t = some (.vDone .skipped)) := by
  have hn : n ≤ st.cancelledUntil := (h.inv hc).task tc _ hd
  have hle : c.seqno b ≤ st.cancelledUntil := Nat.le_trans hb hn
  refine ⟨?_, ?_⟩
  · intro t ht
    refine ⟨setTask st t (.vDone .skipped), ?_, setTask_self _ _ _⟩
    simp only [step, ht, Option.bind_some, runV, if_pos hle, Option.or_some, Option.some_or]
  · intro t ch o ht
    have e1 : step c st (.run t) = some (setTask (setObj st o { st.objs o with cancelled := true }) t (.vDrop b o)) := by
      simp only [step, ht, Option.bind_some, runV]
      rw [if_pos (by rw [decide_eq_true hle]; rfl)]
      rfl
    have e2 : ∀ st1, st1.tasks t = some (.vDrop b o) → step c st1 (.run t) = some (setTask { st1 with blocks := del st1.blocks (fun n => decide (n = c.seqno b)) } t (.vDone .skipped)) := by
      intro st1 h1
      simp only [step, h1, Option.bind_some, runV]
      rfl
    refine ⟨_, (by rw [steps, e1, Option.bind_some, steps, e2 _ (setTask_self _ _ _), Option.bind_some, steps]), setTask_self _ _ _⟩

/-- C44: when `cancel` has returned, all of this holds for every block. -/
theorem cancel_reaches_all {c : Cfg} (hc : CfgOk c) {start : Nat} {st : St} (h : Reach c start st) (hcan : st.cancelled = true) :
    (∀ b, c.seqno b ≤ st.cancelledUntil) ∧ (∀ o, isCancelled st o = true) :=
  ⟨fun b => Nat.le_trans (hc.seqno b) ((h.inv hc).shared.sess hcan), fun o => by rw [isCancelled, hcan, Bool.or_true]⟩

theorem uniq_validatorMap (l : List (Peer × Nat)) : Uniq (validatorMap l) := uniq_putAll [] l uniq_nil

theorem perm_del {κ ν : Type} [DecidableEq κ] (t : Table κ ν) (hu : Uniq t) {k : κ} {v : ν} (h : get t k = some v) : t.Perm ((k, v) :: del t (fun j => decide (j = k))) := by
  induction t with
  | nil => cases h
  | cons e t ih =>
    have hn := List.nodup_cons.1 hu
    by_cases he : e.1 = k
    · rw [Table.get, if_pos he] at h
      cases h
      have : del (e :: t) (fun j => decide (j = k)) = t := by
        rw [del, List.filter_cons_of_neg (by simp [he]), List.filter_eq_self]
        intro x hx
        have : x.1 ≠ k := by rintro rfl; exact hn.1 (List.mem_map.2 ⟨x, hx, he.symm⟩)
        simp [this]
      rw [this, ← he]
    · rw [Table.get, if_neg he] at h
      have ih := ih hn.2 h
      rw [del, List.filter_cons_of_pos (by simp [he])]
      exact (ih.cons e).trans (List.Perm.swap _ _ _)

theorem keys_putAll {κ ν : Type} [DecidableEq κ] (l : List (κ × ν)) (t : Table κ ν) (k : κ) : k ∈ (putAll t l).map (·.1) ↔ k ∈ t.map (·.1) ∨ k ∈ l.map (·.1) := by
  induction l generalizing t with
  | nil => simp [putAll]
  | cons e l ih =>
    have h1 : putAll t (e :: l) = putAll (put t e.1 e.2) l := rfl
    have h2 : k ∈ (put t e.1 e.2).map (·.1) ↔ k = e.1 ∨ k ∈ t.map (·.1) := by
      rw [put, List.map_cons, List.mem_cons]
      constructor
      · rintro (h | h)
        · exact Or.inl h
        · obtain ⟨x, hx, rfl⟩ := List.mem_map.1 h
          exact Or.inr (List.mem_map.2 ⟨x, ((mem_del _ _ _).1 hx).1, rfl⟩)
      · rintro (h | h)
        · exact Or.inl h
        · by_cases hk : k = e.1
          · exact Or.inl hk
          · obtain ⟨x, hx, rfl⟩ := List.mem_map.1 h
            exact Or.inr (List.mem_map.2 ⟨x, (mem_del _ _ _).2 ⟨hx, decide_eq_false hk⟩, rfl⟩)
    rw [h1, ih, h2, List.map_cons, List.mem_cons]
    constructor
    · rintro ((h | h) | h)
      · exact Or.inr (Or.inl h)
      · exact Or.inl h
      · exact Or.inr (Or.inr h)
    · rintro (h | h | h)
      · exact Or.inl (Or.inr h)
      · exact Or.inl (Or.inl h)
      · exact Or.inr h

theorem keys_validatorMap (l : List (Peer × Nat)) (p : Peer) : p ∈ (validatorMap l).map (·.1) ↔ p ∈ l.map (·.1) := by
  have := keys_putAll l ([] : Table Peer Nat) p
  rw [List.map_nil] at this
  exact this.trans ⟨fun h => h.resolve_left (by simp), Or.inr⟩

/-- C40: what `new` makes of a list of validators, if their total weight is positive and below half of the range of `u64`. -/
theorem newCfg_ok {validators : List (Peer × Nat)} {own : Peer} {verify : Peer → BlockId → Sig → Bool} {sign : BlockId → Sig} {seqno : BlockId → Nat} {keep slots maxSeqno : Nat} {c : Cfg}
    (h : newCfg validators own verify sign seqno keep slots maxSeqno = some c) (hq : ∀ b, seqno b ≤ maxSeqno)
    (hpos : 0 < ((validatorMap validators).map (·.2)).sum) (hsmall : ((validatorMap validators).map (·.2)).sum * 2 ≤ u64Max) :
    CfgOk c ∧ c.own = own ∧ ∀ p, p ∈ c.own :: c.peers ↔ p ∈ validators.map (·.1) := by
  unfold newCfg at h
  dsimp only at h
  split at h
  · cases h
  · split at h
    · cases h
    · next w hw =>
      simp only [Option.some.injEq] at h
      have hu := uniq_validatorMap validators
      have hp := perm_del _ hu hw
      have hkeys : (own :: (del (validatorMap validators) (fun p => decide (p = own))).map (·.1)).Perm ((validatorMap validators).map (·.1)) := by
        have := (hp.map (·.1)).symm
        exact this
      have hwt : ∀ p ∈ (validatorMap validators).map (·.1), weightOf c p = (get (validatorMap validators) p).getD 0 := by
        intro p _
        rw [← h, weightOf]
        by_cases hpo : p = own
        · rw [if_pos hpo, hpo, hw]; rfl
        · rw [if_neg hpo]
      have htot : totalWeight c = ((validatorMap validators).map (·.2)).sum := by
        rw [totalWeight]
        have e1 : (c.own :: c.peers) = own :: (del (validatorMap validators) (fun p => decide (p = own))).map (·.1) := by rw [← h]
        rw [e1, (hkeys.map _).sum_eq, List.map_map]
        congr 1
        apply List.map_congr_left
        intro e he
        show weightOf c e.1 = e.2
        rw [hwt e.1 (List.mem_map.2 ⟨e, he, rfl⟩), get_of_mem _ hu e.1 e.2 he]; rfl
      refine ⟨⟨?_, ?_, ?_, ?_, ?_⟩, ?_, ?_⟩
      · rw [← h]; exact hkeys.nodup_iff.2 hu
      · rw [htot, ← h]
      · rw [htot]; exact hpos
      · rw [htot]; exact hsmall
      · rw [← h]; exact hq
      · rw [← h]
      · intro p
        have e1 : (c.own :: c.peers) = own :: (del (validatorMap validators) (fun p => decide (p = own))).map (·.1) := by rw [← h]
        rw [e1, hkeys.mem_iff]
        exact keys_validatorMap validators p

end Tycho.Validator
