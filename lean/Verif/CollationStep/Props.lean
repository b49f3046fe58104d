import Verif.CollationStep.Lemmas

namespace Tycho.CollationStep
open Tycho.Table

/-! ## When a master block is collated -/

theorem next_cases {b : Bool} {d : Prop} [Decidable d] {l x}
    (h : (if b = true then (if d then Next.waitForShardStatus else .waitForMasterStatus) else .resume l) = x) :
    (b = true ∧ (x = .waitForShardStatus ∨ x = .waitForMasterStatus)) ∨ (b = false ∧ x = .resume l) := by
  subst h
  cases b with
  | false => right; simp
  | true =>
    left
    by_cases hd : d
    · simp [hd]
    · simp [hd]

theorem goOn_not_collate {s sid bc me t} : (goOn s sid bc me).2 ≠ .collate t := by
  intro h
  unfold goOn at h
  dsimp only at h
  rcases next_cases h with ⟨_, h | h⟩ | ⟨_, h⟩ <;> cases h

theorem detect_collate {s active sid c} (hs : sid ∈ active) :
    (∀ k ∈ active, (candidate (push s sid c) active c.minInt (effMax c) sid k).isSome = true) →
    detect s active sid c =
      (collateAt (push s sid c)
        (((active.map (candidate (push s sid c) active c.minInt (effMax c) sid)).filterMap id).foldr max 0),
       .collate (((active.map (candidate (push s sid c) active c.minInt (effMax c) sid)).filterMap id).foldr max 0)) := by
  intro h
  unfold detect
  dsimp only
  rw [if_pos]
  simp only [Bool.and_eq_true, List.all_eq_true, List.mem_map, Bool.not_eq_true', List.isEmpty_eq_false_iff]
  refine ⟨?_, ?_⟩
  · intro e
    simp only [List.map_eq_nil_iff] at e
    rw [e] at hs; cases hs
  · rintro x ⟨k, hk, rfl⟩
    exact h k hk

theorem detect_goOn {s active sid c} (hs : sid ∈ active)
    (h : ¬ ∀ k ∈ active, (candidate (push s sid c) active c.minInt (effMax c) sid k).isSome = true) :
    detect s active sid c = goOn (push s sid c) sid
      ((candidate (push s sid c) active c.minInt (effMax c) sid sid).isSome)
      (sid == mc || (!(stateOf s mc).events.isEmpty)) := by
  unfold detect
  dsimp only
  rw [if_neg]
  · congr 1
    rw [Bool.eq_iff_iff]
    simp only [List.any_eq_true, Bool.and_eq_true, beq_iff_eq]
    constructor
    · rintro ⟨k, _, rfl, h⟩; exact h
    · intro h; exact ⟨sid, hs, rfl, h⟩
  · intro hh
    simp only [Bool.and_eq_true, List.all_eq_true, List.mem_map] at hh
    exact h (fun k hk => hh.2 _ ⟨k, hk, rfl⟩)

/-- **After a report a master block is collated exactly if every active shard agrees.** -/
theorem collates_iff {s : Sync} {active : List Sid} {sid : Sid} {c : Ctx} (hs : sid ∈ active)
    (ho : AllOrdered (push s sid c)) :
    (∃ t, (detect s active sid c).2 = .collate t) ↔
      ∀ k ∈ active, Agrees (push s sid c) (SomeExt (push s sid c) active) c.minInt (effMax c) sid k := by
  have hc := fun k => candidate_isSome (active := active) (a := c.minInt) (b := effMax c) (cur := sid) (sid := k) ho
  simp only [← hc]
  constructor
  · rintro ⟨t, ht⟩
    by_contra h
    rw [detect_goOn hs h] at ht
    exact goOn_not_collate ht
  · intro h
    rw [detect_collate hs h]
    exact ⟨_, rfl⟩

theorem foldr_max_mem : ∀ (l : List Nat), l ≠ [] → l.foldr max 0 ∈ l
  | [], h => absurd rfl h
  | [a], _ => by simp
  | a :: b :: l, _ => by
    have ih := foldr_max_mem (b :: l) (by simp)
    rw [List.foldr_cons]
    rcases Nat.le_total a ((b :: l).foldr max 0) with h | h
    · rw [Nat.max_eq_right h]; exact List.mem_cons_of_mem _ ih
    · rw [Nat.max_eq_left h]; simp

theorem le_foldr_max : ∀ (l : List Nat) {a}, a ∈ l → a ≤ l.foldr max 0
  | b :: l, a, h => by
    rw [List.foldr_cons]
    rcases List.mem_cons.mp h with rfl | h
    · exact Nat.le_max_left _ _
    · exact Nat.le_trans (le_foldr_max l h) (Nat.le_max_right _ _)

/-- What the answer "collate at `t`" is: everybody has a candidate and `t` is the largest. -/
theorem collate_inv {s active sid c t} (hs : sid ∈ active)
    (h : (detect s active sid c).2 = .collate t) :
    (detect s active sid c).1 = collateAt (push s sid c) t ∧
    (∀ k ∈ active, ∃ x, candidate (push s sid c) active c.minInt (effMax c) sid k = some x ∧ x ≤ t) ∧
    ∃ k ∈ active, candidate (push s sid c) active c.minInt (effMax c) sid k = some t := by
  have hall : ∀ k ∈ active, (candidate (push s sid c) active c.minInt (effMax c) sid k).isSome = true := by
    by_contra hn
    rw [detect_goOn hs hn] at h
    exact goOn_not_collate h
  rw [detect_collate hs hall] at h ⊢
  simp only [Next.collate.injEq] at h
  refine ⟨by rw [h], ?_, ?_⟩
  · intro k hk
    obtain ⟨x, hx⟩ := Option.isSome_iff_exists.mp (hall k hk)
    refine ⟨x, hx, ?_⟩
    rw [← h]
    apply le_foldr_max
    simp only [List.mem_filterMap, List.mem_map, id]
    exact ⟨_, ⟨k, hk, rfl⟩, hx⟩
  · have hne : ((active.map (candidate (push s sid c) active c.minInt (effMax c) sid)).filterMap id) ≠ [] := by
      obtain ⟨x, hx⟩ := Option.isSome_iff_exists.mp (hall sid hs)
      intro e
      have : x ∈ ((active.map (candidate (push s sid c) active c.minInt (effMax c) sid)).filterMap id) := by
        simp only [List.mem_filterMap, List.mem_map, id]
        exact ⟨_, ⟨sid, hs, rfl⟩, hx⟩
      rw [e] at this; cases this
    have := foldr_max_mem _ hne
    rw [h] at this
    simp only [List.mem_filterMap, List.mem_map, id] at this
    obtain ⟨_, ⟨k, hk, rfl⟩, hx⟩ := this
    exact ⟨k, hk, hx⟩

theorem choose_cases {cur st f np any hard t} (h : choose cur st f np any hard = some t) :
    f.forced = some t ∨ (hard = true ∧ f.first = some t) ∨
    ((any = true ∨ np ≠ none) ∧ ∃ m, f.min = some m ∧
      t = np.elim m (fun p => Nat.max m p)) ∨
    (any = false ∧ np = none ∧ f.max = some t) := by
  unfold choose at h
  cases hf : f.forced with
  | some x => rw [hf] at h; simp at h; simp [h]
  | none =>
    rw [hf] at h
    cases hh : (if hard = true then f.first else none) with
    | some x =>
      rw [hh] at h
      have hd : hard = true := by
        cases hard with
        | true => rfl
        | false => simp at hh
      simp [hd] at hh h
      simp [hd, hh, h]
    | none =>
      rw [hh] at h
      cases hm : f.min <;> cases hx : f.max <;> cases np <;> cases any <;> cases cur <;> cases st <;>
        simp_all

/-- The chain time of a candidate: that of a report, or the one noted when messages ran out. -/
theorem candidate_time {s active a b cur k t}
    (h : candidate s active a b cur k = some t) :
    (∃ e ∈ (stateOf s k).events, e.ct = t) ∨
      (s.noPending = some t ∧ ∃ e ∈ (stateOf s k).events, e.ct ≤ t) := by
  unfold candidate at h
  rcases choose_cases h with h | ⟨_, h⟩ | ⟨_, m, hm, ht⟩ | ⟨_, _, h⟩
  · obtain ⟨e, he, _, h⟩ := forced_mem _ _ _ _ _ h; exact .inl ⟨e, he, h⟩
  · unfold facts at h
    rw [first_eq] at h
    cases hl : (stateOf s k).events with
    | nil => rw [hl] at h; simp at h
    | cons e l => rw [hl] at h; left; exact ⟨e, by simp, by simpa using h⟩
  · obtain ⟨e, he, h, _⟩ := min_mem _ _ _ _ _ hm
    cases hn : s.noPending with
    | none => rw [hn] at ht; left; exact ⟨e, he, by simp only [Option.elim] at ht; omega⟩
    | some p =>
      rw [hn] at ht
      simp only [Option.elim] at ht
      rcases Nat.le_total m p with x | x
      · right
        have : Nat.max m p = p := Nat.max_eq_right x
        exact ⟨by rw [ht, this], e, he, by omega⟩
      · left
        have : Nat.max m p = m := Nat.max_eq_left x
        exact ⟨e, he, by omega⟩
  · obtain ⟨e, he, h, _⟩ := max_mem _ _ _ _ _ h; exact .inl ⟨e, he, h⟩

/-- **The chain time of the next master block is the time of an anchor some active shard has
reported since the last one, or the time at which a shard ran out of messages.** -/
theorem time_reported {s : Sync} {active : List Sid} {sid : Sid} {c : Ctx} {t : Nat} (hs : sid ∈ active)
    (h : (detect s active sid c).2 = .collate t) :
    (∃ k ∈ active, ∃ e ∈ (stateOf (push s sid c) k).events, e.ct = t) ∨
      (push s sid c).noPending = some t := by
  obtain ⟨_, _, k, hk, hc⟩ := collate_inv hs h
  rcases candidate_time hc with ⟨e, he, h⟩ | ⟨h, _⟩
  · exact .inl ⟨k, hk, e, he, h⟩
  · exact .inr h

/-- **Chain time grows: if the reports of the master collator are of anchors after the last master
block, then so is the next master block.** -/
theorem time_grows {s : Sync} {active : List Sid} {sid : Sid} {c : Ctx} {t : Nat} (hs : sid ∈ active)
    (h : (detect s active sid c).2 = .collate t) {k : Sid} (hk : k ∈ active)
    (hl : ∀ e ∈ (stateOf (push s sid c) k).events, s.latest < e.ct) :
    s.latest < t ∧ (detect s active sid c).1.latest = t := by
  obtain ⟨hst, hall, _⟩ := collate_inv hs h
  obtain ⟨x, hx, hxt⟩ := hall k hk
  have hlt : s.latest < t := by
    rcases candidate_time hx with ⟨e, he, h⟩ | ⟨_, e, he, h⟩
    · have := hl e he; omega
    · have := hl e he; omega
  refine ⟨hlt, ?_⟩
  rw [hst]
  show max s.latest t = t
  omega

/-- **Unless a master block was asked for, the minimal interval has passed since the last one; and
the maximal one, if moreover no shard has a block with external messages on its newest master block
and none has run out of messages.** -/
theorem intervals_kept {s : Sync} {active : List Sid} {sid : Sid} {c : Ctx} {t : Nat} (hs : sid ∈ active)
    (h : (detect s active sid c).2 = .collate t)
    (hf : ∀ k ∈ active, ∀ e ∈ (stateOf (push s sid c) k).events, e.forced = false)
    (hh : (push s sid c).hard = false) :
    (c.minInt ≤ effMax c → c.minInt ≤ t - s.latest) ∧
    (AllOrdered (push s sid c) → ¬ SomeExt (push s sid c) active → (push s sid c).noPending = none →
      effMax c ≤ t - s.latest) := by
  obtain ⟨_, hall, _⟩ := collate_inv hs h
  obtain ⟨x, hx, hxt⟩ := hall sid hs
  have hfn : (facts (push s sid c) c.minInt (effMax c) sid).forced ≠ some x := by
    intro e
    obtain ⟨e, he, hq, _⟩ := forced_mem _ _ _ _ _ e
    rw [hf sid hs e he] at hq; cases hq
  have hlat : (push s sid c).latest = s.latest := rfl
  constructor
  · intro hmm
    rcases choose_cases hx with h | ⟨h, _⟩ | ⟨_, m, hm, ht⟩ | ⟨_, _, h⟩
    · exact absurd h hfn
    · rw [hh] at h; cases h
    · obtain ⟨e, _, _, hb⟩ := min_mem _ _ _ _ _ hm
      rw [hlat] at hb
      have : m ≤ x := by
        rw [ht]
        cases (push s sid c).noPending with
        | none => exact Nat.le_refl _
        | some p => exact Nat.le_max_left _ _
      omega
    · obtain ⟨e, _, _, hb⟩ := max_mem _ _ _ _ _ h
      rw [hlat] at hb; omega
  · intro ho hne hnp
    have hany : anyExt (push s sid c) active c.minInt (effMax c) = false := by
      cases h : anyExt (push s sid c) active c.minInt (effMax c) with
      | false => rfl
      | true => exact absurd ((anyExt_iff ho).mp h) hne
    rcases choose_cases hx with h | ⟨h, _⟩ | ⟨h, _⟩ | ⟨_, _, h⟩
    · exact absurd h hfn
    · rw [hh] at h; cases h
    · rw [hany, hnp] at h; simp at h
    · obtain ⟨e, _, _, hb⟩ := max_mem _ _ _ _ _ h
      rw [hlat] at hb; omega

/-- **Once a master block is to be collated at `t` every collator goes on, the master starts from
scratch, of the reports of the shards exactly those of later anchors stay, and all the requests for
a master block are settled.** -/
theorem after_collate {s : Sync} {active : List Sid} {sid : Sid} {c : Ctx} {t : Nat} (hs : sid ∈ active)
    (h : (detect s active sid c).2 = .collate t) :
    let s' := (detect s active sid c).1
    (∀ k, (stateOf s' k).status = .attempts) ∧ (stateOf s' mc).events = [] ∧
    (∀ k, k ≠ mc → ∀ e, e ∈ (stateOf s' k).events ↔ e ∈ (stateOf (push s sid c) k).events ∧ t < e.ct) ∧
    s'.hard = false ∧ s'.noPending = none ∧ t ≤ s'.latest := by
  obtain ⟨hst, _, _⟩ := collate_inv hs h
  intro s'
  have e : s' = collateAt (push s sid c) t := hst
  rw [e]
  refine ⟨?_, ?_, ?_, rfl, rfl, ?_⟩
  · intro k; rw [stateOf_collateAt]
  · rw [stateOf_collateAt]; simp
  · intro k hk x
    rw [stateOf_collateAt]
    simp [hk]
  · show t ≤ max s.latest t
    omega

/-! ## Who goes on and who waits -/

/-- **The answer names exactly the collators set to work: the reporting one if it goes on, and those
that waited for this report - every shard waiting for the master when the master reports, the master
waiting for the shards when a shard does. All the others stay as they were.** -/
theorem who_goes_on {s : Sync} {active : List Sid} {sid : Sid} {c : Ctx} (hs : sid ∈ active)
    (hu : Uniq s.states) (hn : ∀ t, (detect s active sid c).2 ≠ .collate t) {k : Sid} :
    let s' := (detect s active sid c).1
    ((∃ l, (detect s active sid c).2 = .resume l ∧ k ∈ l) ↔
      (k = sid ∧ (stateOf s' sid).status = .attempts) ∨
      (k ≠ sid ∧ ((sid = mc ∧ (stateOf s k).status = .waitMaster) ∨
        (sid ≠ mc ∧ (stateOf s k).status = .waitShard)))) ∧
    (k ≠ sid → (stateOf s' k).events = (stateOf s k).events ∧
      (stateOf s' k).status = (if (sid = mc ∧ (stateOf s k).status = .waitMaster) ∨
        (sid ≠ mc ∧ (stateOf s k).status = .waitShard) then .attempts else (stateOf s k).status)) := by
  have hcand : ¬ ∀ k ∈ active, (candidate (push s sid c) active c.minInt (effMax c) sid k).isSome = true := by
    intro h; rw [detect_collate hs h] at hn; exact hn _ rfl
  rw [detect_goOn hs hcand]
  generalize (candidate (push s sid c) active c.minInt (effMax c) sid sid).isSome = bc
  generalize hme : (sid == mc || (!(stateOf s mc).events.isEmpty)) = me
  have hwk : ∀ st, wakes sid st = true ↔
      (sid = mc ∧ st = .waitMaster) ∨ (sid ≠ mc ∧ st = .waitShard) := by
    intro st; simp [wakes]
  -- the reporting shard is never woken
  have hns : wakes sid (newStatus bc me (sid == mc) (othersReady (push s sid c) sid)) = false := by
    cases h : wakes sid (newStatus bc me (sid == mc) (othersReady (push s sid c) sid)) with
    | false => rfl
    | true =>
      exfalso
      rw [hwk] at h
      rcases h with ⟨rfl, h⟩ | ⟨h, h'⟩
      · have : me = true := by rw [← hme]; simp
        subst this
        revert h
        cases bc <;> cases othersReady (push s mc c) mc <;> simp [newStatus]
      · revert h'
        have : (sid == mc) = false := by simpa using h
        rw [this]
        cases bc <;> cases me <;> simp [newStatus]
  intro s'
  have hsid : stateOf s' sid = { stateOf (push s sid c) sid with
      status := newStatus bc me (sid == mc) (othersReady (push s sid c) sid) } := by
    show stateOf (goOn _ _ _ _).1 sid = _
    rw [stateOf_goOn]
    simp [hns]
  have hoth : ∀ j, j ≠ sid → stateOf s' j =
      if wakes sid (stateOf s j).status then { stateOf s j with status := .attempts } else stateOf s j := by
    intro j hj
    show stateOf (goOn _ _ _ _).1 j = _
    rw [stateOf_goOn]
    simp [hj, stateOf_push]
  have hu1 : Uniq (setStatus (push s sid c) sid
      (newStatus bc me (sid == mc) (othersReady (push s sid c) sid))).states :=
    uniq_put _ _ _ (uniq_put _ _ _ hu)
  have hw : ∀ j, (∃ v, (j, v) ∈ (setStatus (push s sid c) sid
      (newStatus bc me (sid == mc) (othersReady (push s sid c) sid))).states ∧ wakes sid v.status = true) ↔
      (j ≠ sid ∧ wakes sid (stateOf s j).status = true) := by
    intro j
    constructor
    · rintro ⟨v, hv, hwv⟩
      have hg := get_of_mem _ hu1 _ _ hv
      have hst : stateOf (setStatus (push s sid c) sid
          (newStatus bc me (sid == mc) (othersReady (push s sid c) sid))) j = v := by
        unfold stateOf; rw [hg]; rfl
      rw [stateOf_setStatus] at hst
      by_cases hj : j = sid
      · rw [if_pos hj] at hst
        subst hst
        rw [hns] at hwv; cases hwv
      · rw [if_neg hj, stateOf_push, if_neg hj] at hst
        subst hst
        exact ⟨hj, hwv⟩
    · rintro ⟨hj, hwj⟩
      have hst : stateOf (setStatus (push s sid c) sid
          (newStatus bc me (sid == mc) (othersReady (push s sid c) sid))) j = stateOf s j := by
        rw [stateOf_setStatus, if_neg hj, stateOf_push, if_neg hj]
      cases hg : get (setStatus (push s sid c) sid
          (newStatus bc me (sid == mc) (othersReady (push s sid c) sid))).states j with
      | none =>
        exfalso
        unfold stateOf at hst
        rw [hg] at hst
        have : (stateOf s j).status = .attempts := by unfold stateOf; rw [← hst]; rfl
        rw [this, hwk] at hwj
        simp at hwj
      | some v =>
        refine ⟨v, mem_of_get _ _ _ hg, ?_⟩
        unfold stateOf at hst
        rw [hg] at hst
        have : stateOf s j = v := by unfold stateOf; rw [← hst]; rfl
        rw [← this]; exact hwj
  refine ⟨?_, ?_⟩
  · rw [hsid]
    dsimp only
    rw [← hwk]
    rw [← hw]
    unfold goOn
    dsimp only
    generalize newStatus bc me (sid == mc) (othersReady (push s sid c) sid) = st
    generalize hl : (if st = .attempts then [sid] else []) ++
      ((setStatus (push s sid c) sid st).states.filter (fun e => wakes sid e.2.status)).map (·.1) = l
    have hmem : ∀ j, j ∈ l ↔ (j = sid ∧ st = .attempts) ∨
        ∃ v, (j, v) ∈ (setStatus (push s sid c) sid st).states ∧ wakes sid v.status = true := by
      intro j
      rw [← hl]
      simp only [List.mem_append, List.mem_map, List.mem_filter, Prod.exists, exists_and_right,
        exists_eq_right]
      by_cases h : st = .attempts
      · simp [h]
      · simp [h]
    rw [← hmem k]
    constructor
    · rintro ⟨l', h, hk⟩
      rcases next_cases h with ⟨_, h | h⟩ | ⟨_, h⟩ <;> cases h
      exact hk
    · intro h
      refine ⟨l, ?_, h⟩
      rw [if_neg]
      intro he
      rw [List.isEmpty_iff] at he
      rw [he] at h; cases h
  · intro hk
    rw [hoth k hk]
    have := hwk (stateOf s k).status
    by_cases h : wakes sid (stateOf s k).status = true
    · rw [if_pos h, if_pos (this.mp h)]; exact ⟨rfl, rfl⟩
    · rw [if_neg h, if_neg (fun x => h (this.mpr x))]; exact ⟨rfl, rfl⟩

end Tycho.CollationStep
