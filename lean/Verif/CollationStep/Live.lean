import Verif.CollationStep.Props

namespace Tycho.CollationStep
open Tycho.Table

/-- `effMax` for fixed intervals. -/
def effMaxOf (minI maxI : Nat) : Nat := if maxI = 0 then minI else maxI

/-! ## Monotonicity -/

theorem hasExt_snoc {l : List Ev} {e : Ev}
    (h : ∀ b, e.block = some b → ∀ p ∈ l, ∀ x, p.block = some x →
      x.prevMc ≤ b.prevMc ∧ (x.prevMc < b.prevMc → x.ext = false))
    (hx : HasExt l) : HasExt (l ++ [e]) := by
  obtain ⟨p, hp, x, hpx, hxe, hm⟩ := hx
  refine ⟨p, by simp [hp], x, hpx, hxe, fun q hq y hy => ?_⟩
  rcases List.mem_append.mp hq with hq | hq
  · exact hm q hq y hy
  · simp only [List.mem_singleton] at hq; subst hq
    obtain ⟨h1, h2⟩ := h y hy p hp x hpx
    by_cases hlt : x.prevMc < y.prevMc
    · rw [h2 hlt] at hxe; cases hxe
    · omega

theorem ordered_snoc {l : List Ev} {e : Ev} (ho : Ordered l)
    (h : ∀ b, e.block = some b → ∀ p ∈ l, ∀ x, p.block = some x → x.prevMc ≤ b.prevMc) :
    Ordered (l ++ [e]) := by
  refine List.pairwise_append.mpr ⟨ho, by simp, ?_⟩
  intro p hp q hq x y hx hy
  simp only [List.mem_singleton] at hq; subst hq
  exact h y hy p hp x hx

theorem ordered_filter {l : List Ev} (f) (ho : Ordered l) : Ordered (l.filter f) := List.Pairwise.filter _ ho

theorem someExt_push {s active sid c} (h : NoOldExt s sid c) (hx : SomeExt s active) :
    SomeExt (push s sid c) active := by
  obtain ⟨k, h1, h2, h3⟩ := hx
  refine ⟨k, h1, h2, ?_⟩
  rw [stateOf_push]
  by_cases hk : k = sid
  · subst hk
    rw [if_pos rfl]
    exact hasExt_snoc (fun b hb p hp x hpx => h b hb p hp x hpx) h3
  · rw [if_neg hk]; exact h3

/-- A waiting shard that agreed still agrees after the report of another one. -/
theorem agrees_push {s active sid c minI maxI k} (hmm : minI ≤ maxI) (h : NoOldExt s sid c)
    (hk : k ≠ sid) (hr : (stateOf s k).status = .ready)
    (ha : Agrees s (SomeExt s active) minI maxI k k) :
    Agrees (push s sid c) (SomeExt (push s sid c) active) minI maxI k k := by
  have e : stateOf (push s sid c) k = stateOf s k := by rw [stateOf_push, if_neg hk]
  unfold Agrees at ha ⊢
  dsimp only at ha ⊢
  rw [e]
  rcases ha with h1 | ⟨h1, h2⟩ | ⟨h1, h2, h3⟩ | ⟨h1, h2, h3⟩
  · exact .inl h1
  · refine .inr (.inl ⟨?_, h2⟩)
    simp [push, h1]
  · refine .inr (.inr (.inl ⟨?_, h2, h3⟩))
    rcases h1 with h1 | h1
    · exact .inl (someExt_push h h1)
    · right
      simp only [push]
      split
      · simp
      · exact h1
  · by_cases hx : SomeExt (push s sid c) active ∨ (push s sid c).noPending ≠ none
    · obtain ⟨q, hq, hb⟩ := h3
      exact .inr (.inr (.inl ⟨hx, .inl rfl, q, hq, Nat.le_trans hmm hb⟩))
    · rw [not_or] at hx
      exact .inr (.inr (.inr ⟨hx.1, by simpa using hx.2, h3⟩))

/-- Only the reports, the flags, the chain time and the status of the shard itself matter. -/
theorem agrees_congr {s s' : Sync} {active minI maxI cur k}
    (he : ∀ j, (stateOf s' j).events = (stateOf s j).events)
    (h1 : s'.hard = s.hard) (h2 : s'.noPending = s.noPending) (h3 : s'.latest = s.latest)
    (h : Agrees s (SomeExt s active) minI maxI cur k) :
    Agrees s' (SomeExt s' active) minI maxI k k := by
  have hx : SomeExt s' active ↔ SomeExt s active := by simp only [SomeExt, he]
  unfold Agrees at h ⊢
  dsimp only at h ⊢
  rw [hx, he, h1, h2, h3]
  rcases h with h | h | ⟨a, _, b⟩ | h
  · exact .inl h
  · exact .inr (.inl h)
  · exact .inr (.inr (.inl ⟨a, .inl rfl, b⟩))
  · exact .inr (.inr (.inr h))

/-! ## The invariant -/

structure Inv (active : List Sid) (minI maxI : Nat) (s : Sync) : Prop where
  ord : AllOrdered s
  uniq : Uniq s.states
  keys : ∀ e ∈ s.states, e.1 ∈ active
  idleMc : (stateOf s mc).events = [] → (stateOf s mc).status = .attempts
  shardSt : ∀ k, k ≠ mc → (stateOf s k).status ≠ .waitShard
  mcSt : (stateOf s mc).status ≠ .waitMaster
  waits : ∀ k, (stateOf s k).status = .waitMaster → (stateOf s mc).events = []
  agree : ∀ k ∈ active, (stateOf s k).status = .ready →
    Agrees s (SomeExt s active) minI (effMaxOf minI maxI) k k
  live : AtWork s active

theorem stateOf_init (k) : stateOf init k = {} := rfl

theorem inv_init {active minI maxI} (hmc : mc ∈ active) : Inv active minI maxI init := by
  refine ⟨fun k => ?_, uniq_nil, by simp [init], fun _ => rfl, ?_, ?_, ?_, ?_, ⟨mc, hmc, rfl⟩⟩
  · rw [stateOf_init]; exact List.Pairwise.nil
  all_goals simp [stateOf_init]

theorem map_keys (l : Tycho.Table.Table Sid CState) (f : Sid → CState → CState) :
    (l.map (fun e => (e.1, f e.1 e.2))).map (·.1) = l.map (·.1) := by
  rw [List.map_map]; rfl

theorem inv_all_attempts {active minI maxI s} (hmc : mc ∈ active) (ho : AllOrdered s)
    (hu : Uniq s.states) (hk : ∀ e ∈ s.states, e.1 ∈ active)
    (ha : ∀ k, (stateOf s k).status = .attempts) : Inv active minI maxI s := by
  refine ⟨ho, hu, hk, fun _ => ha mc, fun k _ => ?_, ?_, fun k h => ?_, fun k _ h => ?_, ⟨mc, hmc, ha mc⟩⟩
  · rw [ha k]; simp
  · rw [ha mc]; simp
  · rw [ha k] at h; cases h
  · rw [ha k] at h; cases h

theorem inv_resync {active minI maxI s} (t) (hmc : mc ∈ active) (h : Inv active minI maxI s) :
    Inv active minI maxI (resync s t) := by
  have hkeys : (resync s t).states.map (·.1) = s.states.map (·.1) := by
    unfold resync mapStates
    cases t with
    | none => exact map_keys _ (fun _ v => { v with status := .attempts })
    | some t =>
      show ((s.states.map _).map _).map _ = _
      rw [map_keys _ (fun _ v => { v with status := .attempts })]
      exact map_keys _ (fun _ v => { v with events := v.events.filter (fun e => t < e.ct) })
  refine inv_all_attempts hmc (fun k => ?_) ?_ ?_ (fun k => by rw [stateOf_resync])
  · rw [stateOf_resync]
    cases t with
    | none => exact h.ord k
    | some t => exact ordered_filter _ (h.ord k)
  · unfold Uniq; rw [hkeys]; exact h.uniq
  · intro e he
    have : e.1 ∈ (resync s t).states.map (·.1) := List.mem_map_of_mem he
    rw [hkeys] at this
    obtain ⟨x, hx, hxe⟩ := List.mem_map.mp this
    rw [← hxe]; exact h.keys x hx

theorem ordered_push {s sid c} (ho : AllOrdered s) (h : NoOldExt s sid c) : AllOrdered (push s sid c) := by
  intro k
  rw [stateOf_push]
  by_cases hk : k = sid
  · subst hk
    rw [if_pos rfl]
    exact ordered_snoc (ho k) (fun b hb p hp x hx => (h b hb p hp x hx).1)
  · rw [if_neg hk]; exact ho k

theorem keys_push {active : List Sid} {s sid c} (hs : sid ∈ active) (hk : ∀ e ∈ s.states, e.1 ∈ active) :
    ∀ e ∈ (push s sid c).states, e.1 ∈ active := by
  intro e he
  simp only [push, put, List.mem_cons] at he
  rcases he with rfl | he
  · exact hs
  · exact hk e ((mem_del _ _ _).mp he).1

theorem inv_report {active minI maxI s sid c} (hmc : mc ∈ active) (hs : sid ∈ active)
    (hmm : minI ≤ effMaxOf minI maxI) (hI : Inv active minI maxI s)
    (h1 : c.minInt = minI) (h2 : c.maxInt = maxI) (hn : NoOldExt s sid c) :
    Inv active minI maxI (detect s active sid c).1 := by
  have he2 : effMax c = effMaxOf minI maxI := by unfold effMax effMaxOf; rw [h1, h2]
  have ho := ordered_push hI.ord hn
  have hu : Uniq (push s sid c).states := uniq_put _ _ _ hI.uniq
  have hk := keys_push (c := c) hs hI.keys
  by_cases hall : ∀ k ∈ active, (candidate (push s sid c) active c.minInt (effMax c) sid k).isSome = true
  · -- a master block is collated
    rw [detect_collate hs hall]
    generalize (((active.map (candidate (push s sid c) active c.minInt (effMax c) sid)).filterMap id).foldr max 0) = t
    have hkeys : (collateAt (push s sid c) t).states.map (·.1) = (push s sid c).states.map (·.1) := by
      simp only [collateAt, renew, mapStates, List.map_map]
      rfl
    refine inv_all_attempts hmc (fun k => ?_) ?_ ?_ (fun k => by rw [stateOf_collateAt])
    · rw [stateOf_collateAt]
      by_cases hm : k = mc
      · rw [if_pos hm]; exact List.Pairwise.nil
      · rw [if_neg hm]; exact ordered_filter _ (ho k)
    · unfold Uniq; rw [hkeys]; exact hu
    · intro e he
      have : e.1 ∈ (collateAt (push s sid c) t).states.map (·.1) := List.mem_map_of_mem he
      rw [hkeys] at this
      obtain ⟨x, hx, hxe⟩ := List.mem_map.mp this
      rw [← hxe]; exact hk x hx
  · rw [detect_goOn hs hall]
    generalize hbc : (candidate (push s sid c) active c.minInt (effMax c) sid sid).isSome = bc
    generalize hme : (sid == mc || (!(stateOf s mc).events.isEmpty)) = me
    have hso : ∀ j, j ≠ sid → stateOf (push s sid c) j = stateOf s j := fun j hj => by
      rw [stateOf_push, if_neg hj]
    -- the states afterwards
    have hev : ∀ j, (stateOf (goOn (push s sid c) sid bc me).1 j).events = (stateOf (push s sid c) j).events := by
      intro j
      rw [stateOf_goOn]
      by_cases hj : j = sid
      · subst hj; simp only [if_true]; split <;> rfl
      · simp only [if_neg hj]; split <;> rfl
    have hother : ∀ j, j ≠ sid → (stateOf (goOn (push s sid c) sid bc me).1 j).status =
        if wakes sid (stateOf s j).status then .attempts else (stateOf s j).status := by
      intro j hj
      rw [stateOf_goOn]
      simp only [if_neg hj, hso j hj]
      split <;> rfl
    have hcur : (stateOf (goOn (push s sid c) sid bc me).1 sid).status =
        newStatus bc me (sid == mc) (othersReady (push s sid c) sid) ∨
        (stateOf (goOn (push s sid c) sid bc me).1 sid).status = .attempts := by
      rw [stateOf_goOn]
      simp only [if_true]
      split
      · exact .inr rfl
      · exact .inl rfl
    have hflags : (goOn (push s sid c) sid bc me).1.hard = (push s sid c).hard ∧
        (goOn (push s sid c) sid bc me).1.noPending = (push s sid c).noPending ∧
        (goOn (push s sid c) sid bc me).1.latest = (push s sid c).latest := ⟨rfl, rfl, rfl⟩
    have hkeys : (goOn (push s sid c) sid bc me).1.states.map (·.1) =
        (setStatus (push s sid c) sid (newStatus bc me (sid == mc) (othersReady (push s sid c) sid))).states.map (·.1) := by
      unfold goOn mapStates
      exact map_keys _ (fun _ v => if wakes sid v.status then { v with status := .attempts } else v)
    have hwk : ∀ st, wakes sid st = true ↔
        (sid = mc ∧ st = .waitMaster) ∨ (sid ≠ mc ∧ st = .waitShard) := by
      intro st; simp [wakes]
    have hme' : sid ≠ mc → me = false → (stateOf s mc).events = [] := by
      intro h h'
      rw [← hme] at h'
      simp only [Bool.or_eq_false_iff] at h'
      simpa using h'.2
    have hmet : sid = mc → me = true := by intro h; rw [← hme]; simp [h]
    have hpe : (stateOf (push s sid c) sid).events ≠ [] := by
      rw [stateOf_push, if_pos rfl]; simp
    refine ⟨?_, ?_, ?_, ?_, ?_, ?_, ?_, ?_, ?_⟩
    · intro j; rw [hev]; exact ho j
    · unfold Uniq; rw [hkeys]; exact uniq_put _ _ _ hu
    · intro e he
      have : e.1 ∈ (goOn (push s sid c) sid bc me).1.states.map (·.1) := List.mem_map_of_mem he
      rw [hkeys] at this
      obtain ⟨x, hx, hxe⟩ := List.mem_map.mp this
      rw [← hxe]
      simp only [setStatus, put, List.mem_cons] at hx
      rcases hx with rfl | hx
      · exact hs
      · exact hk x ((mem_del _ _ _).mp hx).1
    · intro h
      rw [hev] at h
      by_cases hm : mc = sid
      · rw [hm] at h; exact absurd h hpe
      · rw [hso mc hm] at h
        rw [hother mc hm, hI.idleMc h]
        split <;> rfl
    · intro j hj
      by_cases hjs : j = sid
      · subst hjs
        have hf : (j == mc) = false := by simpa using hj
        rcases hcur with h | h
        · rw [h, hf]
          unfold newStatus
          cases bc <;> cases me <;> simp
        · rw [h]; simp
      · rw [hother j hjs]
        split
        · simp
        · exact hI.shardSt j hj
    · by_cases hm : mc = sid
      · rw [hm]
        rcases hcur with h | h
        · rw [h, hmet hm.symm]
          unfold newStatus
          cases bc <;> cases (sid == mc) <;> cases othersReady (push s sid c) sid <;> simp
        · rw [h]; simp
      · rw [hother mc hm]
        split
        · simp
        · exact hI.mcSt
    · intro j hj
      rw [hev]
      by_cases hjs : j = sid
      · subst hjs
        have hns : newStatus bc me (j == mc) (othersReady (push s j c) j) = .waitMaster := by
          rcases hcur with h | h
          · rw [← h]; exact hj
          · rw [h] at hj; cases hj
        have hmf : me = false := by
          cases me with
          | false => rfl
          | true =>
            generalize (j == mc) = q, othersReady (push s j c) j = r at hns
            unfold newStatus at hns
            cases bc <;> cases q <;> cases r <;> simp at hns
        have hjm : j ≠ mc := by
          intro h; rw [hmet h] at hmf; cases hmf
        rw [hso mc (fun h => hjm h.symm)]
        exact hme' hjm hmf
      · rw [hother j hjs] at hj
        by_cases hw : wakes sid (stateOf s j).status = true
        · rw [if_pos hw] at hj; cases hj
        · rw [if_neg hw] at hj
          have hsm : sid ≠ mc := by
            intro h
            exact hw ((hwk _).mpr (.inl ⟨h, hj⟩))
          rw [hso mc (fun h => hsm h.symm)]
          exact hI.waits j hj
    · intro j hja hj
      by_cases hjs : j = sid
      · subst hjs
        have hb : bc = true := by
          rcases hcur with h | h
          · rw [h] at hj
            unfold newStatus at hj
            cases hbb : bc with
            | true => rfl
            | false =>
              rw [hbb] at hj
              cases hmm' : me <;> cases hh : (j == mc) <;> cases ho' : othersReady (push s j c) j <;>
                simp [hmm', hh, ho'] at hj
          · rw [h] at hj; cases hj
        rw [hb] at hbc
        have ha := (candidate_isSome (active := active) ho).mp hbc
        rw [h1, he2] at ha
        exact agrees_congr hev hflags.1 hflags.2.1 hflags.2.2 ha
      · rw [hother j hjs] at hj
        have hj' : (stateOf s j).status = .ready := by
          split at hj
          · cases hj
          · exact hj
        have ha := agrees_push (active := active) hmm hn hjs hj' (hI.agree j hja hj')
        exact agrees_congr hev hflags.1 hflags.2.1 hflags.2.2 ha
    · -- somebody is at work
      have hwork : ∀ j, j ∈ active → j ≠ sid →
          ((stateOf s j).status = .attempts ∨ wakes sid (stateOf s j).status = true) →
          AtWork (goOn (push s sid c) sid bc me).1 active := by
        intro j hja hjs h
        refine ⟨j, hja, ?_⟩
        rw [hother j hjs]
        rcases h with h | h
        · rw [h]; split <;> rfl
        · rw [if_pos h]
      rcases hcur with hst | hst
      swap
      · exact ⟨sid, hs, hst⟩
      cases hbb : bc with
      | false =>
        subst hbb
        cases hmm' : me with
        | false =>
          subst hmm'
          have hsm : sid ≠ mc := fun h => by have := hmet h; cases this
          have := hI.idleMc (hme' hsm rfl)
          exact hwork mc hmc (fun h => hsm h.symm) (.inl this)
        | true =>
          subst hmm'
          by_cases hsm : sid = mc
          · cases hor : othersReady (push s sid c) sid with
            | true =>
              refine ⟨sid, hs, ?_⟩
              rw [hst, hor]; simp [newStatus]
            | false =>
              have : ∃ e ∈ (push s sid c).states, e.1 ≠ sid ∧ e.2.status ≠ .ready := by
                unfold othersReady at hor
                rw [List.all_eq_false] at hor
                obtain ⟨e, he, hb⟩ := hor
                refine ⟨e, he, ?_⟩
                simpa using hb
              obtain ⟨⟨j, v⟩, he, hj, hv⟩ := this
              have hst' : stateOf (push s sid c) j = v := by
                unfold stateOf; rw [get_of_mem _ hu _ _ he]; rfl
              rw [hso j hj] at hst'
              refine hwork j (hk _ he) hj ?_
              rw [hst']
              have hjm : j ≠ mc := by rw [← hsm]; exact hj
              have h3 := hI.shardSt j hjm
              rw [hst'] at h3
              cases hvs : v.status with
              | attempts => exact .inl rfl
              | waitMaster => exact .inr ((hwk _).mpr (.inl ⟨hsm, rfl⟩))
              | waitShard => exact absurd hvs h3
              | ready => exact absurd hvs hv
          · refine ⟨sid, hs, ?_⟩
            have hf : (sid == mc) = false := by simpa using hsm
            rw [hst, hf]; simp [newStatus]
      | true =>
        subst hbb
        -- the reporting shard agrees, so another one does not
        have : ∃ j ∈ active, ¬ (candidate (push s sid c) active c.minInt (effMax c) sid j).isSome = true := by
          by_contra hne
          apply hall
          intro j hj
          by_contra hc
          exact hne ⟨j, hj, hc⟩
        obtain ⟨j, hja, hjc⟩ := this
        have hjs : j ≠ sid := by
          rintro rfl
          rw [hbc] at hjc
          exact hjc rfl
        rw [candidate_isSome ho, h1, he2] at hjc
        cases hjst : (stateOf s j).status with
        | attempts => exact hwork j hja hjs (.inl hjst)
        | waitMaster =>
          by_cases hsm : sid = mc
          · exact hwork j hja hjs (.inr ((hwk _).mpr (.inl ⟨hsm, hjst⟩)))
          · exact hwork mc hmc (fun h => hsm h.symm) (.inl (hI.idleMc (hI.waits j hjst)))
        | waitShard =>
          have hjm : j = mc := by
            by_contra h
            exact hI.shardSt j h hjst
          exact hwork j hja hjs
            (.inr ((hwk _).mpr (.inr ⟨fun h => hjs (hjm.trans h.symm), hjst⟩)))
        | ready =>
          exfalso
          apply hjc
          have ha := agrees_push (active := active) hmm hn hjs hjst (hI.agree j hja hjst)
          unfold Agrees at ha ⊢
          dsimp only at ha ⊢
          rw [hso j hjs] at ha ⊢
          rcases ha with h | h | ⟨a, _, b⟩ | h
          · exact .inl h
          · exact .inr (.inl h)
          · exact .inr (.inr (.inl ⟨a, .inr (by rw [hjst]; simp), b⟩))
          · exact .inr (.inr (.inr h))

theorem hist_inv {active : List Sid} {minI maxI : Nat} {s : Sync} (hmc : mc ∈ active)
    (hmm : maxI = 0 ∨ minI ≤ maxI) (h : Hist active minI maxI NoOldExt s) : Inv active minI maxI s := by
  have hm : minI ≤ effMaxOf minI maxI := by unfold effMaxOf; split <;> omega
  induction h with
  | init => exact inv_init hmc
  | report _ hs _ h1 h2 hn ih => exact inv_report hmc hs hm ih h1 h2 hn
  | sync t _ ih => exact inv_resync t hmc ih

/-- **The collators never all wait for each other: after any history of reports and syncs one of the
active collators is at work - provided the maximal interval is not below the minimal one and no shard
reports a block on a newer master block while an older report of a block with external messages is
still remembered.** -/
theorem never_stuck {active : List Sid} {minI maxI : Nat} {s : Sync} (hmc : mc ∈ active)
    (hmm : maxI = 0 ∨ minI ≤ maxI) (h : Hist active minI maxI NoOldExt s) : AtWork s active :=
  (hist_inv hmc hmm h).live

/-- **A shard which is ready for a master block stays ready until it is collated.** -/
theorem ready_agrees {active : List Sid} {minI maxI : Nat} {s : Sync} (hmc : mc ∈ active)
    (hmm : maxI = 0 ∨ minI ≤ maxI) (h : Hist active minI maxI NoOldExt s) {k : Sid} (hk : k ∈ active)
    (hr : (stateOf s k).status = .ready) :
    Agrees s (SomeExt s active) minI (if maxI = 0 then minI else maxI) k k :=
  (hist_inv hmc hmm h).agree k hk hr

/-- **A shard waits for the master only as long as the master has not reported since the last master
block, and then the master is at work.** -/
theorem waits_for_working_master {active : List Sid} {minI maxI : Nat} {s : Sync} (hmc : mc ∈ active)
    (hmm : maxI = 0 ∨ minI ≤ maxI) (h : Hist active minI maxI NoOldExt s) {k : Sid}
    (hw : (stateOf s k).status = .waitMaster) :
    k ≠ mc ∧ (stateOf s mc).events = [] ∧ (stateOf s mc).status = .attempts := by
  have i := hist_inv hmc hmm h
  refine ⟨?_, i.waits k hw, i.idleMc (i.waits k hw)⟩
  rintro rfl
  exact i.mcSt hw

/-- **If all the other shards are ready, then the report of the last one with which it agrees brings
the master block.** -/
theorem last_one_collates {active : List Sid} {minI maxI : Nat} {s : Sync} (hmc : mc ∈ active)
    (hmm : maxI = 0 ∨ minI ≤ maxI) (h : Hist active minI maxI NoOldExt s) {sid : Sid} (hs : sid ∈ active)
    {c : Ctx} (h1 : c.minInt = minI) (h2 : c.maxInt = maxI) (hn : NoOldExt s sid c)
    (hr : ∀ k ∈ active, k ≠ sid → (stateOf s k).status = .ready)
    (ha : Agrees (push s sid c) (SomeExt (push s sid c) active) c.minInt (effMax c) sid sid) :
    ∃ t, (detect s active sid c).2 = .collate t := by
  have i := hist_inv hmc hmm h
  have he2 : effMax c = effMaxOf minI maxI := by unfold effMax effMaxOf; rw [h1, h2]
  have hm : minI ≤ effMaxOf minI maxI := by unfold effMaxOf; split <;> omega
  rw [collates_iff hs (ordered_push i.ord hn)]
  intro k hk
  by_cases hks : k = sid
  · rw [hks]; exact ha
  · have hst := hr k hk hks
    have hag := agrees_push (active := active) hm hn hks hst (i.agree k hk hst)
    have hso : stateOf (push s sid c) k = stateOf s k := by rw [stateOf_push, if_neg hks]
    rw [h1, he2]
    unfold Agrees at hag ⊢
    dsimp only at hag ⊢
    rw [hso] at hag ⊢
    rcases hag with h | h | ⟨a, _, b⟩ | h
    · exact .inl h
    · exact .inr (.inl h)
    · exact .inr (.inr (.inl ⟨a, .inr (by rw [hst]; simp), b⟩))
    · exact .inr (.inr (.inr h))

end Tycho.CollationStep
