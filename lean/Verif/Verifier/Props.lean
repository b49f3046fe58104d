import Verif.Verifier.Facts

/-! Properties of the anchor links, proofs, triggers and times of accepted points. -/
namespace Tycho.Verifier

/-! ### links -/

theorem isStage_iff {p : Info} {s : Stage} : IsStage s p ↔ p.anchorLink s = .toSelf := by
  unfold IsStage Info.anchorLink
  cases s
  · simp only [Role.anchorTriggerLink]
    cases p.role <;> simp
    · rename_i a t; cases t <;> simp [ALink.any]
    · rename_i a t; cases t <;> simp [ALink.any]
  · simp only [Role.anchorProofLink]
    cases p.role <;> simp
    · rename_i a t; cases a <;> simp [ALink.any]

theorem anchorLink_trigger_cases {p : Info} {l : ALink} (h : (∃ x, p.role = .regular x l) ∨ (∃ x, p.role = .anchorProof x l)) :
    p.anchorLink .trigger = l.any := by
  unfold Info.anchorLink
  rcases h with ⟨x, h⟩ | ⟨x, h⟩ <;> rw [h] <;> rfl

/-- The id a link names by the specification is the one the accessor computes. -/
theorem linksTo_anchorId {p : Info} (hu : p.includes.Uniq) (hw : p.witness.Uniq) {s : Stage} {i : PointId}
    (h : LinksTo p s i) : p.anchorId s = some i := by
  cases h with
  | self s h =>
    rw [isStage_iff] at h
    unfold Info.anchorId; rw [h]
  | proofDirectIncludes a d t hr hm =>
    unfold Info.anchorId Info.anchorLink
    rw [hr]
    simp [Role.anchorProofLink, ALink.any, Info.throughId, PMap.get?_of_mem hu hm]
  | proofDirectWitness a d t hr hm =>
    unfold Info.anchorId Info.anchorLink
    rw [hr]
    simp [Role.anchorProofLink, ALink.any, Info.throughId, PMap.get?_of_mem hw hm]
  | proofIndirect l t hr =>
    unfold Info.anchorId Info.anchorLink
    rw [hr]
    simp [Role.anchorProofLink, ALink.any]
  | triggersProof d hr hm =>
    unfold Info.anchorId Info.anchorLink
    rw [hr]
    simp [Role.anchorProofLink, Info.throughId, PMap.get?_of_mem hu hm]
  | triggerDirectIncludes a d t hr ht hm =>
    unfold Info.anchorId
    rw [anchorLink_trigger_cases hr, ht]
    simp [ALink.any, Info.throughId, PMap.get?_of_mem hu hm]
  | triggerDirectWitness a d t hr ht hm =>
    unfold Info.anchorId
    rw [anchorLink_trigger_cases hr, ht]
    simp [ALink.any, Info.throughId, PMap.get?_of_mem hw hm]
  | triggerIndirect l t hr ht =>
    unfold Info.anchorId
    rw [anchorLink_trigger_cases hr, ht]
    simp [ALink.any]

theorem anchorId_linksTo {p : Info} {s : Stage} {i : PointId} (h : p.anchorId s = some i) : LinksTo p s i := by
  unfold Info.anchorId at h
  split at h
  · rename_i l hl
    injection h with h
    subst h
    unfold Info.anchorLink at hl
    cases s
    · simp only [Role.anchorTriggerLink] at hl
      split at hl
      · rename_i a t hr
        cases t <;> simp [ALink.any] at hl
        exact .triggerIndirect _ _ (.inl ⟨_, hr⟩) (by rw [hl])
      · rename_i a t hr
        cases t <;> simp [ALink.any] at hl
        exact .triggerIndirect _ _ (.inr ⟨_, hr⟩) (by rw [hl])
      all_goals simp at hl
    · simp only [Role.anchorProofLink] at hl
      split at hl
      · rename_i a t hr
        cases a <;> simp [ALink.any] at hl
        exact .proofIndirect _ _ (by rw [hr, hl])
      all_goals simp at hl
  · rename_i hl
    injection h with h
    subst h
    exact .self s (isStage_iff.mpr hl)
  · rename_i t hl
    unfold Info.anchorLink at hl
    unfold Info.throughId at h
    cases s
    · simp only [Role.anchorTriggerLink] at hl
      split at hl
      · rename_i a l hr
        cases l <;> simp [ALink.any] at hl
        subst hl
        rename_i t
        cases t with
        | includes b =>
          simp only [Option.map_eq_some_iff] at h
          obtain ⟨d, hd, rfl⟩ := h
          exact .triggerDirectIncludes _ _ _ (.inl ⟨_, hr⟩) rfl (PMap.get?_mem hd)
        | witness b =>
          simp only [Option.map_eq_some_iff] at h
          obtain ⟨d, hd, rfl⟩ := h
          exact .triggerDirectWitness _ _ _ (.inl ⟨_, hr⟩) rfl (PMap.get?_mem hd)
      · rename_i a l hr
        cases l <;> simp [ALink.any] at hl
        subst hl
        rename_i t
        cases t with
        | includes b =>
          simp only [Option.map_eq_some_iff] at h
          obtain ⟨d, hd, rfl⟩ := h
          exact .triggerDirectIncludes _ _ _ (.inr ⟨_, hr⟩) rfl (PMap.get?_mem hd)
        | witness b =>
          simp only [Option.map_eq_some_iff] at h
          obtain ⟨d, hd, rfl⟩ := h
          exact .triggerDirectWitness _ _ _ (.inr ⟨_, hr⟩) rfl (PMap.get?_mem hd)
      all_goals simp at hl
    · simp only [Role.anchorProofLink] at hl
      split at hl
      · rename_i a l hr
        cases a <;> simp [ALink.any] at hl
        subst hl
        rename_i t
        cases t with
        | includes b =>
          simp only [Option.map_eq_some_iff] at h
          obtain ⟨d, hd, rfl⟩ := h
          exact .proofDirectIncludes _ _ _ hr (PMap.get?_mem hd)
        | witness b =>
          simp only [Option.map_eq_some_iff] at h
          obtain ⟨d, hd, rfl⟩ := h
          exact .proofDirectWitness _ _ _ hr (PMap.get?_mem hd)
      · simp at hl
      · simp at hl
      · simp at hl
      · rename_i hr
        injection hl with hl
        subst hl
        simp only [Option.map_eq_some_iff] at h
        obtain ⟨d, hd, rfl⟩ := h
        exact .triggersProof _ hr (PMap.get?_mem hd)

/-- Induction on the history of a point whose history is accepted: genesis points, and points above genesis with the
facts that acceptance gives about them and the claim for each dependency. -/
theorem history_induction {W : World} (hW : W.Ok) {C : Info → Prop}
    (genesis : ∀ p, AllAccepted W p → p.round = W.conf.genesisRound → C p)
    (step : ∀ p, AllAccepted W p → Facts W p → (∀ q, Dep W p q → C q) → C p)
    (p : Info) (h : AllAccepted W p) : C p := by
  generalize hn : p.round = n
  induction n using Nat.strongRecOn generalizing p with
  | _ n ih =>
    by_cases hr : p.round = W.conf.genesisRound
    · exact genesis p h hr
    · have hf := h.self.facts hW hr
      refine step p h hf ?_
      intro q hq
      have hlt : q.round < n := by
        rw [← hn]
        exact depIds_round_lt hf hW.genesis_pos (mem_depIds_of_dep hq)
      exact ih _ hlt q (h.dep hq) rfl

/-- The next point on the path to the anchor is a dependency with the same anchor. -/
theorem through_dep {W : World} (hW : W.Ok) {p : Info} (hf : Facts W p) (s : Stage) (hn : p.anchorLink s ≠ .toSelf) :
    ∃ i q, p.anchorLinkThrough s = some i ∧ Dep W p q ∧ q.id = i ∧ DepFacts W p i q := by
  obtain ⟨i, hi⟩ := Option.isSome_iff_exists.mp (anchorLinkThrough_isSome hf.shape s)
  have hmem : i ∈ depIds p true := by
    unfold Info.anchorLinkThrough at hi
    split at hi
    · rename_i h; exact absurd h hn
    · exact throughId_mem hi
    · exact throughId_mem hi
  obtain ⟨q, hq⟩ := hf.depFacts hW hmem
  exact ⟨i, q, hi, dep_of_facts hmem hq, hq.id, hq⟩

theorem genesis_toSelf {p : Info} (h : p.role = .genesis) (s : Stage) : p.anchorLink s = .toSelf := by
  unfold Info.anchorLink; rw [h]; cases s <;> rfl

theorem anchorId_direct_eq_through {p : Info} {s : Stage} {t : Through} (h : p.anchorLink s = .direct t) :
    p.anchorId s = p.anchorLinkThrough s := by
  unfold Info.anchorId Info.anchorLinkThrough; rw [h]

theorem anchor_target {W : World} (hW : W.Ok) (s : Stage) (p : Info) (h : AllAccepted W p) :
    ∃ t, p.anchorId s = some t.id ∧ W.body t.id = some t ∧ History W p t ∧ t.anchorLink s = .toSelf := by
  refine history_induction hW (C := fun p => ∃ t, p.anchorId s = some t.id ∧ W.body t.id = some t ∧
    History W p t ∧ t.anchorLink s = .toSelf) ?_ ?_ p h
  · intro p h hr
    have hg := genesis_toSelf (verify_genesis h.self.verified hr hW.genesis_pos).1 s
    exact ⟨p, by unfold Info.anchorId; rw [hg], h.self.known, .refl, hg⟩
  · intro p h hf ih
    cases hl : p.anchorLink s with
    | toSelf => exact ⟨p, by unfold Info.anchorId; rw [hl], h.self.known, .refl, hl⟩
    | direct t =>
      obtain ⟨i, q, hi, hd, hid, hq⟩ := through_dep hW hf s (by rw [hl]; simp)
      have hai : p.anchorId s = some i := by rw [anchorId_direct_eq_through hl, hi]
      refine ⟨q, by rw [hid]; exact hai, hd.1, .single hd, ?_⟩
      cases s
      · exact hq.triggerTarget hai
      · exact hq.proofTarget hai
    | indirect l =>
      obtain ⟨i, q, hi, hd, hid, hq⟩ := through_dep hW hf s (by rw [hl]; simp)
      obtain ⟨t, h1, h2, h3, h4⟩ := ih q hd
      exact ⟨t, by rw [← hq.through s hi]; exact h1, h2, .head hd h3, h4⟩

/-- **C45.** In a history of accepted points every point names a proof and a trigger, and the point it names exists in
its own history and is indeed a proof, resp. a trigger. -/
theorem anchor_links_lead_to_anchors {W : World} (hW : W.Ok) (p : Info) (h : AllAccepted W p) (s : Stage) :
    (∃ i, LinksTo p s i) ∧
      ∀ i, LinksTo p s i → ∃ t, W.body i = some t ∧ t.id = i ∧ History W p t ∧ IsStage s t := by
  obtain ⟨t, h1, h2, h3, h4⟩ := anchor_target hW s p h
  refine ⟨⟨_, anchorId_linksTo h1⟩, ?_⟩
  intro i hi
  have := linksTo_anchorId (hW.includes_uniq _ _ h.self.known) (hW.witness_uniq _ _ h.self.known) hi
  rw [h1] at this
  injection this with this
  subst this
  exact ⟨t, h2, rfl, h3, isStage_iff.mpr h4⟩

theorem anchorRound_history {W : World} (hW : W.Ok) (s : Stage) (p : Info) (h : AllAccepted W p) :
    ∀ q, History W p q → q.anchorRound s ≤ p.anchorRound s := by
  refine history_induction hW (C := fun p => ∀ q, History W p q → q.anchorRound s ≤ p.anchorRound s) ?_ ?_ p h
  · intro p h hr q hq
    obtain ⟨_, _, hi, hw⟩ := verify_genesis h.self.verified hr hW.genesis_pos
    rcases Relation.ReflTransGen.cases_head hq with rfl | ⟨r, hr, _⟩
    · exact Nat.le_refl _
    · have := hr.2
      simp [hi, hw] at this
  · intro p h hf ih q hq
    rcases Relation.ReflTransGen.cases_head hq with rfl | ⟨r, hr, hrq⟩
    · exact Nat.le_refl _
    · exact Nat.le_trans (ih r hr q hrq) ((hr.facts hW hf).newer s)

/-- **C46.** The proof (trigger) that an accepted point names is at least as new as every proof (trigger) in its
history. -/
theorem named_anchor_is_newest {W : World} (hW : W.Ok) (p : Info) (h : AllAccepted W p) (s : Stage) (i : PointId)
    (hi : LinksTo p s i) (q : Info) (hq : History W p q) (hs : IsStage s q) : q.round ≤ i.round := by
  have h1 := linksTo_anchorId (hW.includes_uniq _ _ h.self.known) (hW.witness_uniq _ _ h.self.known) hi
  have h2 := anchorRound_history hW s p h q hq
  rw [anchorId_round h1]
  rw [isStage_iff] at hs
  have : q.anchorRound s = q.round := by unfold Info.anchorRound; rw [hs]
  omega

/-- **C46.** Along any path down the history the named proofs (triggers) never get newer. -/
theorem named_anchor_round_monotone {W : World} (hW : W.Ok) (p : Info) (h : AllAccepted W p) (s : Stage)
    (q : Info) (hq : History W p q) (i j : PointId) (hi : LinksTo p s i) (hj : LinksTo q s j) : j.round ≤ i.round := by
  have hacc := h q hq
  have h1 := linksTo_anchorId (hW.includes_uniq _ _ h.self.known) (hW.witness_uniq _ _ h.self.known) hi
  have h2 := linksTo_anchorId (hW.includes_uniq _ _ hacc.known) (hW.witness_uniq _ _ hacc.known) hj
  rw [anchorId_round h1, anchorId_round h2]
  exact anchorRound_history hW s p h q hq

/-! ### times -/

theorem isPrev_dep {W : World} {p q : Info} (h : IsPrev W p q) : Dep W p q :=
  ⟨h.1, .inl ⟨by have := h.2.1; omega, h.2.2.2⟩⟩

theorem isPrev_proofOk {W : World} (hW : W.Ok) {p q : Info} (hf : Facts W p) (h : IsPrev W p q) :
    isProofOk p q = none :=
  ((isPrev_dep h).facts hW hf).prev (by have := h.2.1; omega) h.2.2.1

theorem isProofOk_none {p q : Info} (h : isProofOk p q = none) :
    (q.anchorLink .proof = .toSelf → p.anchorLink .trigger = .toSelf) ∧ q.time < p.time ∧
      (p.anchorLink .proof = .toSelf → p.anchorTime = q.time) := by
  unfold isProofOk at h
  split at h
  · simp at h
  rename_i h1
  split at h
  · simp at h
  rename_i h2
  split at h
  · simp at h
  rename_i h3
  refine ⟨?_, by omega, ?_⟩
  · intro hq
    simpa [hq] using h1
  · intro hp
    simpa [hp] using h3

theorem prev_exists {W : World} (hW : W.Ok) {p : Info} (hf : Facts W p) (hh : p.includes.has p.author = true) :
    ∃ q, IsPrev W p q := by
  obtain ⟨d, hd⟩ := PMap.has_iff.mp hh
  have hmem : (⟨p.round - 1, d, p.author⟩ : PointId) ∈ depIds p true := mem_depIds.mpr (.inl ⟨rfl, hd⟩)
  obtain ⟨q, hq⟩ := hf.depFacts hW hmem
  have := hf.above
  refine ⟨q, by rw [hq.id]; exact hq.body, ?_, ?_, ?_⟩
  · rw [hq.id]; show p.round - 1 + 1 = p.round; omega
  · rw [hq.id]
  · rw [hq.id]; exact hd

theorem anchorTime_target {W : World} (hW : W.Ok) (p : Info) (h : AllAccepted W p) :
    ∃ t, p.anchorId .proof = some t.id ∧ W.body t.id = some t ∧ History W p t ∧ t.anchorLink .proof = .toSelf ∧
      p.anchorTime = t.anchorTime := by
  refine history_induction hW (C := fun p => ∃ t, p.anchorId .proof = some t.id ∧ W.body t.id = some t ∧
    History W p t ∧ t.anchorLink .proof = .toSelf ∧ p.anchorTime = t.anchorTime) ?_ ?_ p h
  · intro p h hr
    have hg := genesis_toSelf (verify_genesis h.self.verified hr hW.genesis_pos).1 .proof
    exact ⟨p, by unfold Info.anchorId; rw [hg], h.self.known, .refl, hg, rfl⟩
  · intro p h hf ih
    by_cases hl : p.anchorLink .proof = .toSelf
    · exact ⟨p, by unfold Info.anchorId; rw [hl], h.self.known, .refl, hl, rfl⟩
    · obtain ⟨i, q, hi, hd, hid, hq⟩ := through_dep hW hf .proof hl
      obtain ⟨t, h1, h2, h3, h4, h5⟩ := ih q hd
      exact ⟨t, by rw [← hq.through .proof hi]; exact h1, h2, .head hd h3, h4, by rw [← hq.throughTime hi]; exact h5⟩

/-- **C47.** The anchor time of an accepted point is the anchor time of the proof it names; that is the time of the
anchor candidate - the previous point of the proof's author - or the time of genesis. -/
theorem anchor_time_is_candidate_time {W : World} (hW : W.Ok) (p : Info) (h : AllAccepted W p) (i : PointId)
    (hi : LinksTo p .proof i) : ∃ t, W.body i = some t ∧ p.anchorTime = t.anchorTime ∧
      ((t.role = .genesis ∧ p.anchorTime = t.time) ∨ ∃ c, IsPrev W t c ∧ p.anchorTime = c.time) := by
  obtain ⟨t, h1, h2, h3, h4, h5⟩ := anchorTime_target hW p h
  have hid := linksTo_anchorId (hW.includes_uniq _ _ h.self.known) (hW.witness_uniq _ _ h.self.known) hi
  rw [h1] at hid
  injection hid with hid
  subst hid
  refine ⟨t, h2, h5, ?_⟩
  have hacc := h t h3
  by_cases hr : t.round = W.conf.genesisRound
  · obtain ⟨hg, ht, _⟩ := verify_genesis hacc.verified hr hW.genesis_pos
    exact .inl ⟨hg, by rw [h5, ht]⟩
  · right
    have hf := hacc.facts hW hr
    have hlink := hf.shape.link .proof
    unfold Info.linkError at hlink
    rw [h4] at hlink
    simp only at hlink
    split at hlink
    · rename_i hh
      obtain ⟨c, hc⟩ := prev_exists hW hf hh
      refine ⟨c, hc, ?_⟩
      rw [h5]
      exact (isProofOk_none (isPrev_proofOk hW hf hc)).2.2 h4
    · simp at hlink

/-- **C47.** A point is later than the anchor candidate it refers to. -/
theorem point_later_than_its_anchor {W : World} (hW : W.Ok) (p : Info) (h : Accepted W p)
    (hr : p.round ≠ W.conf.genesisRound) : p.anchorTime < p.time := (h.facts hW hr).shape.time

/-- **C47.** All points that name the same proof carry the same anchor time. -/
theorem same_proof_same_anchor_time {W : World} (hW : W.Ok) (p q : Info) (hp : AllAccepted W p) (hq : AllAccepted W q)
    (i : PointId) (h1 : LinksTo p .proof i) (h2 : LinksTo q .proof i) : p.anchorTime = q.anchorTime := by
  obtain ⟨t, a1, a2, _⟩ := anchor_time_is_candidate_time hW p hp i h1
  obtain ⟨u, b1, b2, _⟩ := anchor_time_is_candidate_time hW q hq i h2
  rw [a1] at b1
  injection b1 with b1
  subst b1
  rw [a2, b2]

/-- **C48.** One author's time grows with every point that refers to its previous one: over `k` such steps by at least
`k`, and the round by exactly `k`. -/
theorem author_time_strictly_increases {W : World} (hW : W.Ok) (p q : Info) (h : AllAccepted W p)
    (hc : Relation.ReflTransGen (IsPrev W) p q) :
    q.author = p.author ∧ q.round ≤ p.round ∧ q.time + (p.round - q.round) ≤ p.time := by
  induction hc using Relation.ReflTransGen.head_induction_on with
  | refl => simp
  | head hp htail ih =>
    rename_i a c
    obtain ⟨h1, h2, h3⟩ := ih (h.dep (isPrev_dep hp))
    have hne : a.round ≠ W.conf.genesisRound := by
      intro hr
      have := (verify_genesis h.self.verified hr hW.genesis_pos).2.2.1
      have hm := hp.2.2.2
      rw [this] at hm
      simp at hm
    have hf := h.self.facts hW hne
    have ht := (isProofOk_none (isPrev_proofOk hW hf hp)).2.1
    have hr : c.round + 1 = a.round := hp.2.1
    refine ⟨?_, by omega, by omega⟩
    rw [h1]; exact hp.2.2.1

/-- **C48.** The time of a point in the history exceeds the time of the point by at most the allowed clock skew per
round between them. -/
theorem history_time_bound {W : World} (hW : W.Ok) (p q : Info) (h : AllAccepted W p) (hq : History W p q) :
    q.round ≤ p.round ∧ q.time ≤ p.time + W.conf.clockSkew * (p.round - q.round) := by
  induction hq using Relation.ReflTransGen.head_induction_on with
  | refl => simp
  | head hd htail ih =>
    rename_i a c
    obtain ⟨h2, h3⟩ := ih (h.dep hd)
    have hne : a.round ≠ W.conf.genesisRound := by
      intro hr
      obtain ⟨_, _, e1, e2⟩ := verify_genesis h.self.verified hr hW.genesis_pos
      have hm := hd.2
      rw [e1, e2] at hm
      simp at hm
    have hf := h.self.facts hW hne
    have ht := (hd.facts hW hf).time
    have hlt : c.round < a.round := depIds_round_lt hf hW.genesis_pos (mem_depIds_of_dep hd)
    refine ⟨by omega, ?_⟩
    have e : a.round - q.round = (c.round - q.round) + (a.round - c.round - 1) + 1 := by omega
    rw [e, Nat.mul_add, Nat.mul_add]
    have := Nat.zero_le (W.conf.clockSkew * (a.round - c.round - 1))
    simp only [Nat.mul_one]
    omega

/-! ### proofs, triggers and sticky chains -/

/-- **C49.** After a proof its author must trigger: a point that refers to its author's previous point, which is a
proof, is itself a trigger. -/
theorem proof_is_followed_by_trigger {W : World} (hW : W.Ok) (p q : Info) (h : Accepted W p)
    (hr : p.round ≠ W.conf.genesisRound) (hp : IsPrev W p q) (hq : IsStage .proof q) : IsStage .trigger p := by
  rw [isStage_iff] at *
  exact (isProofOk_none (isPrev_proofOk hW (h.facts hW hr) hp)).1 hq

/-- **C49.** A trigger is always the next point of the author of its proof. -/
theorem trigger_follows_proof {W : World} (hW : W.Ok) (p : Info) (h : Accepted W p)
    (hr : p.round ≠ W.conf.genesisRound) (ht : IsStage .trigger p) : ∃ q, IsPrev W p q ∧ IsStage .proof q := by
  have hf := h.facts hW hr
  rcases ht with hg | ht | ⟨n, hn⟩
  · exact absurd hg hf.shape.notGenesis
  · obtain ⟨q, hq⟩ := prev_exists hW hf (hf.shape.requiresPrev (by rw [ht]; rfl))
    refine ⟨q, hq, isStage_iff.mpr ?_⟩
    refine ((isPrev_dep hq).facts hW hf).proofTarget ?_
    apply linksTo_anchorId (hW.includes_uniq _ _ h.known) (hW.witness_uniq _ _ h.known)
    have := LinksTo.triggersProof (p := p) q.id.digest ht (by have := hq.2.2.2; rw [hq.2.2.1] at this; exact this)
    have he : q.id = ⟨p.round - 1, q.id.digest, p.author⟩ := by
      have h1 := hq.2.1; have h2 := hq.2.2.1
      cases hqi : q.id; simp_all; omega
    rw [he]; exact this
  · obtain ⟨q, hq⟩ := prev_exists hW hf (hf.shape.requiresPrev (by rw [hn]; rfl))
    refine ⟨q, hq, isStage_iff.mpr ?_⟩
    refine ((isPrev_dep hq).facts hW hf).chainedPrev ?_
    have hm : (p.author, q.id.digest) ∈ p.includes := by have := hq.2.2.2; rw [hq.2.2.1] at this; exact this
    have hg := PMap.get?_of_mem (hW.includes_uniq _ _ h.known) hm
    unfold Info.chainedToThrough Info.prevId Info.prevDigest
    rw [hn]
    have he : q.id = ⟨p.round - 1, q.id.digest, p.author⟩ := by
      have h1 := hq.2.1; have h2 := hq.2.2.1
      cases hqi : q.id; simp_all; omega
    simp only [Role.chained, hg, Option.map_some]
    rw [← he]

/-- **C49.** An anchor proof that is not sticky is made by the leader of its round, and the proof it chains to is more
than two rounds older (more than three when sticky anchors are on). -/
theorem proof_by_leader {W : World} (hW : W.Ok) (p : Info) (h : Accepted W p) (l : ILink) (t : ALink)
    (hrole : p.role = .anchorProof l t) : W.leader p.round = some p.author ∧ l.to.round + 2 < p.round ∧
      (W.conf.stickyAnchors ≠ 0 → l.to.round + 3 < p.round) := by
  have hr : p.round ≠ W.conf.genesisRound := by
    intro hr
    have := (verify_genesis h.verified hr hW.genesis_pos).1
    rw [hrole] at this; simp at this
  have hf := h.facts hW hr
  have := hf.proofLink
  unfold Info.isProofLinkOk at this
  rw [hrole] at this
  simp only [Bool.and_eq_true, decide_eq_true_eq] at this
  refine ⟨this.1, ?_, ?_⟩
  · have h2 := this.2
    split at h2 <;> simp at h2 <;> omega
  · intro hs
    have h2 := this.2
    rw [if_neg hs] at h2
    simp at h2; omega

/-- **C49.** The leader may not withhold a proof: a leader's point that refers to its previous point and is neither a
trigger nor a proof names a proof which is too close. -/
theorem leader_must_prove {W : World} (hW : W.Ok) (p : Info) (h : Accepted W p) (a t : ALink) (i : PointId)
    (hrole : p.role = .regular a t) (hl : W.leader p.round = some p.author) (hprev : ∃ d, (p.author, d) ∈ p.includes)
    (hi : LinksTo p .proof i) :
    p.round ≤ i.round + (if W.conf.stickyAnchors = 0 then 2 else 3) := by
  have hr : p.round ≠ W.conf.genesisRound := by
    intro hr
    have := (verify_genesis h.verified hr hW.genesis_pos).1
    rw [hrole] at this; simp at this
  have hf := h.facts hW hr
  have hid := linksTo_anchorId (hW.includes_uniq _ _ h.known) (hW.witness_uniq _ _ h.known) hi
  have := hf.proofLink
  unfold Info.isProofLinkOk at this
  rw [hrole] at this
  obtain ⟨d, hd⟩ := hprev
  have hg := PMap.get?_of_mem (hW.includes_uniq _ _ h.known) hd
  rw [anchorId_round hid]
  simp only [hl, decide_true, Info.prevDigest, hg, Option.isSome_some, Bool.true_and, Bool.not_eq_eq_eq_not,
    Bool.not_true] at this
  split at this
  · rename_i hs; rw [if_pos hs]; simp at this; omega
  · rename_i hs; rw [if_neg hs]; simp at this; omega

/-- A run of sticky points of one author that starts right after a proof made by a leader or after genesis. -/
inductive StickyRun (W : World) : Info → Nat → Prop
  | first (p q : Info) : p.role = .sticky 0 → IsPrev W p q →
      (q.role = .genesis ∨ ∃ l t, q.role = .anchorProof l t) → StickyRun W p 0
  | next (p q : Info) (n : Nat) : p.role = .sticky (n + 1) → IsPrev W p q → StickyRun W q n → StickyRun W p (n + 1)

/-- **C49.** A sticky point with number `n` ends a run of exactly `n + 1` sticky points in consecutive rounds by one
author, the first of which follows an anchor proof or genesis; and `n` is below the configured limit. -/
theorem sticky_runs {W : World} (hW : W.Ok) (p : Info) (h : AllAccepted W p) (n : Nat) (hn : p.role = .sticky n) :
    StickyRun W p n ∧ n < W.conf.stickyAnchors := by
  suffices H : ∀ p, AllAccepted W p → ∀ n, p.role = .sticky n → StickyRun W p n ∧ n < W.conf.stickyAnchors from
    H p h n hn
  intro p h
  refine history_induction hW (C := fun p => ∀ n, p.role = .sticky n → StickyRun W p n ∧ n < W.conf.stickyAnchors)
    ?_ ?_ p h
  · intro p h hr n hn
    have := (verify_genesis h.self.verified hr hW.genesis_pos).1
    rw [hn] at this; simp at this
  · intro p h hf ih n hn
    obtain ⟨q, hq, hqs⟩ := trigger_follows_proof hW p h.self (by have := hf.above; omega) (.inr (.inr ⟨n, hn⟩))
    have hm : (p.author, q.id.digest) ∈ p.includes := by have := hq.2.2.2; rw [hq.2.2.1] at this; exact this
    have hg := PMap.get?_of_mem (hW.includes_uniq _ _ h.self.known) hm
    have hct : p.chainedToThrough = some (some (q.id, none)) := by
      unfold Info.chainedToThrough Info.prevId Info.prevDigest
      rw [hn]
      have he : q.id = ⟨p.round - 1, q.id.digest, p.author⟩ := by
        have h1 := hq.2.1; have h2 := hq.2.2.1
        cases hqi : q.id; simp_all; omega
      simp only [Role.chained, hg, Option.map_some]
      rw [← he]
    have hsn : p.stickyAnchors = some n := by unfold Info.stickyAnchors; rw [hn]; rfl
    obtain ⟨h1, h2⟩ := ((isPrev_dep hq).facts hW hf).sticky hct n hsn
    refine ⟨?_, h1⟩
    rcases hqs with hg | ⟨l, t, hl⟩ | ⟨k, hk⟩
    · have : q.stickyAnchors = none := by unfold Info.stickyAnchors; rw [hg]; rfl
      rw [this] at h2
      simp at h2; subst h2
      exact .first p q hn hq (.inl hg)
    · have : q.stickyAnchors = none := by unfold Info.stickyAnchors; rw [hl]; rfl
      rw [this] at h2
      simp at h2; subst h2
      exact .first p q hn hq (.inr ⟨l, t, hl⟩)
    · have : q.stickyAnchors = some k := by unfold Info.stickyAnchors; rw [hk]; rfl
      rw [this] at h2
      simp at h2; subst h2
      exact .next p q k hn hq (ih q (isPrev_dep hq) k hk).1

/-! ### the chain of proofs -/

/-- `p`, a proof, chains to the older proof `i`. -/
inductive ChainsTo (p : Info) : PointId → Prop
  | proof (l t) : p.role = .anchorProof l t → ChainsTo p l.to
  | sticky (n d) : p.role = .sticky n → (p.author, d) ∈ p.includes → ChainsTo p ⟨p.round - 1, d, p.author⟩

/-- **C50.** The point that an accepted proof chains to exists in the history of the proof, is an older proof, and no
other proof in that history is newer. -/
theorem chained_proof_is_newest {W : World} (hW : W.Ok) (p : Info) (h : AllAccepted W p) (i : PointId)
    (hc : ChainsTo p i) : ∃ t, W.body i = some t ∧ History W p t ∧ IsStage .proof t ∧ i.round < p.round ∧
      W.conf.genesisRound ≤ i.round ∧
      ∀ q, History W p q → q ≠ p → IsStage .proof q → q.round ≤ i.round := by
  have hr : p.round ≠ W.conf.genesisRound := by
    intro hr
    have := (verify_genesis h.self.verified hr hW.genesis_pos).1
    cases hc with
    | proof l t hl => rw [hl] at this; simp at this
    | sticky n d hn => rw [hn] at this; simp at this
  have hf := h.self.facts hW hr
  have habove := hf.above
  have hbounds := verify_bounds h.self.verified hr
  have strict : ∀ th, p.chainedToThrough = some (some (i, th)) →
      ∀ q, History W p q → q ≠ p → IsStage .proof q → q.round ≤ i.round := by
    intro th hct q hq hne hs
    rcases Relation.ReflTransGen.cases_head hq with rfl | ⟨r, hrd, hrq⟩
    · exact absurd rfl hne
    · have h1 := (hrd.facts hW hf).chainedNewer _ _ hct
      have h2 := anchorRound_history hW .proof r (h.dep hrd) q hrq
      rw [isStage_iff] at hs
      have : q.anchorRound .proof = q.round := by unfold Info.anchorRound; rw [hs]
      omega
  cases hc with
  | proof l t hl =>
    have hch : p.role.chained = .indirect l := by rw [hl]; rfl
    obtain ⟨h1, h2, h3⟩ := chained_indirect hf.shape l hch
    obtain ⟨j, hj⟩ := Option.isSome_iff_exists.mp h1
    have hct : p.chainedToThrough = some (some (l.to, some j)) := by
      unfold Info.chainedToThrough; rw [hch]; simp [hj]
    have hmem := throughId_mem hj
    obtain ⟨q, hq⟩ := hf.depFacts hW hmem
    have hdep := dep_of_facts hmem hq
    have hto := hq.chainedThrough _ hct
    obtain ⟨u, e1, e2, e3, e4⟩ := anchor_target hW .proof q (h.dep hdep)
    rw [hto] at e1
    injection e1 with e1
    rw [← e1] at e2
    refine ⟨u, e2, .head hdep e3, isStage_iff.mpr e4, by omega, ?_, strict _ hct⟩
    exact hbounds.2.1 _ (by unfold Info.chainedToRound; rw [hch])
  | sticky n d hn hm =>
    obtain ⟨q, hq, hqs⟩ := trigger_follows_proof hW p h.self hr (.inr (.inr ⟨n, hn⟩))
    have hgd := PMap.get?_of_mem (hW.includes_uniq _ _ h.self.known) hm
    have hm2 : (p.author, q.id.digest) ∈ p.includes := by have := hq.2.2.2; rw [hq.2.2.1] at this; exact this
    have hg := PMap.get?_of_mem (hW.includes_uniq _ _ h.self.known) hm2
    rw [hgd] at hg
    injection hg with hg
    have he : q.id = ⟨p.round - 1, d, p.author⟩ := by
      have h1 := hq.2.1; have h2 := hq.2.2.1
      cases hqi : q.id; simp_all; omega
    have hct : p.chainedToThrough = some (some (⟨p.round - 1, d, p.author⟩, none)) := by
      unfold Info.chainedToThrough Info.prevId Info.prevDigest
      rw [hn]
      simp only [Role.chained, hgd, Option.map_some]
    refine ⟨q, he ▸ hq.1, .single (isPrev_dep hq), hqs, by show p.round - 1 < _; omega, ?_, strict _ hct⟩
    show W.conf.genesisRound ≤ p.round - 1
    omega

/-- A sequence of proofs from `p` down to genesis, each chained to the next. -/
inductive ProofChain (W : World) : Info → Prop
  | genesis (p : Info) : p.role = .genesis → p.round = W.conf.genesisRound → ProofChain W p
  | step (p t : Info) (i : PointId) : ChainsTo p i → W.body i = some t → i.round < p.round → ProofChain W t →
      ProofChain W p

/-- **C50.** From the proof that an accepted point names, chained links lead, through older and older proofs, down to
genesis: the anchor chain has no gaps. -/
theorem proof_chain_reaches_genesis {W : World} (hW : W.Ok) (p : Info) (h : AllAccepted W p) (i : PointId)
    (hi : LinksTo p .proof i) : ∃ t, W.body i = some t ∧ ProofChain W t := by
  have main : ∀ n (t : Info), t.round = n → AllAccepted W t → IsStage .proof t → ProofChain W t := by
    intro n
    induction n using Nat.strongRecOn with
    | _ n ih =>
      intro t hn ht hs
      by_cases hr : t.round = W.conf.genesisRound
      · exact .genesis t (verify_genesis ht.self.verified hr hW.genesis_pos).1 hr
      · have hf := ht.self.facts hW hr
        have hex : ∃ j, ChainsTo t j := by
          rcases hs with hg | ⟨l, x, hl⟩ | ⟨k, hk⟩
          · exact absurd hg hf.shape.notGenesis
          · exact ⟨_, .proof l x hl⟩
          · obtain ⟨d, hd⟩ := PMap.has_iff.mp (hf.shape.requiresPrev (by rw [hk]; rfl))
            exact ⟨_, .sticky k d hk hd⟩
        obtain ⟨j, hj⟩ := hex
        obtain ⟨u, h1, h2, h3, h4, h5, _⟩ := chained_proof_is_newest hW t ht j hj
        refine .step t u j hj h1 h4 (ih u.round ?_ u rfl (fun q hq => ht q (h2.trans hq)) h3)
        have := hW.id_eq _ _ h1
        unfold Info.round
        rw [this, ← hn]; exact h4
  obtain ⟨t, h1, h2, h3, h4⟩ := (anchor_links_lead_to_anchors hW p h .proof).2 i hi
  exact ⟨t, h1, main _ t rfl (fun q hq => h q (h3.trans hq)) h4⟩

/-! ### triggers and proofs agree -/

theorem trigger_bound {W : World} (hW : W.Ok) (p : Info) (h : AllAccepted W p) (b : PointId)
    (hb : p.triggerBoundProofId = some (some b)) :
    ∃ t, p.anchorId .trigger = some t.id ∧ W.body t.id = some t ∧ t.anchorId .proof = some b := by
  revert b
  refine history_induction hW (C := fun p => ∀ b, p.triggerBoundProofId = some (some b) →
    ∃ t, p.anchorId .trigger = some t.id ∧ W.body t.id = some t ∧ t.anchorId .proof = some b) ?_ ?_ p h
  · intro p h hr b hb
    have hg := (verify_genesis h.self.verified hr hW.genesis_pos).1
    unfold Info.triggerBoundProofId Info.inheritedProofId at hb
    rw [hg] at hb
    simp at hb
  · intro p h hf ih b hb
    have hbr : b.round < p.anchorRound .trigger := by
      unfold Info.triggerBoundProofId at hb
      simp only [Option.map_eq_some_iff] at hb
      obtain ⟨o, _, ho⟩ := hb
      rw [Option.filter_eq_some_iff] at ho
      simpa using ho.2
    have hns : p.anchorLink .trigger ≠ .toSelf := by
      intro hs
      unfold Info.triggerBoundProofId Info.inheritedProofId at hb
      unfold Info.anchorLink Role.anchorTriggerLink at hs
      cases hrole : p.role <;> rw [hrole] at hb hs <;> simp at hb hs
      · rename_i a t; cases t <;> simp [ALink.any] at hs
      · rename_i a t; cases t <;> simp [ALink.any] at hs
    obtain ⟨i, q, hi, hd, hid, hq⟩ := through_dep hW hf .trigger hns
    cases hl : p.anchorLink .trigger with
    | toSelf => exact absurd hl hns
    | direct t =>
      have hai : p.anchorId .trigger = some i := by rw [anchorId_direct_eq_through hl, hi]
      exact ⟨q, by rw [hid]; exact hai, hd.1, hq.triggerTargetBound hai b hb⟩
    | indirect l =>
      have hne : p.anchorId .trigger ≠ some i := by
        have hth := (hf.shape.throughId_indirect hl).2 i (by unfold Info.anchorLinkThrough at hi; rw [hl] at hi; exact hi)
        unfold Info.anchorId
        rw [hl]
        intro hcon
        injection hcon with hcon
        rw [hcon] at hth
        omega
      have hqb := hq.throughBound hi hne b hb
      have hqt := hq.through .trigger hi
      have hqr : q.anchorRound .trigger = p.anchorRound .trigger := by
        obtain ⟨x, hx⟩ := Option.isSome_iff_exists.mp (anchorId_isSome hf.shape .trigger)
        rw [← anchorId_round hx]
        rw [← hqt] at hx
        rw [← anchorId_round hx]
      -- the next point on the path is regular: its proof is older than its trigger
      have hqt' : q.anchorLink .trigger ≠ .toSelf := by
        intro hs
        have : q.anchorId .trigger = some q.id := by unfold Info.anchorId; rw [hs]
        rw [hqt, hid] at this
        exact hne this
      have hqpr : q.anchorRound .proof < q.anchorRound .trigger := by
        rw [← anchorId_round hqb, hqr]; exact hbr
      have hqps : q.anchorLink .proof ≠ .toSelf := by
        intro hs
        have e1 : q.anchorRound .proof = q.round := by unfold Info.anchorRound; rw [hs]
        have e2 : q.anchorRound .trigger ≤ q.round := by
          unfold Info.anchorRound
          split
          · omega
          · omega
          · omega
          · rename_i l' hl'
            by_cases hqg : q.round = W.conf.genesisRound
            · have := (verify_genesis (h.dep hd).self.verified hqg hW.genesis_pos).1
              rw [genesis_toSelf this] at hl'; simp at hl'
            · have hqf := (h.dep hd).self.facts hW hqg
              obtain ⟨j, hj⟩ := Option.isSome_iff_exists.mp (hqf.shape.throughId_indirect hl').1
              have := (hqf.shape.throughId_indirect hl').2 j hj
              have := depIds_round_lt hqf hW.genesis_pos (throughId_mem hj)
              omega
        omega
      have hqbound : q.triggerBoundProofId = some (some b) := by
        unfold Info.triggerBoundProofId Info.inheritedProofId
        have hx := hqb
        unfold Info.anchorId at hx
        unfold Info.anchorLink at hx hqps hqt'
        have hbq : b.round < q.anchorRound .trigger := by rw [hqr]; exact hbr
        cases hrole : q.role with
        | regular a t =>
          rw [hrole] at hx
          cases a with
          | direct th =>
            simp only [Role.anchorProofLink, ALink.any] at hx
            simp [hx, Option.filter, hbq]
          | indirect l' =>
            simp only [Role.anchorProofLink, ALink.any] at hx
            injection hx with hx
            simp [Option.filter, hx, hbq]
        | anchorProof l' t => rw [hrole] at hqps; simp [Role.anchorProofLink] at hqps
        | anchorTrigger => rw [hrole] at hqt'; simp [Role.anchorTriggerLink] at hqt'
        | sticky n => rw [hrole] at hqps; simp [Role.anchorProofLink] at hqps
        | genesis => rw [hrole] at hqps; simp [Role.anchorProofLink] at hqps
      obtain ⟨t, h1, h2, h3⟩ := ih q hd b hqbound
      exact ⟨t, by rw [← hqt]; exact h1, h2, h3⟩

/-- **C51.** The trigger and the proof named by an accepted regular point agree: unless the proof is as new as the
trigger or newer, it is the very proof of that trigger, i.e. the point before the trigger. -/
theorem trigger_matches_proof {W : World} (hW : W.Ok) (p : Info) (h : AllAccepted W p) (a t : ALink)
    (hrole : p.role = .regular a t) (i j : PointId) (hi : LinksTo p .proof i) (hj : LinksTo p .trigger j) :
    j.round ≤ i.round ∨ ∃ tr, W.body j = some tr ∧ LinksTo tr .proof i := by
  have h1 := linksTo_anchorId (hW.includes_uniq _ _ h.self.known) (hW.witness_uniq _ _ h.self.known) hi
  have h2 := linksTo_anchorId (hW.includes_uniq _ _ h.self.known) (hW.witness_uniq _ _ h.self.known) hj
  by_cases hlt : i.round < j.round
  · right
    rw [anchorId_round h2] at hlt
    have hb : p.triggerBoundProofId = some (some i) := by
      unfold Info.triggerBoundProofId Info.inheritedProofId
      unfold Info.anchorId Info.anchorLink at h1
      rw [hrole] at h1 ⊢
      cases a with
      | direct th =>
        simp only [Role.anchorProofLink, ALink.any] at h1
        simp [h1, Option.filter, hlt]
      | indirect l =>
        simp only [Role.anchorProofLink, ALink.any] at h1
        injection h1 with h1
        simp [Option.filter, h1, hlt]
    obtain ⟨tr, e1, e2, e3⟩ := trigger_bound hW p h i hb
    rw [h2] at e1
    injection e1 with e1
    rw [← e1] at e2
    exact ⟨tr, e2, anchorId_linksTo e3⟩
  · exact .inl (by omega)

/-- **C51.** The same for a proof and the older proof it chains to: unless that older proof is as new as the trigger
named by the point or newer, it is the proof of that trigger. -/
theorem trigger_matches_chained_proof {W : World} (hW : W.Ok) (p : Info) (h : AllAccepted W p) (l : ILink) (t : ALink)
    (hrole : p.role = .anchorProof l t) (j : PointId) (hj : LinksTo p .trigger j) :
    j.round ≤ l.to.round ∨ ∃ tr, W.body j = some tr ∧ LinksTo tr .proof l.to := by
  have h2 := linksTo_anchorId (hW.includes_uniq _ _ h.self.known) (hW.witness_uniq _ _ h.self.known) hj
  by_cases hlt : l.to.round < j.round
  · right
    rw [anchorId_round h2] at hlt
    have hb : p.triggerBoundProofId = some (some l.to) := by
      unfold Info.triggerBoundProofId Info.inheritedProofId
      rw [hrole]
      simp [Option.filter, hlt]
    obtain ⟨tr, e1, e2, e3⟩ := trigger_bound hW p h _ hb
    rw [h2] at e1
    injection e1 with e1
    rw [← e1] at e2
    exact ⟨tr, e2, anchorId_linksTo e3⟩
  · exact .inl (by omega)

end Tycho.Verifier
