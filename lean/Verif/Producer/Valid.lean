import Verif.Producer.Verified

/-! The produced point passes `validate`. -/
namespace Tycho.Producer

open Tycho.PeerCount Tycho.Verifier

/-- The facts about a dependency make all checks pass. -/
theorem checks_none {W : World} {p q : Info} {P : Prep} (hP : prepare p = some P) (hsh : Shape p)
    (hst : W.conf.stickyAnchors < 256) (hf : DepFacts W p q.id q) (hq : (q.anchorId .proof).isSome) :
    ∀ c ∈ directChecks W.conf p P (decide (q.id.round = p.round - 1 ∧ q.id.author = p.author)) q, c = none := by
  obtain ⟨P0, hP0, ha, hb, hc, hd, he, hg⟩ := prepare_some hsh
  rw [hP0] at hP
  injection hP with hP
  subst hP
  obtain ⟨j, hj⟩ := Option.isSome_iff_exists.mp hq
  have htr : P0.triggerId.round = p.anchorRound .trigger := anchorId_round ha
  have hpr : P0.proofId.round = p.anchorRound .proof := anchorId_round hb
  unfold directChecks
  rw [List.forall_mem_append]
  constructor
  · simp only [List.mem_cons, List.not_mem_nil, or_false, forall_eq_or_imp, forall_eq, fire_eq_none]
    refine ⟨?_, ?_, ?_, ?_, ?_, ?_, ?_, ?_, ?_, ?_⟩
    · split
      · rename_i h
        simp only [decide_eq_true_eq] at h
        exact hf.prev h.1 h.2
      · rfl
    · have := hf.time; simp; omega
    · have := hf.newer .trigger; simp; omega
    · have := hf.newer .proof; simp; omega
    · by_cases h : q.id = P0.proofId
      · have := hf.proofTarget (by rw [hb, h]); simp [this]
      · simp [h]
    · split
      · rename_i h
        unfold checkTriggerTarget
        rw [if_neg (by rw [hf.triggerTarget (by rw [ha, h])]; simp)]
        cases hbd : P0.bound with
        | none => simp
        | some b =>
          have := hf.triggerTargetBound (by rw [ha, h]) b (by rw [he, hbd])
          simp [this]
      · rfl
    · by_cases h : q.id = P0.triggerThrough
      · have := hf.through .trigger (by rw [hc, h])
        rw [ha] at this
        simp [this]
      · simp [h]
    · by_cases h : q.id = P0.triggerThrough
      · by_cases h2 : P0.triggerThrough = P0.triggerId
        · simp [h2]
        · cases hbd : P0.bound with
          | none => simp
          | some b =>
            have := hf.throughBound (by rw [hc, h]) (by rw [ha, h]; simpa using fun e => h2 e.symm) b (by rw [he, hbd])
            simp [this]
      · simp [h]
    · by_cases h : q.id = P0.proofThrough
      · have := hf.through .proof (by rw [hd, h])
        rw [hb] at this
        simp [this]
      · simp [h]
    · by_cases h : q.id = P0.proofThrough
      · have := hf.throughTime (by rw [hd, h])
        simp [this]
      · simp [h]
  · cases hch : P0.chained with
    | none => simp [chainedChecks]
    | some x =>
      obtain ⟨dst, th⟩ := x
      rw [hch] at hg
      unfold chainedChecks
      rw [List.forall_mem_append]
      constructor
      · simp only [List.mem_singleton, forall_eq, fire_eq_none]
        have h1 := hf.chainedNewer dst th hg
        have h2 := anchorId_round hj
        rw [hj]
        simp; omega
      · cases th with
        | some th =>
          simp only [List.mem_singleton, forall_eq, fire_eq_none]
          by_cases h : q.id = th
          · have := hf.chainedThrough dst (by rw [hg, h])
            simp [this]
          · simp [h]
        | none =>
          simp only
          split
          · rename_i h
            have h1 := hf.chainedPrev (by rw [hg, h])
            have h2 := hf.sticky (by rw [hg, h])
            simp only [List.mem_cons, List.not_mem_nil, or_false, forall_eq_or_imp, forall_eq, fire_eq_none]
            refine ⟨by simp [h1], ?_⟩
            cases hn : p.stickyAnchors with
            | none => simp
            | some n =>
              obtain ⟨h3, h4⟩ := h2 n hn
              simp only [Option.any_some, Bool.not_eq_eq_eq_not, Bool.not_false, Bool.and_eq_true, decide_eq_true_eq]
              refine ⟨h3, ?_⟩
              cases hk : q.stickyAnchors with
              | none => rw [hk] at h4; simpa using h4
              | some k => rw [hk] at h4; simp only at h4; simp; omega
          · simp

section
variable {W : World} {last : Option LastOwn} {localId r : Nat} {leader : Option Nat} {includes witness : List Info}
  {now : Nat} {p : Info} {srcP srcT : Source} {proof trigger : ALink}

theorem mem_depIds_made (hr : Ready W last localId r includes witness now)
    (hm : Made last localId r leader includes witness now W.conf p srcP srcT proof trigger) {i : PointId} {b : Bool}
    (hi : i ∈ depIds p b) : ∃ q, (q ∈ includes ∨ q ∈ witness) ∧ q.id = i ∧ W.body i = some q := by
  have hro : p.round = r := hm.round
  have hi : i ∈ depIds p true := by
    unfold depIds at hi ⊢
    simp only [if_true]
    rcases List.mem_append.mp hi with h | h
    · split at h
      · exact List.mem_append_left _ h
      · simp at h
    · exact List.mem_append_right _ h
  rcases mem_depIds.mp hi with ⟨h1, h2⟩ | ⟨h1, h2⟩
  · rw [hm.inc] at h2
    obtain ⟨q, hq, h3, h4⟩ := mem_digests.mp h2
    have hid : q.id = i := by
      rw [id_eq_mk (hr.inc q hq).1, h3, h4, ← hro, ← h1]
    exact ⟨q, .inl hq, hid, hid ▸ (hr.inc q hq).2.self.known⟩
  · rw [hm.wit] at h2
    obtain ⟨q, hq, h3, h4⟩ := mem_digests.mp h2
    have hid : q.id = i := by
      rw [id_eq_mk (hr.wit q hq).1, h3, h4, ← hro, ← h1]
    exact ⟨q, .inr hq, hid, hid ▸ (hr.wit q hq).2.2.self.known⟩

/-- The source of the proof link names the newest proof among dependencies. -/
theorem Made.maxP (hW : W.Ok) (hr : Ready W last localId r includes witness now)
    (hm : Made last localId r leader includes witness now W.conf p srcP srcT proof trigger) {q : Info}
    (hq : q ∈ includes ∨ q ∈ witness) : q.anchorRound .proof ≤ srcP.info.anchorRound .proof := by
  rcases hm.choice with ⟨heq, hlt⟩ | ⟨_, hle⟩
  · have h1 := hlt q hq
    have h2 := trigger_round_le hW (hr.depAccepted hm.fromT.mem)
    rw [heq]
    omega
  · exact hle q hq

/-- If the named proof is older than the named trigger, both come from one source, and the trigger is the one of that
proof. -/
theorem Made.bound_trigger (hW : W.Ok) (hr : Ready W last localId r includes witness now)
    (hm : Made last localId r leader includes witness now W.conf p srcP srcT proof trigger)
    (hlt : srcP.info.anchorRound .proof < srcT.info.anchorRound .trigger) {j b : PointId} {t : Info}
    (hj : srcT.info.anchorId .trigger = some j) (ht : W.body j = some t) (hb : srcP.info.anchorId .proof = some b) :
    srcP = srcT ∧ t.anchorId .proof = some b := by
  have heq : srcP = srcT := by
    rcases hm.choice with ⟨heq, _⟩ | ⟨hle, _⟩
    · exact heq
    · omega
  refine ⟨heq, ?_⟩
  rw [heq] at hb hlt
  have hacc := hr.depAccepted hm.fromT.mem
  generalize srcT.info = q at *
  have hk := hacc.self.known
  by_cases hself : q.anchorLink .trigger = .toSelf
  · unfold Info.anchorId at hj
    rw [hself] at hj
    injection hj with hj
    rw [← hj, hk] at ht
    injection ht with ht
    rw [← ht]; exact hb
  · have hj' := anchorId_linksTo hj
    have hb' := anchorId_linksTo hb
    have hjr := anchorId_round hj
    have hbr := anchorId_round hb
    have fin : ∀ tr, W.body j = some tr → LinksTo tr .proof b → t.anchorId .proof = some b := by
      intro tr h1 h2
      rw [ht] at h1
      injection h1 with h1
      subst h1
      obtain ⟨t', h3, h4, h5, _⟩ := (anchor_links_lead_to_anchors hW q hacc .trigger).2 j hj'
      rw [ht] at h3
      injection h3 with h3
      subst h3
      have hkt := (hacc t h5).known
      exact linksTo_anchorId (hW.includes_uniq _ _ hkt) (hW.witness_uniq _ _ hkt) h2
    cases hrole : q.role with
    | regular a tl =>
      rcases trigger_matches_proof hW q hacc a tl hrole b j hb' hj' with h | ⟨tr, h1, h2⟩
      · omega
      · exact fin tr h1 h2
    | anchorProof l tl =>
      have : q.anchorLink .proof = .toSelf := by unfold Info.anchorLink; rw [hrole]; rfl
      have h1 : q.anchorRound .proof = q.round := by unfold Info.anchorRound; rw [this]
      have h2 := anchorRound_le_round hW hacc .trigger
      omega
    | anchorTrigger => exact absurd (by unfold Info.anchorLink; rw [hrole]; rfl) hself
    | sticky n => exact absurd (by unfold Info.anchorLink; rw [hrole]; rfl) hself
    | genesis => exact absurd (by unfold Info.anchorLink; rw [hrole]; rfl) hself

/-- What the produced point is bound to. -/
theorem Made.bound (hW : W.Ok) (hsch : Schedule W) (hst : W.conf.stickyAnchors < 256)
    (hr : Ready W last localId r includes witness now)
    (hm : Made last localId r leader includes witness now W.conf p srcP srcT proof trigger) {b j : PointId}
    (hb : p.triggerBoundProofId = some (some b)) (hj : p.anchorId .trigger = some j) :
    srcP.info.anchorId .proof = some b ∧ srcT.info.anchorId .trigger = some j ∧
      srcP.info.anchorRound .proof < srcT.info.anchorRound .trigger ∧ Linked p .trigger srcT := by
  have hrc := role_cases hW hsch hst hr hm
  unfold Info.triggerBoundProofId at hb
  rw [Option.map_eq_some_iff] at hb
  obtain ⟨o, ho, hb⟩ := hb
  rw [Option.filter_eq_some_iff] at hb
  obtain ⟨rfl, hlt⟩ := hb
  simp only [decide_eq_true_eq] at hlt
  unfold Info.inheritedProofId at ho
  generalize hrole : p.role = ro at hrc
  rw [hrole] at ho
  have fin : srcP.info.anchorId .proof = some b → Linked p .trigger srcT →
      srcP.info.anchorId .proof = some b ∧ srcT.info.anchorId .trigger = some j ∧
      srcP.info.anchorRound .proof < srcT.info.anchorRound .trigger ∧ Linked p .trigger srcT := by
    intro h1 h2
    have h3 : srcT.info.anchorId .trigger = some j := by rw [← h2.anchorId, hj]
    refine ⟨h1, h3, ?_, h2⟩
    rw [← anchorId_round h1, ← anchorId_round h3, anchorId_round hj]
    exact hlt
  cases hrc with
  | regular =>
    have hl := hm.linkedProof hW hr hrole
    have ht := hm.linkedTrigger hW hr (.inl ⟨_, hrole⟩)
    refine fin ?_ ht
    have : p.anchorId .proof = some b := by
      unfold Info.anchorId Info.anchorLink
      rw [hrole]
      cases proof with
      | direct t =>
        simp only [Option.map_eq_some_iff] at ho
        obtain ⟨i, h1, h2⟩ := ho
        injection h2 with h2
        rw [← h2]
        exact h1
      | indirect l =>
        simp only [Option.some.injEq] at ho
        rw [← ho]
        rfl
    rw [← hl.anchorId, this]
  | anchorProof l q0 hpr =>
    have ht := hm.linkedTrigger hW hr (.inr ⟨_, hrole⟩)
    refine fin ?_ ht
    simp only [Option.some.injEq] at ho
    rw [← ho]
    exact (hm.chainedLink hr hpr).2.1
  | anchorTrigger => simp at ho
  | sticky => simp at ho

/-- The facts that the verifier demands of each dependency. -/
theorem Made.depFacts (hW : W.Ok) (hsch : Schedule W) (hst : W.conf.stickyAnchors < 256)
    (hr : Ready W last localId r includes witness now)
    (hm : Made last localId r leader includes witness now W.conf p srcP srcT proof trigger) {q : Info}
    (hq : q ∈ includes ∨ q ∈ witness) : DepFacts W p q.id q := by
  have hro : p.round = r := hm.round
  have hau : p.author = localId := hm.author
  have hab := hr.above
  have hg := hW.genesis_pos
  have hacc := hr.depAccepted hq
  have hsh := hm.shape hW hsch hst hr
  have hrc := role_cases hW hsch hst hr hm
  have htimes := hm.times hr
  have hqr := (Source.From.round_le hr hq).1
  have hqid : q.id.round = q.round := rfl
  have hids : p.id.round = p.round := rfl
  have prevEq : q.id.round = p.round - 1 → q.id.author = p.author → byAuthor includes localId = some q := by
    intro h1 h2
    have : q ∈ includes := by
      rcases hq with hq | hq
      · exact hq
      · exact absurd (by rw [← hau]; exact h2) (hr.wit q hq).2.1
    rw [← hau, ← h2]
    exact byAuthor_of_mem hr.incOnce this
  -- what `p` names is not older than what `q` names
  have newer : ∀ s, q.anchorRound s ≤ p.anchorRound s := by
    intro s
    have hqs := anchorRound_le_round hW hacc s
    have hself : p.anchorLink s = .toSelf → q.anchorRound s ≤ p.anchorRound s := by
      intro h
      have : p.anchorRound s = p.round := by unfold Info.anchorRound; rw [h]
      omega
    have hlk : ∀ src, Linked p s src → q.anchorRound s ≤ src.info.anchorRound s → q.anchorRound s ≤ p.anchorRound s := by
      intro src hl hle
      obtain ⟨i, hi⟩ := Option.isSome_iff_exists.mp hl.isSome
      rw [← anchorId_round (hl.anchorId.trans hi), anchorId_round hi]
      exact hle
    generalize hrole : p.role = ro at hrc
    cases hrc with
    | regular =>
      cases s with
      | proof => exact hlk _ (hm.linkedProof hW hr hrole) (hm.maxP hW hr hq)
      | trigger => exact hlk _ (hm.linkedTrigger hW hr (.inl ⟨_, hrole⟩)) (hm.maxT q hq)
    | anchorProof =>
      cases s with
      | proof => exact hself (by unfold Info.anchorLink; rw [hrole]; rfl)
      | trigger => exact hlk _ (hm.linkedTrigger hW hr (.inr ⟨_, hrole⟩)) (hm.maxT q hq)
    | anchorTrigger =>
      cases s with
      | proof =>
        have : p.anchorRound .proof = p.round - 1 := by
          unfold Info.anchorRound Info.anchorLink; rw [hrole]; rfl
        omega
      | trigger => exact hself (by unfold Info.anchorLink; rw [hrole]; rfl)
    | sticky => exact hself (by unfold Info.anchorLink; rw [hrole]; cases s <;> rfl)
  -- the named points are what they are named for
  have target : ∀ s src, src.From includes witness → Linked p s src → p.anchorId s = some q.id →
      q.anchorLink s = .toSelf := by
    intro s src hf hl hid
    rw [hl.anchorId] at hid
    obtain ⟨t, h1, h2, _, h4⟩ := anchor_target hW s src.info (hr.depAccepted hf.mem)
    rw [hid] at h1
    injection h1 with h1
    rw [← h1, hacc.self.known] at h2
    injection h2 with h2
    rw [h2]; exact h4
  have notSelf : ∀ s, p.anchorLink s = .toSelf → p.anchorId s = some q.id → False := by
    intro s h1 h2
    unfold Info.anchorId at h2
    rw [h1] at h2
    injection h2 with h2
    have : p.id.round = q.id.round := by rw [h2]
    omega
  have notSelf' : ∀ s, p.anchorLink s = .toSelf → p.anchorLinkThrough s = some q.id → False := by
    intro s h1 h2
    unfold Info.anchorLinkThrough at h2
    rw [h1] at h2
    injection h2 with h2
    have : p.id.round = q.id.round := by rw [h2]
    omega
  -- a path of a link made from a source leads to the source
  have throughSrc : ∀ s src, src.From includes witness → Linked p s src → p.anchorLinkThrough s = some q.id →
      src.info = q := by
    intro s src hf hl h
    rw [hl.through] at h
    injection h with h
    have h1 := (hr.depAccepted hf.mem).self.known
    rw [h, hacc.self.known] at h1
    injection h1 with h1
    exact h1.symm
  -- the previous own point, for a trigger
  have trigPrev : ∀ q0, byAuthor includes localId = some q0 → p.role = .anchorTrigger →
      p.anchorId .proof = some q0.id ∧ p.anchorLinkThrough .proof = some q0.id ∧
        p.anchorLink .proof = .direct (.includes localId) := by
    intro q0 h0 hrole
    obtain ⟨m0, a0⟩ := byAuthor_some h0
    have hl : p.anchorLink .proof = .direct (.includes localId) := by
      unfold Info.anchorLink; rw [hrole, hau]; rfl
    have hth : p.throughId (.includes localId) = some q0.id := by
      have := from_throughId hr hm.round hm.inc hm.wit (src := ⟨q0, .includes localId⟩) (.inl ⟨m0, by rw [a0]⟩)
      exact this
    refine ⟨?_, ?_, hl⟩
    · unfold Info.anchorId; rw [hl]; exact hth
    · unfold Info.anchorLinkThrough; rw [hl]; exact hth
  have sameOf : ∀ q0, byAuthor includes localId = some q0 → q0.id = q.id → q0 = q := by
    intro q0 h0 he
    have h1 := (hr.inc q0 (byAuthor_some h0).1).2.self.known
    rw [he, hacc.self.known] at h1
    injection h1 with h1
    exact h1.symm
  have chainPrev : ∀ n, p.role = .sticky n → ∀ x th, p.chainedToThrough = some (some (x, th)) →
      th = none ∧ ∃ q0, byAuthor includes localId = some q0 ∧ x = q0.id := by
    intro n hrole x th hx
    unfold Info.chainedToThrough at hx
    rw [hrole] at hx
    simp only [Role.chained, Option.map_eq_some_iff, Option.some.injEq, Prod.mk.injEq] at hx
    obtain ⟨i, h1, rfl, rfl⟩ := hx
    generalize hro' : p.role = ro at hrc
    rw [hro'] at hrole
    subst hrole
    cases hrc with
    | sticky _ q0 h0 =>
      rw [(hm.prevDigest hr h0).2] at h1
      injection h1 with h1
      exact ⟨rfl, q0, h0, h1.symm⟩
  have chainInd : ∀ l t, p.role = .anchorProof l t → ∀ x th, p.chainedToThrough = some (some (x, th)) →
      proof = .indirect l ∧ x = l.to ∧ th = some srcP.info.id := by
    intro l t hrole x th hx
    have hpr : proof = .indirect l := by
      generalize hro' : p.role = ro at hrc
      rw [hro'] at hrole
      subst hrole
      cases hrc with
      | anchorProof _ _ h => exact h
    unfold Info.chainedToThrough at hx
    rw [hrole] at hx
    simp only [Role.chained, Option.map_eq_some_iff, Option.some.injEq, Prod.mk.injEq] at hx
    obtain ⟨i, h1, rfl, rfl⟩ := hx
    rw [(hm.chainedLink hr hpr).2.2.2] at h1
    exact ⟨hpr, rfl, h1.symm⟩
  have chainNone : (∀ n, p.role ≠ .sticky n) → (∀ l t, p.role ≠ .anchorProof l t) → ∀ x, p.chainedToThrough ≠ some (some x) := by
    intro h1 h2 x hx
    unfold Info.chainedToThrough at hx
    cases hrole : p.role with
    | sticky n => exact h1 n hrole
    | anchorProof l t => exact h2 l t hrole
    | regular => rw [hrole] at hx; simp [Role.chained] at hx
    | anchorTrigger => rw [hrole] at hx; simp [Role.chained] at hx
    | genesis => rw [hrole] at hx; simp [Role.chained] at hx
  have tTarget : p.anchorId .trigger = some q.id → q.anchorLink .trigger = .toSelf := by
    intro hid
    generalize hrole : p.role = ro at hrc
    cases hrc with
    | regular => exact target _ _ hm.fromT (hm.linkedTrigger hW hr (.inl ⟨_, hrole⟩)) hid
    | anchorProof => exact target _ _ hm.fromT (hm.linkedTrigger hW hr (.inr ⟨_, hrole⟩)) hid
    | anchorTrigger => exact (notSelf .trigger (by unfold Info.anchorLink; rw [hrole]; rfl) hid).elim
    | sticky => exact (notSelf .trigger (by unfold Info.anchorLink; rw [hrole]; rfl) hid).elim
  constructor
  case body => exact hacc.self.known
  case id => rfl
  case prev =>
    intro h1 h2
    have h0 := prevEq h1 h2
    unfold isProofOk
    rw [if_neg, if_neg, if_neg]
    · simp only [Bool.and_eq_true, decide_eq_true_eq, not_and]
      intro hs
      have := htimes.2.2.2.1 hs q h0
      simp [this]
    · have := htimes.2.2.1 q h0; omega
    · simp only [Bool.and_eq_true, decide_eq_true_eq, not_and]
      intro hs
      generalize hrole : p.role = ro at hrc
      cases hrc with
      | regular h => exact absurd hs (h q h0)
      | anchorProof l q0 _ _ _ h hns =>
        rw [h0] at h; injection h with h; subst h
        exact absurd hs hns
      | anchorTrigger => unfold Info.anchorLink; rw [hrole]; simp [Role.anchorTriggerLink]
      | sticky => unfold Info.anchorLink; rw [hrole]; simp [Role.anchorTriggerLink]
  case time =>
    have h1 := hr.clock q hq
    have h2 := htimes.1
    omega
  case newer => exact newer
  case proofTarget =>
    intro hid
    generalize hrole : p.role = ro at hrc
    cases hrc with
    | regular => exact target _ _ hm.fromP (hm.linkedProof hW hr hrole) hid
    | anchorProof => exact (notSelf .proof (by unfold Info.anchorLink; rw [hrole]; rfl) hid).elim
    | anchorTrigger q0 h0 hs0 =>
      have := (trigPrev q0 h0 hrole).1
      rw [hid] at this
      injection this with this
      rw [← sameOf q0 h0 this.symm]
      exact hs0
    | sticky => exact (notSelf .proof (by unfold Info.anchorLink; rw [hrole]; rfl) hid).elim
  case triggerTarget => exact tTarget
  case triggerTargetBound =>
    intro hid b hb
    obtain ⟨h1, h2, h3, _⟩ := hm.bound hW hsch hst hr hb hid
    exact (hm.bound_trigger hW hr h3 h2 hacc.self.known h1).2
  case through =>
    intro s hth
    have hlk : ∀ src, src.From includes witness → Linked p s src → q.anchorId s = p.anchorId s := by
      intro src hf hl
      rw [hl.anchorId, throughSrc s src hf hl hth]
    generalize hrole : p.role = ro at hrc
    cases hrc with
    | regular =>
      cases s with
      | proof => exact hlk _ hm.fromP (hm.linkedProof hW hr hrole)
      | trigger => exact hlk _ hm.fromT (hm.linkedTrigger hW hr (.inl ⟨_, hrole⟩))
    | anchorProof =>
      cases s with
      | proof => exact (notSelf' .proof (by unfold Info.anchorLink; rw [hrole]; rfl) hth).elim
      | trigger => exact hlk _ hm.fromT (hm.linkedTrigger hW hr (.inr ⟨_, hrole⟩))
    | anchorTrigger q0 h0 hs0 =>
      cases s with
      | proof =>
        obtain ⟨h1, h2, _⟩ := trigPrev q0 h0 hrole
        rw [hth] at h2
        injection h2 with h2
        have := sameOf q0 h0 h2.symm
        subst this
        rw [h1]
        unfold Info.anchorId; rw [hs0]
      | trigger => exact (notSelf' .trigger (by unfold Info.anchorLink; rw [hrole]; rfl) hth).elim
    | sticky => exact (notSelf' s (by unfold Info.anchorLink; rw [hrole]; cases s <;> rfl) hth).elim
  case throughBound =>
    intro hth hne b hb
    obtain ⟨j, hj⟩ := Option.isSome_iff_exists.mp (anchorId_isSome hsh .trigger)
    obtain ⟨h1, h2, h3, hl⟩ := hm.bound hW hsch hst hr hb hj
    have heq : srcP = srcT := by
      rcases hm.choice with ⟨heq, _⟩ | ⟨hle, _⟩
      · exact heq
      · omega
    rw [← throughSrc .trigger srcT hm.fromT hl hth, ← heq]
    exact h1
  case throughTime =>
    intro hth
    generalize hrole : p.role = ro at hrc
    cases hrc with
    | regular =>
      have hl := hm.linkedProof hW hr hrole
      have hsrc := throughSrc .proof srcP hm.fromP hl hth
      have : p.anchorLink .proof = proof.any := by unfold Info.anchorLink; rw [hrole]; rfl
      rw [← hsrc]
      refine (htimes.2.2.2.2 srcP hm.fromP ?_).symm
      rcases link_cases hr hm.fromP hm.linkP with ⟨_, h, _⟩ | ⟨_, dst, _, h⟩
      · rw [this, h]; exact .inl rfl
      · rw [this, h]; exact .inr ⟨dst, rfl⟩
    | anchorProof => exact (notSelf' .proof (by unfold Info.anchorLink; rw [hrole]; rfl) hth).elim
    | anchorTrigger q0 h0 hs0 =>
      obtain ⟨_, h2, h3⟩ := trigPrev q0 h0 hrole
      rw [hth] at h2
      injection h2 with h2
      have := sameOf q0 h0 h2.symm
      subst this
      obtain ⟨m0, a0⟩ := byAuthor_some h0
      exact (htimes.2.2.2.2 ⟨q0, .includes localId⟩ (.inl ⟨m0, by rw [a0]⟩) (.inl h3)).symm
    | sticky => exact (notSelf' .proof (by unfold Info.anchorLink; rw [hrole]; rfl) hth).elim
  case chainedNewer =>
    intro x th hx
    have hqs := anchorRound_le_round hW hacc .proof
    cases hrole : p.role with
    | sticky n =>
      obtain ⟨_, q0, h0, rfl⟩ := chainPrev n hrole x th hx
      have := (hr.inc q0 (byAuthor_some h0).1).1
      have : q0.id.round = q0.round := rfl
      omega
    | anchorProof l t =>
      obtain ⟨hpr, rfl, _⟩ := chainInd l t hrole x th hx
      rw [anchorId_round (hm.chainedLink hr hpr).2.1]
      exact hm.maxP hW hr hq
    | _ => exact (chainNone (by simp [hrole]) (by simp [hrole]) _ hx).elim
  case chainedThrough =>
    intro x hx
    cases hrole : p.role with
    | sticky n => have := (chainPrev n hrole x _ hx).1; simp at this
    | anchorProof l t =>
      obtain ⟨hpr, rfl, h3⟩ := chainInd l t hrole x _ hx
      injection h3 with h3
      have h1 := (hr.depAccepted hm.fromP.mem).self.known
      rw [← h3, hacc.self.known] at h1
      injection h1 with h1
      rw [h1]
      exact (hm.chainedLink hr hpr).2.1
    | _ => exact (chainNone (by simp [hrole]) (by simp [hrole]) _ hx).elim
  case chainedPrev =>
    intro hx
    cases hrole : p.role with
    | sticky n =>
      obtain ⟨_, q0, h0, he⟩ := chainPrev n hrole _ _ hx
      have := sameOf q0 h0 he.symm
      subst this
      rw [hrole] at hrc
      cases hrc with
      | sticky _ q' h' hs' => rw [h0] at h'; injection h' with h'; subst h'; exact hs'
    | anchorProof l t => have := (chainInd l t hrole _ _ hx).2.2; simp at this
    | _ => exact (chainNone (by simp [hrole]) (by simp [hrole]) _ hx).elim
  case sticky =>
    intro hx n hn
    cases hrole : p.role with
    | sticky m =>
      have hnm : m = n := by
        unfold Info.stickyAnchors at hn; rw [hrole] at hn; simpa [Role.chained] using hn
      subst hnm
      obtain ⟨_, q0, h0, he⟩ := chainPrev m hrole _ _ hx
      have := sameOf q0 h0 he.symm
      subst this
      rw [hrole] at hrc
      cases hrc with
      | sticky _ q' h' _ hlt hseq =>
        rw [h0] at h'; injection h' with h'; subst h'
        exact ⟨hlt, hseq⟩
    | anchorProof l t => unfold Info.stickyAnchors at hn; rw [hrole] at hn; simp [Role.chained] at hn
    | _ => exact (chainNone (by simp [hrole]) (by simp [hrole]) _ hx).elim

end

end Tycho.Producer
