import Verif.Producer.Roles

/-! The produced point passes `verify`. -/
namespace Tycho.Producer

open Tycho.PeerCount Tycho.Verifier

theorem structure_of_shape {p : Info} (h : Shape p) : p.checkStructure false = none := by
  unfold Info.checkStructure
  simp only [Bool.false_eq_true, if_false]
  rw [if_neg h.notGenesis]
  unfold Info.nonGenesisStructure
  dsimp only
  rw [if_neg, if_neg, if_neg, if_neg]
  · rw [or_eq_none', or_eq_none', or_eq_none']
    have hst : ∀ s, p.stageError s = none := by
      intro s
      unfold Info.stageError
      rw [or_eq_none']
      refine ⟨by rw [h.link s]; rfl, ?_⟩
      rw [if_neg]
      simp only [Bool.and_eq_true, decide_eq_true_eq, not_and]
      intro he hself
      have := h.link s
      unfold Info.linkError at this
      rw [hself] at this
      simp only at this
      split at this
      · rename_i hh
        rw [h.evidence, hh] at he
        simp at he
      · simp at this
    refine ⟨⟨h.chained, hst _, hst _⟩, ?_⟩
    rw [if_neg (by have := h.time; omega)]
  · rw [h.witnessAuthor]; simp
  · rw [h.evidenceAuthor]; simp
  · rw [h.evidence]; cases p.includes.has p.author <;> simp
  · simp only [Bool.and_eq_true, Bool.not_eq_eq_eq_not, Bool.not_true, not_and, Bool.not_eq_false]
    exact h.requiresPrev

section
variable {W : World} {last : Option LastOwn} {localId r : Nat} {leader : Option Nat} {includes witness : List Info}
  {now : Nat} {p : Info} {srcP srcT : Source} {proof trigger : ALink}

theorem Made.has_iff (hr : Ready W last localId r includes witness now)
    (hm : Made last localId r leader includes witness now W.conf p srcP srcT proof trigger) :
    p.includes.has p.author = (byAuthor includes localId).isSome := by
  rw [Bool.eq_iff_iff, PMap.has_iff]
  have ha : p.author = localId := hm.author
  rw [hm.inc, ha]
  constructor
  · rintro ⟨d, hd⟩
    obtain ⟨q, hq, h1, h2⟩ := mem_digests.mp hd
    rw [← h1, byAuthor_of_mem hr.incOnce hq]
    rfl
  · intro h
    obtain ⟨q, hq⟩ := Option.isSome_iff_exists.mp h
    obtain ⟨h1, h2⟩ := byAuthor_some hq
    exact ⟨q.id.digest, mem_digests.mpr ⟨q, h1, h2, rfl⟩⟩

theorem Made.prevDigest (hr : Ready W last localId r includes witness now)
    (hm : Made last localId r leader includes witness now W.conf p srcP srcT proof trigger) {q0 : Info}
    (h0 : byAuthor includes localId = some q0) : p.prevDigest = some q0.id.digest ∧ p.prevId = some q0.id := by
  obtain ⟨h1, h2⟩ := byAuthor_some h0
  have ha : p.author = localId := hm.author
  have hd : p.prevDigest = some q0.id.digest := by
    unfold Info.prevDigest
    rw [hm.inc, ha, ← h2]
    exact digests_get hr.incOnce h1
  refine ⟨hd, ?_⟩
  unfold Info.prevId
  rw [hd]
  have hro : p.round = r := hm.round
  simp only [Option.map_some, Option.some.injEq, hro, ha]
  rw [← h2]
  exact (id_eq_mk (hr.inc _ h1).1).symm

theorem tryFrom_pos {n : Nat} {c : PeerCount} (h : tryFrom n = .ok c) : c.oneF = (n + 1) / 3 ∧ 1 ≤ c.oneF := by
  unfold tryFrom at h
  split at h
  · simp at h
  · dsimp only at h
    split at h
    · injection h with h
      subst h
      dsimp only
      omega
    · simp at h

theorem Made.evidence_cases (hr : Ready W last localId r includes witness now)
    (hm : Made last localId r leader includes witness now W.conf p srcP srcT proof trigger) :
    (byAuthor includes localId = none ∧ p.evidence = []) ∨
    (∃ q0, byAuthor includes localId = some q0 ∧ (∀ e ∈ p.evidence, e.1 ∈ W.peersFor r ∧ e.1 ≠ localId) ∧
      p.evidence ≠ [] ∧ ∃ c, tryFrom (W.peersFor r).length = .ok c ∧ c.majorityOfOthers ≤ p.evidence.length) := by
  cases hl : last.filter (fun l => l.round = r - 1) with
  | none =>
    have h1 := hm.prev
    have h2 := hm.ev
    rw [hl] at h1 h2
    exact .inl ⟨by simpa using h1, by simpa using h2⟩
  | some l =>
    have h1 := hm.prev
    have h2 := hm.ev
    have h3 := hm.enough l hl
    rw [hl] at h1 h2
    rw [Option.filter_eq_some_iff] at hl
    obtain ⟨hc, he⟩ := hr.evidence l hl.1 (by simpa using hl.2)
    simp only [Option.map_some, Option.map_eq_some_iff, Option.getD_some] at h1 h2
    obtain ⟨q0, hq0, _⟩ := h1
    refine .inr ⟨q0, hq0, by rw [h2]; exact he, ?_, l.signers, hc, by rw [h2]; exact h3⟩
    have := (tryFrom_pos hc).2
    unfold PeerCount.majorityOfOthers at h3
    rw [h2]
    intro hcon
    rw [hcon] at h3
    simp at h3
    omega

/-- Time of the produced point. -/
theorem Made.times (hr : Ready W last localId r includes witness now)
    (hm : Made last localId r leader includes witness now W.conf p srcP srcT proof trigger) :
    now ≤ p.time ∧ p.anchorTime < p.time ∧ (∀ q0, byAuthor includes localId = some q0 → q0.time < p.time) ∧
    (p.anchorLink .proof = .toSelf → ∀ q0, byAuthor includes localId = some q0 → p.anchorTime = q0.time) ∧
    (∀ src : Source, src.From includes witness → (p.anchorLink .proof = .direct src.path ∨
      ∃ i, p.anchorLink .proof = .indirect ⟨i, src.path⟩) → p.anchorTime = src.info.anchorTime) := by
  have ht := hm.time
  have hlink : p.role.anchorProofLink localId = p.anchorLink .proof := by
    unfold Info.anchorLink; rw [show p.author = localId from hm.author]
  rw [hlink] at ht
  unfold getTime at ht
  rw [Option.map_eq_some_iff] at ht
  obtain ⟨at', h1, h2⟩ := ht
  simp only [Prod.mk.injEq] at h2
  obtain ⟨ht, rfl⟩ := h2
  refine ⟨by rw [← ht]; exact Nat.le_max_left _ _, ?_, ?_, ?_, ?_⟩
  · rw [← ht]; cases byAuthor includes localId <;> simp only <;> omega
  · intro q0 hq; rw [← ht, hq]; simp only; omega
  · intro hs q0 hq
    rw [hs, hq] at h1
    simpa [anchorTimeOf] using h1.symm
  · rintro src hsrc hl
    have key : (match src.path with
      | .includes a => (byAuthor includes a).map (·.anchorTime)
      | .witness a => (byAuthor witness a).map (·.anchorTime)) = some p.anchorTime := by
      rcases hl with hl | ⟨i, hl⟩ <;> · rw [hl] at h1; exact h1
    rcases hsrc with ⟨hmem, hp⟩ | ⟨hmem, hp⟩
    · rw [hp] at key
      simp only [byAuthor_of_mem hr.incOnce hmem] at key
      simpa using key.symm
    · rw [hp] at key
      simp only [byAuthor_of_mem hr.witOnce hmem] at key
      simpa using key.symm

theorem Made.linkedProof (hW : W.Ok) (hr : Ready W last localId r includes witness now)
    (hm : Made last localId r leader includes witness now W.conf p srcP srcT proof trigger) {t : ALink}
    (h : p.role = .regular proof t) : Linked p .proof srcP :=
  linked hW hr hm.round hm.inc hm.wit hm.fromP hm.linkP (by unfold Info.anchorLink; rw [h]; rfl)

theorem Made.linkedTrigger (hW : W.Ok) (hr : Ready W last localId r includes witness now)
    (hm : Made last localId r leader includes witness now W.conf p srcP srcT proof trigger)
    (h : (∃ a, p.role = .regular a trigger) ∨ ∃ l, p.role = .anchorProof l trigger) : Linked p .trigger srcT :=
  linked hW hr hm.round hm.inc hm.wit hm.fromT hm.linkT (anchorLink_trigger_cases h)

/-- The chained link of a produced proof. -/
theorem Made.chainedLink (hr : Ready W last localId r includes witness now)
    (hm : Made last localId r leader includes witness now W.conf p srcP srcT proof trigger) {l : ILink}
    (h : proof = .indirect l) : srcP.info.anchorLink .proof ≠ .toSelf ∧ srcP.info.anchorId .proof = some l.to ∧
      l.path = srcP.path ∧ p.throughId l.path = some srcP.info.id := by
  rcases link_cases hr hm.fromP hm.linkP with ⟨_, h2, _⟩ | ⟨h1, dst, h2, h3⟩
  · rw [h] at h2; simp at h2
  · rw [h] at h3
    injection h3 with h3
    subst h3
    exact ⟨h1, h2, rfl, from_throughId hr hm.round hm.inc hm.wit hm.fromP⟩

theorem Made.shape (hW : W.Ok) (hsch : Schedule W) (hst : W.conf.stickyAnchors < 256)
    (hr : Ready W last localId r includes witness now)
    (hm : Made last localId r leader includes witness now W.conf p srcP srcT proof trigger) : Shape p := by
  have hro : p.round = r := hm.round
  have hau : p.author = localId := hm.author
  have hg := hW.genesis_pos
  have hab := hr.above
  have hhas := hm.has_iff hr
  have hrc := role_cases hW hsch hst hr hm
  have htimes := hm.times hr
  constructor
  · generalize p.role = ro at hrc; cases hrc <;> simp
  · intro _
    rename_i hreq
    rw [hhas]
    generalize p.role = ro at hrc hreq
    cases hrc with
    | regular => simp [Role.requiresPrev] at hreq
    | anchorProof _ _ _ _ _ h => rw [h]; rfl
    | anchorTrigger _ h => rw [h]; rfl
    | sticky _ _ h => rw [h]; rfl
  · rw [hhas]
    rcases hm.evidence_cases hr with ⟨h1, h2⟩ | ⟨q0, h1, _, h2, _⟩
    · rw [h1, h2]; rfl
    · rw [h1]
      cases he : p.evidence with
      | nil => exact absurd he h2
      | cons => rfl
  · rw [Bool.eq_false_iff]
    intro hcon
    obtain ⟨v, hv⟩ := PMap.has_iff.mp hcon
    rcases hm.evidence_cases hr with ⟨_, h2⟩ | ⟨_, _, h2, _⟩
    · rw [h2] at hv; simp at hv
    · exact (h2 _ hv).2 hau
  · rw [Bool.eq_false_iff]
    intro hcon
    obtain ⟨v, hv⟩ := PMap.has_iff.mp hcon
    rw [hm.wit] at hv
    obtain ⟨q, hq, h1, _⟩ := mem_digests.mp hv
    exact (hr.wit q hq).2.1 (by rw [h1, hau])
  · unfold Info.chainedError
    generalize hrole : p.role = ro at hrc
    cases hrc with
    | regular => rfl
    | anchorTrigger => rfl
    | sticky n q0 h => simp only [Role.chained]; rw [hhas, h]; rfl
    | anchorProof l q0 hl hlead hfar h0 hns =>
      simp only [Role.chained]
      have hfar' : l.to.round < r - 1 - 1 := by
        rw [hl] at hfar
        unfold farEnough at hfar
        simp only at hfar
        split at hfar <;> simp at hfar <;> omega
      rw [if_neg (by omega)]
      obtain ⟨h1, h2, h3, h4⟩ := hm.chainedLink hr hl
      rw [Option.map_eq_none_iff]
      unfold Info.indirectLinkError
      unfold Info.throughId at h4
      cases hp : l.path with
      | includes a =>
        rw [hp] at h4
        simp only [Option.map_eq_some_iff] at h4
        obtain ⟨d, hd, _⟩ := h4
        have : p.includes.has a = true := by rw [PMap.has_iff_get?, hd]; rfl
        simp only [this]
        rw [if_neg (by simp; omega)]
      | witness a =>
        rw [hp] at h4
        simp only [Option.map_eq_some_iff] at h4
        obtain ⟨d, hd, _⟩ := h4
        have : p.witness.has a = true := by rw [PMap.has_iff_get?, hd]; rfl
        simp only [this]
        rw [if_neg (by simp; omega)]
  · intro s
    generalize hrole : p.role = ro at hrc
    have hself : (byAuthor includes localId).isSome → p.anchorLink s = .toSelf → p.linkError s = none := by
      intro h1 h2
      unfold Info.linkError
      rw [h2]
      simp [hhas, h1]
    cases hrc with
    | regular =>
      cases s with
      | proof => exact (hm.linkedProof hW hr hrole).ok
      | trigger => exact (hm.linkedTrigger hW hr (.inl ⟨_, hrole⟩)).ok
    | anchorProof l q0 _ _ _ h0 =>
      cases s with
      | proof => exact hself (by rw [h0]; rfl) (by unfold Info.anchorLink; rw [hrole]; rfl)
      | trigger => exact (hm.linkedTrigger hW hr (.inr ⟨_, hrole⟩)).ok
    | anchorTrigger q0 h0 =>
      cases s with
      | proof =>
        have : p.anchorLink .proof = .direct (.includes p.author) := by unfold Info.anchorLink; rw [hrole]; rfl
        unfold Info.linkError
        rw [this]
        simp [hhas, h0]
      | trigger => exact hself (by rw [h0]; rfl) (by unfold Info.anchorLink; rw [hrole]; rfl)
    | sticky n q0 h0 =>
      exact hself (by rw [h0]; rfl) (by unfold Info.anchorLink; rw [hrole]; cases s <;> rfl)
  · exact htimes.2.1

/-- What the produced point names is what its source names; used for both stages. -/
theorem Made.anchorRound_low (hW : W.Ok) (hsch : Schedule W) (hst : W.conf.stickyAnchors < 256)
    (hr : Ready W last localId r includes witness now)
    (hm : Made last localId r leader includes witness now W.conf p srcP srcT proof trigger) (s : Stage) :
    W.conf.genesisRound ≤ p.anchorRound s := by
  have hro : p.round = r := hm.round
  have hab := hr.above
  have hrc := role_cases hW hsch hst hr hm
  generalize hrole : p.role = ro at hrc
  have hself : p.anchorLink s = .toSelf → W.conf.genesisRound ≤ p.anchorRound s := by
    intro h; unfold Info.anchorRound; rw [h]; simp only; omega
  have hlinked : ∀ src : Source, src.From includes witness → Linked p s src → W.conf.genesisRound ≤ p.anchorRound s := by
    intro src hf hl
    obtain ⟨i, hi⟩ := Option.isSome_iff_exists.mp hl.isSome
    have h1 := hl.anchorId
    rw [hi] at h1
    rw [← anchorId_round h1, anchorId_round hi]
    exact (depOk hW (hr.depAccepted hf.mem)).low s
  cases hrc with
  | regular =>
    cases s with
    | proof => exact hlinked _ hm.fromP (hm.linkedProof hW hr hrole)
    | trigger => exact hlinked _ hm.fromT (hm.linkedTrigger hW hr (.inl ⟨_, hrole⟩))
  | anchorProof l q0 _ _ _ h0 =>
    cases s with
    | proof => exact hself (by unfold Info.anchorLink; rw [hrole]; rfl)
    | trigger => exact hlinked _ hm.fromT (hm.linkedTrigger hW hr (.inr ⟨_, hrole⟩))
  | anchorTrigger q0 h0 =>
    cases s with
    | proof =>
      have : p.anchorLink .proof = .direct (.includes p.author) := by unfold Info.anchorLink; rw [hrole]; rfl
      unfold Info.anchorRound
      rw [this]; simp only; omega
    | trigger => exact hself (by unfold Info.anchorLink; rw [hrole]; rfl)
  | sticky n q0 h0 => exact hself (by unfold Info.anchorLink; rw [hrole]; cases s <;> rfl)

theorem peerCountFor_later (hsch : Schedule W) {k : Nat} (h : W.conf.genesisRound < k) (ro : Nat) (m : MapKind) :
    ∃ c, peerCountFor false (W.peersFor k).length ro m = .ok c ∧ tryFrom (W.peersFor k).length = .ok c ∧ c ≠ genesis ∧
      c.majority = 2 * (((W.peersFor k).length + 1) / 3) + 1 := by
  obtain ⟨h1, h2⟩ := hsch.later k h
  have ht : tryFrom (W.peersFor k).length = .ok ⟨((W.peersFor k).length + 1) / 3 % 256⟩ := by
    unfold tryFrom
    rw [if_neg (by omega)]
    dsimp only
    rw [if_pos h2]
  have hmod : ((W.peersFor k).length + 1) / 3 % 256 = ((W.peersFor k).length + 1) / 3 := Nat.mod_eq_of_lt (by omega)
  rw [hmod] at ht
  refine ⟨_, ?_, ht, ?_, ?_⟩
  · unfold peerCountFor
    simp [ht]
  · unfold genesis
    intro hcon
    injection hcon with hcon
    omega
  · unfold PeerCount.majority
    simp only
    omega

theorem peerCountFor_genesis (hsch : Schedule W) (ro : Nat) (m : MapKind) :
    peerCountFor true (W.peersFor W.conf.genesisRound).length ro m = .ok genesis := by
  unfold peerCountFor
  simp [hsch.genesis, genesis, PeerCount.full]

/-- Peer sets of the verifier for a round above genesis. -/
theorem inner_ok (hsch : Schedule W) (hg : 0 < W.conf.genesisRound) (hab : W.conf.genesisRound < p.round) :
    ∃ c inner, Inner.new p W.peersFor W.conf = .ok inner ∧ inner.same = (c, W.peersFor p.round) ∧ c ≠ genesis ∧
      tryFrom (W.peersFor p.round).length = .ok c ∧
      (∃ ci, inner.includesPeers = some (ci, W.peersFor (p.round - 1)) ∧ ci.majority = quorum W (p.round - 1)) ∧
      (inner.witnessPeers = none ∨ ∃ cw, inner.witnessPeers = some (cw, W.peersFor (p.round - 1 - 1))) ∧
      (inner.witnessPeers = none → p.round - 1 = W.conf.genesisRound) := by
  obtain ⟨ca, ha, hta, hca, _⟩ := peerCountFor_later hsch hab p.round .evidence
  unfold Inner.new
  dsimp only
  match hn : p.round - (W.conf.genesisRound - 1) with
  | 0 => omega
  | 1 => omega
  | 2 =>
    have hr1 : p.round - 1 = W.conf.genesisRound := by omega
    have hb := peerCountFor_genesis hsch (p.round - 1) .includes
    rw [← hr1] at hb
    refine ⟨ca, ⟨(ca, W.peersFor p.round), some (genesis, W.peersFor (p.round - 1)), none⟩, ?_, rfl, hca, hta, ?_, .inl rfl,
      fun _ => hr1⟩
    · simp only [bind, Except.bind, ha, hb, pure, Except.pure]
    · exact ⟨genesis, rfl, by unfold quorum; rw [if_pos hr1]; rfl⟩
  | n + 3 =>
    have hr1 : W.conf.genesisRound < p.round - 1 := by omega
    obtain ⟨cb, hb, _, _, hmaj⟩ := peerCountFor_later hsch hr1 (p.round - 1) .includes
    obtain ⟨cc, hc⟩ : ∃ cc, peerCountFor (decide (n = 0)) (W.peersFor (p.round - 1 - 1)).length (p.round - 1 - 1) .witness = .ok cc := by
      by_cases h0 : n = 0
      · have : p.round - 1 - 1 = W.conf.genesisRound := by omega
        refine ⟨genesis, ?_⟩
        rw [decide_eq_true h0, this]
        exact peerCountFor_genesis hsch _ _
      · obtain ⟨cc, h, _⟩ := peerCountFor_later hsch (k := p.round - 1 - 1) (by omega) (p.round - 1 - 1) .witness
        refine ⟨cc, ?_⟩
        rw [decide_eq_false h0]
        exact h
    refine ⟨ca, ⟨(ca, W.peersFor p.round), some (cb, W.peersFor (p.round - 1)), some (cc, W.peersFor (p.round - 1 - 1))⟩, ?_, rfl,
      hca, hta, ?_, .inr ⟨cc, rfl⟩, ?_⟩
    · simp only [bind, Except.bind, ha, hb, hc, pure, Except.pure]
    · exact ⟨cb, rfl, by unfold quorum; rw [if_neg (by omega)]; exact hmaj⟩
    · intro h; simp at h

/-- The author of a named anchor is scheduled in its round. -/
theorem target_author (hW : W.Ok) {q : Info} (h : AllAccepted W q) {s : Stage} {i : PointId} (hi : q.anchorId s = some i) :
    i.author ∈ W.peersFor i.round := by
  obtain ⟨t, h1, h2, h3, h4⟩ := anchor_target hW s q h
  rw [h1] at hi
  injection hi with hi
  rw [← hi]
  exact verify_author (h t h3).verified

/-- **C57.** A point made by an honest node in a legal situation passes `verify`. -/
theorem produced_point_verified (hW : W.Ok) (hsch : Schedule W) (hst : W.conf.stickyAnchors < 256)
    (hr : Ready W last localId r includes witness now) {digest n b : Nat} (hb : b ≤ W.conf.payloadBatchBytes)
    (hc : create last localId r leader includes witness now digest n b W.conf = .ok p) :
    verify p W.peersFor W.conf = .ok := by
  obtain ⟨hbytes, srcP, srcT, proof, trigger, hm⟩ := create_made hc
  have hro : p.round = r := hm.round
  have hau : p.author = localId := hm.author
  have hab := hr.above
  have hsh := hm.shape hW hsch hst hr
  have hrc := role_cases hW hsch hst hr hm
  obtain ⟨c, inner, hin, hsame, hcg, htry, ⟨ci, hinc, hmaj⟩, hwit, hwit0⟩ :=
    inner_ok (p := p) hsch hW.genesis_pos (by omega)
  unfold verify
  rw [hin]
  simp only
  have e1 : indirectPeersError p W.peersFor = none := by
    unfold indirectPeersError
    dsimp only
    have hlk : ∀ s src l, src.From includes witness → Linked p s src → p.anchorLink s = .indirect l →
        l.to.author ∈ W.peersFor l.to.round := by
      intro s src l hf hl he
      exact target_author hW (hr.depAccepted hf.mem) (hl.indirect l he).2.1
    have hP : ∀ l, p.anchorLink .proof = .indirect l → l.to.author ∈ W.peersFor l.to.round := by
      intro l hl
      generalize hrole : p.role = ro at hrc
      have hl' := hl
      unfold Info.anchorLink at hl'
      rw [hrole] at hl'
      cases hrc with
      | regular => exact hlk _ _ _ hm.fromP (hm.linkedProof hW hr hrole) hl
      | anchorProof => simp [Role.anchorProofLink] at hl'
      | anchorTrigger => simp [Role.anchorProofLink] at hl'
      | sticky => simp [Role.anchorProofLink] at hl'
    have hT : ∀ l, p.anchorLink .trigger = .indirect l → l.to.author ∈ W.peersFor l.to.round := by
      intro l hl
      generalize hrole : p.role = ro at hrc
      have hl' := hl
      unfold Info.anchorLink at hl'
      rw [hrole] at hl'
      cases hrc with
      | regular => exact hlk _ _ _ hm.fromT (hm.linkedTrigger hW hr (.inl ⟨_, hrole⟩)) hl
      | anchorProof => exact hlk _ _ _ hm.fromT (hm.linkedTrigger hW hr (.inr ⟨_, hrole⟩)) hl
      | anchorTrigger => simp [Role.anchorTriggerLink] at hl'
      | sticky => simp [Role.anchorTriggerLink] at hl'
    have hC : ∀ l, p.indirectAnchorProof = some l → l.to.author ∈ W.peersFor l.to.round := by
      intro l hl
      unfold Info.indirectAnchorProof at hl
      generalize hrole : p.role = ro at hrc
      rw [hrole] at hl
      cases hrc with
      | regular => simp [Role.chained] at hl
      | anchorProof l' _ hpr =>
        simp [Role.chained] at hl
        subst hl
        exact target_author hW (hr.depAccepted hm.fromP.mem) (hm.chainedLink hr hpr).2.1
      | anchorTrigger => simp [Role.chained] at hl
      | sticky => simp [Role.chained] at hl
    rw [if_neg, if_neg, if_neg]
    · cases hl : p.anchorLink .trigger <;> simp
      exact hT _ hl
    · cases hl : p.anchorLink .proof <;> simp
      exact hP _ hl
    · cases hl : p.indirectAnchorProof <;> simp
      exact hC _ hl
  have e2 : wellFormedError p W.conf = none := by
    unfold wellFormedError
    rw [if_neg (by omega), if_neg (by omega), structure_of_shape hsh]
    simp only
    rw [if_neg, if_neg]
    · have hlow := hm.anchorRound_low hW hsch hst hr
      have h1 := hlow .proof
      have h2 := hlow .trigger
      have h3 : ∀ x, p.chainedToRound = some x → W.conf.genesisRound ≤ x := by
        intro x hx
        unfold Info.chainedToRound at hx
        generalize hrole : p.role = ro at hrc
        rw [hrole] at hx
        cases hrc with
        | regular => simp [Role.chained] at hx
        | anchorProof l' _ hpr =>
          simp [Role.chained] at hx
          rw [← hx, anchorId_round (hm.chainedLink hr hpr).2.1]
          exact (depOk hW (hr.depAccepted hm.fromP.mem)).low _
        | anchorTrigger => simp [Role.chained] at hx
        | sticky => simp [Role.chained] at hx; omega
      cases hx : p.chainedToRound with
      | none => simp; omega
      | some x => have := h3 x hx; simp; omega
    · unfold Info.stickyAnchors
      generalize hrole : p.role = ro at hrc
      cases hrc with
      | regular => simp [Role.chained]
      | anchorProof => simp [Role.chained]
      | anchorTrigger => simp [Role.chained]
      | sticky n _ _ _ h => simp [Role.chained]; exact h
  have e3 : peersError p inner = none := by
    unfold peersError
    rw [or_eq_none', or_eq_none']
    refine ⟨?_, ?_, ?_⟩
    · unfold evidencePeersError
      rw [hsame]
      simp only
      rw [if_neg (by rw [hro, hau]; simpa using hr.author)]
      rcases hm.evidence_cases hr with ⟨_, h2⟩ | ⟨q0, _, h2, h3, c', h4, h5⟩
      · rw [h2]; rfl
      · rw [if_neg (by simpa using h3), if_neg hcg, if_neg, if_neg]
        · rw [hro] at htry
          rw [htry] at h4
          injection h4 with h4
          rw [h4]; omega
        · simp only [List.any_eq_true, decide_eq_true_eq, not_exists, not_and, Decidable.not_not]
          intro e he
          rw [hro]
          exact (h2 e he).1
    · rw [hinc]
      unfold includesPeersError
      simp only
      rw [if_neg, if_neg]
      · rw [hmaj, hm.inc, hro]
        have := hr.incQuorum
        unfold digests
        rw [List.length_map]
        omega
      · simp only [List.any_eq_true, decide_eq_true_eq, not_exists, not_and, Decidable.not_not]
        intro e he
        rw [hm.inc] at he
        obtain ⟨q, hq, h1, _⟩ := mem_digests.mp (show (e.1, e.2) ∈ digests includes from he)
        rw [← h1, hro, ← (hr.inc q hq).1]
        exact (depOk hW (hr.inc q hq).2).author
    · rcases hwit with hw | ⟨cw, hw⟩
      · rw [hw]
        unfold witnessPeersError
        have hg := hwit0 hw
        have : witness = [] := by
          cases hwl : witness with
          | nil => rfl
          | cons q _ =>
            have hq := hr.wit q (by rw [hwl]; exact List.mem_cons_self)
            have := (depOk hW hq.2.2).above
            have := hW.genesis_pos
            omega
        rw [hm.wit, this]
        rfl
      · rw [hw]
        unfold witnessPeersError
        simp only
        rw [if_neg]
        simp only [List.any_eq_true, decide_eq_true_eq, not_exists, not_and, Decidable.not_not]
        intro e he
        rw [hm.wit] at he
        obtain ⟨q, hq, h1, _⟩ := mem_digests.mp (show (e.1, e.2) ∈ digests witness from he)
        rw [← h1, hro, ← (hr.wit q hq).1]
        exact (depOk hW (hr.wit q hq).2.2).author
  rw [e1, e2, e3]
  rfl

end

end Tycho.Producer
