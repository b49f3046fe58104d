import Verif.Verifier.Lemmas

/-! What a verified point looks like, and what an accepted point implies for its dependencies. -/
namespace Tycho.Verifier

open Tycho.PeerCount

/-- The structural facts about a verified point above genesis. -/
structure Shape (p : Info) : Prop where
  notGenesis : p.role ≠ .genesis
  requiresPrev : p.role.requiresPrev = true → p.includes.has p.author = true
  evidence : p.evidence.isEmpty = !p.includes.has p.author
  evidenceAuthor : p.evidence.has p.author = false
  witnessAuthor : p.witness.has p.author = false
  chained : p.chainedError = none
  link : ∀ s, p.linkError s = none
  time : p.anchorTime < p.time

theorem or_eq_none' {α} {a b : Option α} : a.or b = none ↔ a = none ∧ b = none := by
  cases a <;> simp

theorem shape_of_structure {p : Info} (h : p.checkStructure false = none) : Shape p := by
  unfold Info.checkStructure at h
  simp only [Bool.false_eq_true, if_false] at h
  split at h
  · simp at h
  rename_i hg
  unfold Info.nonGenesisStructure at h
  dsimp only at h
  split at h
  · simp at h
  rename_i h1
  split at h
  · simp at h
  rename_i h2
  split at h
  · simp at h
  rename_i h3
  split at h
  · simp at h
  rename_i h4
  rw [or_eq_none', or_eq_none', or_eq_none'] at h
  obtain ⟨⟨h5, h6, h7⟩, h8⟩ := h
  unfold Info.stageError at h6 h7
  rw [or_eq_none', Option.map_eq_none_iff] at h6 h7
  refine ⟨hg, ?_, ?_, by simpa using h3, by simpa using h4, h5, ?_, ?_⟩
  · intro hr
    by_contra hc
    exact h1 (by simp [hr, hc])
  · cases ha : p.evidence.isEmpty <;> cases hb : PMap.has p.includes p.author <;> simp_all
  · intro s; cases s
    · exact h7.1
    · exact h6.1
  · by_contra hc
    rw [if_pos (by omega)] at h8
    simp at h8

/-- The pieces of a successful `verify`. -/
theorem verify_ok {p : Info} {peersFor conf} (h : verify p peersFor conf = .ok) :
    ∃ inner, Inner.new p peersFor conf = .ok inner ∧ indirectPeersError p peersFor = none ∧
      wellFormedError p conf = none ∧ peersError p inner = none := by
  unfold verify at h
  split at h
  · rename_i e he
    subst h
    exfalso
    unfold Inner.new at he
    dsimp only at he
    have hpc : ∀ b l r m, peerCountFor b l r m ≠ .error .ok := by
      intro b l r m hc
      unfold peerCountFor at hc
      split at hc
      · split at hc <;> simp at hc
      · split at hc <;> simp at hc
    split at he
    · simp at he
    · cases h1 : peerCountFor true (peersFor p.round).length p.round .evidence with
      | error e => rw [h1] at he; simp [bind, Except.bind] at he; exact hpc _ _ _ _ (he ▸ h1)
      | ok _ => rw [h1] at he; simp [bind, Except.bind, pure, Except.pure] at he
    · cases h1 : peerCountFor false (peersFor p.round).length p.round .evidence with
      | error e => rw [h1] at he; simp [bind, Except.bind] at he; exact hpc _ _ _ _ (he ▸ h1)
      | ok _ =>
        rw [h1] at he
        simp only [bind, Except.bind] at he
        cases h2 : peerCountFor true (peersFor (p.round - 1)).length (p.round - 1) .includes with
        | error e => rw [h2] at he; simp at he; exact hpc _ _ _ _ (he ▸ h2)
        | ok _ => rw [h2] at he; simp [pure, Except.pure] at he
    · rename_i n _
      simp only [bind, Except.bind] at he
      split at he
      · rename_i e he1
        injection he with he
        exact hpc _ _ _ _ (he ▸ he1)
      · split at he
        · rename_i e he1
          injection he with he
          exact hpc _ _ _ _ (he ▸ he1)
        · split at he
          · rename_i e he1
            injection he with he
            exact hpc _ _ _ _ (he ▸ he1)
          · simp [pure, Except.pure] at he
  · rename_i inner hi
    split at h
    · simp at h
    · rename_i hn
      rw [or_eq_none', or_eq_none'] at hn
      exact ⟨inner, hi, hn.1, hn.2.1, hn.2.2⟩

theorem verify_round {p : Info} {peersFor conf} (h : verify p peersFor conf = .ok) (hg : 0 < conf.genesisRound) :
    conf.genesisRound ≤ p.round := by
  obtain ⟨inner, hi, _⟩ := verify_ok h
  unfold Inner.new at hi
  dsimp only at hi
  split at hi
  · simp at hi
  all_goals omega

theorem verify_checkStructure {p : Info} {peersFor conf} (h : verify p peersFor conf = .ok)
    (hr : p.round ≠ conf.genesisRound) : p.checkStructure false = none := by
  obtain ⟨inner, _, _, hw, _⟩ := verify_ok h
  unfold wellFormedError at hw
  rw [if_neg hr] at hw
  split at hw
  · simp at hw
  · split at hw
    · simp at hw
    · assumption

theorem verify_shape {p : Info} {peersFor conf} (h : verify p peersFor conf = .ok)
    (hr : p.round ≠ conf.genesisRound) : Shape p := shape_of_structure (verify_checkStructure h hr)

theorem verify_bounds {p : Info} {peersFor conf} (h : verify p peersFor conf = .ok)
    (hr : p.round ≠ conf.genesisRound) :
    (∀ s, conf.genesisRound ≤ p.anchorRound s) ∧ (∀ r, p.chainedToRound = some r → conf.genesisRound ≤ r) ∧
      (∀ n, p.stickyAnchors = some n → n < conf.stickyAnchors) := by
  obtain ⟨inner, _, _, hw, _⟩ := verify_ok h
  unfold wellFormedError at hw
  rw [if_neg hr] at hw
  split at hw
  · simp at hw
  · rw [verify_checkStructure h hr] at hw
    simp only at hw
    split at hw
    · simp at hw
    · rename_i h1
      split at hw
      · simp at hw
      · rename_i h2
        simp only [Bool.or_eq_true, not_or, decide_eq_true_eq, Nat.not_lt] at h2
        refine ⟨?_, ?_, ?_⟩
        · intro s; cases s
          · exact h2.1.2
          · exact h2.1.1
        · intro r hr
          have := h2.2
          rw [hr] at this
          simpa using this
        · intro n hn
          rw [hn] at h1
          simpa using h1

theorem verify_genesis {p : Info} {peersFor conf} (h : verify p peersFor conf = .ok)
    (hr : p.round = conf.genesisRound) (hg : 0 < conf.genesisRound) :
    p.role = .genesis ∧ p.time = p.anchorTime ∧ p.includes = [] ∧ p.witness = [] := by
  obtain ⟨inner, hi, _, hw, hp⟩ := verify_ok h
  unfold wellFormedError at hw
  rw [if_pos hr] at hw
  split at hw
  · simp at hw
  · rw [Option.map_eq_none_iff] at hw
    unfold Info.checkStructure at hw
    simp only [if_true] at hw
    split at hw
    · simp at hw
    · rename_i h1
      split at hw
      · simp at hw
      · rename_i h2
        have hin : inner.includesPeers = none ∧ inner.witnessPeers = none := by
          unfold Inner.new at hi
          dsimp only at hi
          have : p.round - (conf.genesisRound - 1) = 1 := by omega
          rw [this] at hi
          simp only [bind, Except.bind] at hi
          split at hi
          · simp at hi
          · simp [pure, Except.pure] at hi
            subst hi
            exact ⟨rfl, rfl⟩
        unfold peersError at hp
        rw [or_eq_none', or_eq_none', hin.1, hin.2] at hp
        unfold includesPeersError witnessPeersError at hp
        refine ⟨by simpa using h1, by simpa using h2, ?_, ?_⟩
        · by_contra hc
          simp [hc] at hp
        · by_contra hc
          simp [hc] at hp

/-! ### accessors do not panic on verified points -/

theorem Shape.throughId_of_ilink {p : Info} {l : ILink} (h : p.indirectLinkError l = none) :
    (p.throughId l.path).isSome ∧ (∀ i, p.throughId l.path = some i → l.to.round < i.round) := by
  unfold Info.indirectLinkError at h
  unfold Info.throughId
  cases hp : l.path with
  | includes a =>
    rw [hp] at h
    simp only at h
    split at h
    · simp at h
    · rename_i h1
      simp only [Bool.or_eq_true, Bool.not_eq_eq_eq_not, Bool.not_true, ge_iff_le, decide_eq_true_eq, not_or,
        Bool.not_eq_false, Nat.not_le] at h1
      rw [PMap.has_iff_get?] at h1
      refine ⟨by simpa using h1.1, ?_⟩
      intro i hi
      simp only [Option.map_eq_some_iff] at hi
      obtain ⟨d, _, rfl⟩ := hi
      exact h1.2
  | witness a =>
    rw [hp] at h
    simp only at h
    split at h
    · simp at h
    · rename_i h1
      simp only [Bool.or_eq_true, Bool.not_eq_eq_eq_not, Bool.not_true, ge_iff_le, decide_eq_true_eq, not_or,
        Bool.not_eq_false, Nat.not_le] at h1
      rw [PMap.has_iff_get?] at h1
      refine ⟨by simpa using h1.1, ?_⟩
      intro i hi
      simp only [Option.map_eq_some_iff] at hi
      obtain ⟨d, _, rfl⟩ := hi
      exact h1.2

theorem Shape.throughId_direct {p : Info} (h : Shape p) {s : Stage} {t : Through} (hl : p.anchorLink s = .direct t) :
    (p.throughId t).isSome := by
  have := h.link s
  unfold Info.linkError at this
  rw [hl] at this
  unfold Info.throughId
  cases t with
  | includes a =>
    simp only at this
    split at this
    · rename_i ha
      rw [PMap.has_iff_get?] at ha
      simpa using ha
    · simp at this
  | witness a =>
    simp only at this
    split at this
    · rename_i ha
      rw [PMap.has_iff_get?] at ha
      simpa using ha
    · simp at this

theorem Shape.throughId_indirect {p : Info} (h : Shape p) {s : Stage} {l : ILink} (hl : p.anchorLink s = .indirect l) :
    (p.throughId l.path).isSome ∧ (∀ i, p.throughId l.path = some i → l.to.round < i.round) := by
  have := h.link s
  unfold Info.linkError at this
  rw [hl] at this
  exact Shape.throughId_of_ilink this

theorem anchorId_isSome {p : Info} (h : Shape p) (s : Stage) : (p.anchorId s).isSome := by
  unfold Info.anchorId
  split
  · rfl
  · rfl
  · rename_i t hl
    exact h.throughId_direct hl

theorem anchorLinkThrough_isSome {p : Info} (h : Shape p) (s : Stage) : (p.anchorLinkThrough s).isSome := by
  unfold Info.anchorLinkThrough
  split
  · rfl
  · rename_i t hl
    exact h.throughId_direct hl
  · rename_i l hl
    exact (h.throughId_indirect hl).1

theorem throughId_round {p : Info} {t : Through} {i : PointId} (h : p.throughId t = some i) :
    i.round = (match t with | .includes _ => p.round - 1 | .witness _ => p.round - 1 - 1) := by
  unfold Info.throughId at h
  cases t <;> · simp only [Option.map_eq_some_iff] at h; obtain ⟨d, _, rfl⟩ := h; rfl

theorem anchorId_round {p : Info} {s : Stage} {i : PointId} (h : p.anchorId s = some i) : i.round = p.anchorRound s := by
  unfold Info.anchorId at h
  unfold Info.anchorRound
  split at h
  · rename_i l hl
    simp [hl]; simp at h; rw [h]
  · rename_i hl
    simp [hl]; simp at h; rw [← h]; rfl
  · rename_i t hl
    rw [hl]
    have := throughId_round h
    cases t <;> exact this

/-- data.rs accessors: role `Regular` inherits the proof it links to. -/
theorem inheritedProofId_isSome {p : Info} (h : Shape p) : p.inheritedProofId.isSome := by
  unfold Info.inheritedProofId
  split
  · rfl
  · rfl
  · rfl
  · rename_i t _ hr
    have : p.anchorLink .proof = .direct t := by
      unfold Info.anchorLink; rw [hr]; rfl
    have := h.throughId_direct this
    simpa using this
  · rfl
  · rfl

theorem chained_prev {p : Info} (h : Shape p) (n : Nat) (hc : p.role.chained = .prevPoint n) : p.prevId.isSome := by
  have := h.chained
  unfold Info.chainedError at this
  rw [hc] at this
  simp only at this
  split at this
  · rename_i ha
    rw [PMap.has_iff_get?] at ha
    unfold Info.prevId Info.prevDigest
    simpa using ha
  · simp at this

theorem chained_indirect {p : Info} (h : Shape p) (l : ILink) (hc : p.role.chained = .indirect l) :
    (p.throughId l.path).isSome ∧ (∀ i, p.throughId l.path = some i → l.to.round < i.round) ∧
      l.to.round < p.round - 1 - 1 := by
  have := h.chained
  unfold Info.chainedError at this
  rw [hc] at this
  simp only at this
  split at this
  · simp at this
  · rename_i h1
    rw [Option.map_eq_none_iff] at this
    have := Shape.throughId_of_ilink this
    exact ⟨this.1, this.2, by omega⟩

theorem chainedToThrough_isSome {p : Info} (h : Shape p) : p.chainedToThrough.isSome := by
  unfold Info.chainedToThrough
  split
  · rfl
  · rename_i n hc
    have := chained_prev h n hc
    simpa using this
  · rename_i l hc
    have := (chained_indirect h l hc).1
    simpa using this

/-- The values computed before the loop, all present. -/
theorem prepare_some {p : Info} (h : Shape p) : ∃ P, prepare p = some P ∧
    p.anchorId .trigger = some P.triggerId ∧ p.anchorId .proof = some P.proofId ∧
    p.anchorLinkThrough .trigger = some P.triggerThrough ∧ p.anchorLinkThrough .proof = some P.proofThrough ∧
    p.triggerBoundProofId = some P.bound ∧ p.chainedToThrough = some P.chained := by
  obtain ⟨a, ha⟩ := Option.isSome_iff_exists.mp (anchorId_isSome h .trigger)
  obtain ⟨b, hb⟩ := Option.isSome_iff_exists.mp (anchorId_isSome h .proof)
  obtain ⟨c, hc⟩ := Option.isSome_iff_exists.mp (anchorLinkThrough_isSome h .trigger)
  obtain ⟨d, hd⟩ := Option.isSome_iff_exists.mp (anchorLinkThrough_isSome h .proof)
  obtain ⟨f, hf⟩ := Option.isSome_iff_exists.mp (inheritedProofId_isSome h)
  obtain ⟨g, hg⟩ := Option.isSome_iff_exists.mp (chainedToThrough_isSome h)
  obtain ⟨e, he⟩ : ∃ e, p.triggerBoundProofId = some e := by
    unfold Info.triggerBoundProofId; rw [hf]; exact ⟨_, rfl⟩
  refine ⟨⟨a, b, c, d, e, g⟩, ?_, ha, hb, hc, hd, he, hg⟩
  unfold prepare
  simp [ha, hb, hc, hd, he, hg]

/-! ### accepted points and their dependencies -/

theorem mem_depIds {p : Info} {i : PointId} :
    i ∈ depIds p true ↔ (i.round = p.round - 1 ∧ (i.author, i.digest) ∈ p.includes) ∨
      (i.round = p.round - 1 - 1 ∧ (i.author, i.digest) ∈ p.witness) := by
  unfold depIds
  simp only [if_true, List.mem_append, List.mem_map]
  constructor
  · rintro (⟨e, he, rfl⟩ | ⟨e, he, rfl⟩)
    · exact .inr ⟨rfl, he⟩
    · exact .inl ⟨rfl, he⟩
  · rintro (⟨h1, h2⟩ | ⟨h1, h2⟩)
    · refine .inr ⟨_, h2, ?_⟩
      cases i; simp_all
    · refine .inl ⟨_, h2, ?_⟩
      cases i; simp_all

/-- The facts that acceptance gives about the point and each of its dependencies. -/
structure Facts (W : World) (p : Info) : Prop where
  above : W.conf.genesisRound < p.round
  shape : Shape p
  proofLink : p.isProofLinkOk (decide (W.leader p.round = some p.author)) W.conf = true
  dep : ∀ i ∈ depIds p true, ∃ q P, prepare p = some P ∧ W.body i = some q ∧
    (¬ ((i.round = p.round - 1 ∧ i.author = p.author) ∧ p.prevDigest ≠ some i.digest)) ∧
    ∀ c ∈ directChecks W.conf p P (decide (i.round = p.round - 1 ∧ i.author = p.author)) q, c = none

theorem Accepted.facts {W : World} (hW : W.Ok) {p : Info} (h : Accepted W p) (hr : p.round ≠ W.conf.genesisRound) :
    Facts W p := by
  have hge := verify_round h.verified hW.genesis_pos
  have hsh := verify_shape h.verified hr
  obtain ⟨run, hf, hv⟩ := h.validated
  have hlt : W.conf.genesisRound < p.round := by omega
  have key : ∃ P, prepare p = some P ∧ p.isProofLinkOk run.isLeader W.conf = true ∧
      (run.r2 = true ∨ p.witness = []) ∧ (checkValid W.conf p P run.order).inv = none := by
    unfold validate at hv
    rw [if_neg (by omega), if_neg (by omega)] at hv
    split at hv
    · simp at hv
    rename_i h1
    split at hv
    · simp at hv
    split at hv
    · simp at hv
    split at hv
    · simp at hv
    rename_i h2
    split at hv
    · simp at hv
    rename_i P hP
    dsimp only at hv
    split at hv
    · simp at hv
    rename_i hinv
    refine ⟨P, hP, by simpa using h1, ?_, hinv⟩
    cases hr2 : run.r2
    · right
      simpa [hr2] using h2
    · exact .inl rfl
  obtain ⟨P, hP, hlink, hr2, hinv⟩ := key
  rw [hf.leader] at hlink
  refine ⟨hlt, hsh, hlink, ?_⟩
  intro i hi
  rw [checkValid_inv] at hinv
  have hi2 : i ∈ depIds p run.r2 := by
    rcases hr2 with h | h
    · rw [h]; exact hi
    · unfold depIds at hi ⊢
      rw [h] at hi ⊢
      simpa using hi
  have hmem : run.resolve i ∈ run.order := by
    rw [hf.order.mem_iff]
    exact List.mem_append_left _ (List.mem_map_of_mem hi2)
  have hok := hinv _ hmem
  cases hres : run.resolve i with
  | none => rw [hres] at hok; exact hok.elim
  | some dp =>
    have hid := hf.resolves _ _ hres
    rw [hres] at hok hmem
    unfold itemOk at hok
    simp only [hid] at hok
    have hown : ¬ ((i.round = p.round - 1 ∧ i.author = p.author) ∧ p.prevDigest ≠ some i.digest) := by
      rintro ⟨⟨h1, h2⟩, h3⟩
      rcases mem_depIds.mp hi with ⟨_, hm⟩ | ⟨_, hm⟩
      · rw [h2] at hm
        exact h3 (PMap.get?_of_mem (hW.includes_uniq _ _ h.known) hm)
      · have := hsh.witnessAuthor
        rw [h2] at hm
        have : p.witness.has p.author = true := PMap.has_iff.mpr ⟨_, hm⟩
        simp_all
    rw [if_neg hown] at hok
    obtain ⟨dep, hinfo, hc⟩ := hok
    have hb := hf.bodies dp hmem dep hinfo
    rw [hid] at hb
    exact ⟨dep, P, hP, hb, hown, hc⟩

end Tycho.Verifier
