import Verif.BlockProof.Spec

/-! C17: acceptance of block proofs. -/
namespace Tycho.BlockProof
variable {Sig : Type}

theorem totalWeight_eq (vs : List Validator) : ∀ acc t, totalWeight acc vs = some t →
    t = acc + weightAll vs := by
  induction vs with
  | nil => intro acc t h; simp [totalWeight] at h; simp [weightAll, h]
  | cons v vs ih =>
    intro acc t h
    unfold totalWeight at h
    cases hc : checkedAdd acc v.weight with
    | none => rw [hc] at h; cases h
    | some a =>
      rw [hc] at h
      have := ih a t h
      unfold checkedAdd at hc
      split at hc
      · injection hc with hc
        subst hc
        rw [this]
        simp [weightAll]; omega
      · cases hc

theorem totalWeight_overflow (vs : List Validator) : ∀ acc, acc < u64 →
    (totalWeight acc vs = none ↔ u64 ≤ acc + weightAll vs) := by
  induction vs with
  | nil => intro acc h; simp [totalWeight, weightAll]; exact h
  | cons v vs ih =>
    intro acc h
    unfold totalWeight checkedAdd
    by_cases hc : acc + v.weight < u64
    · simp only [hc, if_true]
      rw [ih _ hc]
      simp [weightAll, Nat.add_assoc]
    · simp only [hc, if_false, true_iff]
      simp [weightAll]; omega

theorem checkedMul_some {a b c : Nat} (h : checkedMul a b = some c) : c = a * b ∧ a * b < u64 := by
  unfold checkedMul at h
  split at h
  · injection h with h; exact ⟨h.symm, by assumption⟩
  · cases h

/-- Acceptance by `check_signatures`, in full: exactly these conditions. In particular neither the sum
nor the products may exceed 64 bits. -/
theorem checkSignatures_iff (ext : Ext Sig) (p : Proof Sig) (subset : Subset) :
    checkSignatures ext p subset = true ↔
      ∃ s w, p.signatures = some s ∧ s.listHashShort = subset.shortHash ∧
        s.signatureCount = s.signatures.length ∧
        ext.checkSignatures subset.validators s.signatures p.id = some w ∧ w = s.totalWeight ∧
        3 * w < u64 ∧ 2 * weightAll subset.validators < u64 ∧
        2 * weightAll subset.validators < 3 * w := by
  unfold checkSignatures
  cases hs : p.signatures with
  | none => simp
  | some s =>
    simp only [Option.some.injEq, exists_and_left, exists_eq_left']
    by_cases h1 : s.listHashShort = subset.shortHash
    swap
    · simp [h1]
    by_cases h2 : s.signatureCount = s.signatures.length
    swap
    · simp [h1, h2]
    simp only [h1, h2, ne_eq, not_true_eq_false, if_false, true_and]
    cases ht : totalWeight 0 subset.validators with
    | none =>
      have := (totalWeight_overflow subset.validators 0 (by decide)).1 ht
      simp only [Bool.false_eq_true, false_iff]
      rintro ⟨w, -, -, -, h, -⟩
      omega
    | some t =>
      have ht' := totalWeight_eq _ _ _ ht
      rw [Nat.zero_add] at ht'
      subst ht'
      cases hw : ext.checkSignatures subset.validators s.signatures p.id with
      | none => simp
      | some w =>
        simp only [Option.some.injEq, exists_eq_left']
        by_cases h3 : w = s.totalWeight
        swap
        · simp [h3]
        simp only [h3, ne_eq, not_true_eq_false, if_false, true_and]
        unfold checkedMul
        by_cases h4 : s.totalWeight * 3 < u64
        swap
        · simp only [h4, if_false, Bool.false_eq_true, false_iff]
          omega
        by_cases h5 : weightAll subset.validators * 2 < u64
        swap
        · simp only [h4, h5, if_false, if_true, Bool.false_eq_true, false_iff]
          omega
        simp only [h4, h5, if_true, decide_eq_true_eq]
        omega

/-- C17: signatures are accepted only if distinct validators of the subset that signed this block id
hold strictly more than two thirds of the subset's weight. -/
theorem accepted_signatures_have_quorum (ext : Ext Sig) (Signed : Validator → BlockId → Prop)
    (hext : SoundSignatureCheck ext Signed) (p : Proof Sig) (subset : Subset)
    (h : checkSignatures ext p subset = true) :
    ∃ S, Quorum Signed subset.validators p.id S := by
  obtain ⟨s, w, -, -, -, hw, -, -, -, hq⟩ := (checkSignatures_iff ext p subset).1 h
  obtain ⟨S, hS, hSw⟩ := hext _ _ _ _ hw
  exact ⟨S, hS, hSw ▸ hq⟩

theorem weightAll_eq (vs : List Validator) : weightAll vs = ∑ i : Fin vs.length, vs[i].weight := by
  unfold weightAll
  induction vs with
  | nil => simp
  | cons v vs ih =>
    simp only [List.map_cons, List.sum_cons]
    rw [ih]
    exact (Fin.sum_univ_succ (n := vs.length) (fun i => ((v :: vs)[i] : Validator).weight)).symm

/-- Weights of two sets of positions: union within the total. -/
theorem weightAt_inter (vs : List Validator) (S T : Finset (Fin vs.length)) :
    weightAt vs S + weightAt vs T ≤ weightAll vs + weightAt vs (S ∩ T) := by
  have h : weightAt vs (S ∪ T) + weightAt vs (S ∩ T) = weightAt vs S + weightAt vs T :=
    Finset.sum_union_inter
  have h2 : weightAt vs (S ∪ T) ≤ weightAll vs := by
    rw [weightAll_eq]
    exact Finset.sum_le_sum_of_subset (Finset.subset_univ _)
  omega

/-- C17: if two block ids are accepted for the same list of validators, then validators holding
strictly more than a third of the weight signed both. -/
theorem two_accepted_share_a_third (ext : Ext Sig) (Signed : Validator → BlockId → Prop)
    (hext : SoundSignatureCheck ext Signed) (p q : Proof Sig) (sp sq : Subset)
    (hv : sp.validators = sq.validators)
    (hp : checkSignatures ext p sp = true) (hq : checkSignatures ext q sq = true) :
    ∃ S : Finset (Fin sp.validators.length),
      (∀ i ∈ S, Signed sp.validators[i] p.id ∧ Signed sp.validators[i] q.id) ∧
      weightAll sp.validators < 3 * weightAt sp.validators S := by
  obtain ⟨S, hS, hSw⟩ := accepted_signatures_have_quorum ext Signed hext p sp hp
  have : ∃ T, Quorum Signed sp.validators q.id T := by
    rw [hv]; exact accepted_signatures_have_quorum ext Signed hext q sq hq
  obtain ⟨T, hT, hTw⟩ := this
  refine ⟨S ∩ T, ?_, ?_⟩
  · intro i hi
    rw [Finset.mem_inter] at hi
    exact ⟨hS i hi.1, hT i hi.2⟩
  · have := weightAt_inter sp.validators S T
    omega

/-- No weight, no proof: an empty or weightless subset accepts nothing. -/
theorem weightless_subset_accepts_nothing (ext : Ext Sig) (Signed : Validator → BlockId → Prop)
    (hext : SoundSignatureCheck ext Signed) (p : Proof Sig) (subset : Subset)
    (h0 : weightAll subset.validators = 0) : checkSignatures ext p subset = false := by
  cases h : checkSignatures ext p subset with
  | false => rfl
  | true =>
    obtain ⟨S, -, hS⟩ := accepted_signatures_have_quorum ext Signed hext p subset h
    have : weightAt subset.validators S ≤ weightAll subset.validators := by
      rw [weightAll_eq]; exact Finset.sum_le_sum_of_subset (Finset.subset_univ _)
    omega

/-! ### The whole check -/

/-- What a parsed proof guarantees: the block information agrees with the claimed id. -/
theorem preCheck_agrees (p : Proof Sig) (i : Info) (h : preCheck p = some i) :
    p.virtHash = some p.id.rootHash ∧ p.info = some i ∧ i.version = 0 ∧ i.seqno = p.id.seqno ∧
    i.shard = p.id.shard ∧ i.hasMasterRef = !p.id.shard.isMasterchain ∧
    (p.id.shard.isMasterchain = false → p.signatures = none ∧ i.keyBlock = false) ∧
    (p.id.shard.isMasterchain = true → i.afterMerge = false ∧ i.beforeSplit = false ∧ i.afterSplit = false) ∧
    ¬ (i.afterMerge = true ∧ i.afterSplit = true) ∧
    (i.afterSplit = true → p.id.shard.prefixBits ≠ []) ∧
    (i.afterMerge = true → p.id.shard.prefixBits.length < 60) := by
  unfold preCheck at h
  split at h
  · cases h
  rename_i h0
  cases hv : p.virtHash with
  | none => rw [hv] at h; cases h
  | some v =>
    rw [hv] at h
    dsimp only at h
    split at h
    · cases h
    rename_i h1
    cases hi : p.info with
    | none => rw [hi] at h; cases h
    | some j =>
      rw [hi] at h
      dsimp only at h
      repeat' (split at h; · cases h)
      injection h with h
      subst h
      rename_i a b c d e f g k l
      simp only [Decidable.not_not] at h1 a b c d
      rw [c] at d g k
      simp only [Shard.isFull, Shard.canSplit] at g k
      refine ⟨by rw [h1], rfl, a, b, c, ?_, ?_, ?_, ?_, ?_, ?_⟩
      · rw [← d]; simp
      · intro hm
        simp [hm] at h0 l
        exact ⟨h0, l⟩
      · intro hm
        simp [hm] at e
        exact ⟨e.1.1, e.1.2, e.2⟩
      · simp at f
        rintro ⟨x, y⟩
        simp [f x] at y
      · intro hx
        simpa [hx] using g
      · intro hx
        simpa [hx] using k

/-- C17: a masterchain block accepted against its previous key block was signed by more than two thirds of
the weight of a subset computed from that key block's validator set; the key block is a masterchain
key block, is the one the accepted block names, and is older. -/
theorem accepted_by_key_block (ext : Ext Sig) (Signed : Validator → BlockId → Prop)
    (hext : SoundSignatureCheck ext Signed) (p prev : Proof Sig)
    (h : checkWithPrevKeyBlock ext p prev = true) :
    ∃ info pinfo cfg subset S,
      preCheck p = some info ∧ preCheck prev = some pinfo ∧ pinfo.keyBlock = true ∧
      p.id.shard.isMasterchain = true ∧ prev.id.shard.isMasterchain = true ∧
      prev.id.seqno = info.prevKeyBlockSeqno ∧ prev.id.seqno < p.id.seqno ∧
      prev.config = some cfg ∧
      (∃ s, p.signatures = some s ∧
        ext.computeSubset cfg.vset (if info.originalMode then s.catchainSeqno else s.vsetSwitchRound)
          cfg.shuffle = some subset) ∧
      (info.keyBlock = true → p.keyConfigOk = true) ∧
      Quorum Signed subset.validators p.id S := by
  unfold checkWithPrevKeyBlock at h
  cases hpre : preCheck p with
  | none => rw [hpre] at h; cases h
  | some info =>
    rw [hpre] at h
    dsimp only at h
    split at h
    · cases h
    split at h
    · cases h
    split at h
    · cases h
    split at h
    · cases h
    rename_i a b c d
    cases hk : processPrevKeyBlock ext p prev info with
    | none => rw [hk] at h; cases h
    | some subset =>
      rw [hk] at h
      dsimp only at h
      split at h
      · cases h
      rename_i e
      unfold processPrevKeyBlock at hk
      cases hprev : preCheck prev with
      | none => rw [hprev] at hk; cases hk
      | some pinfo =>
        rw [hprev] at hk
        dsimp only at hk
        split at hk
        · cases hk
        rename_i f
        cases hc : prev.config with
        | none => rw [hc] at hk; cases hk
        | some cfg =>
          rw [hc] at hk
          dsimp only [calcSubset] at hk
          cases hs : p.signatures with
          | none => rw [hs] at hk; cases hk
          | some s =>
            rw [hs] at hk
            obtain ⟨S, hS⟩ := accepted_signatures_have_quorum ext Signed hext p subset h
            refine ⟨info, pinfo, cfg, subset, S, rfl, rfl, by simpa using f, by simpa using a,
              by simpa using b, by simpa using c, by simpa using d, rfl, ⟨s, rfl, hk⟩, ?_, hS⟩
            intro hkb
            simpa [hkb] using e

/-- C17: the same for acceptance against a master state: the state is a masterchain state at or after
the block's previous key block and strictly before the block, and for a block that is not a key
block the recorded consensus info is the state's. -/
theorem accepted_by_master_state (ext : Ext Sig) (Signed : Validator → BlockId → Prop)
    (hext : SoundSignatureCheck ext Signed) (p : Proof Sig) (st : MasterState)
    (h : checkWithMasterState ext p st = true) :
    ∃ info cfg s subset S,
      preCheck p = some info ∧ p.signatures = some s ∧
      p.id.shard.isMasterchain = true ∧ st.id.shard.isMasterchain = true ∧
      info.prevKeyBlockSeqno ≤ st.id.seqno ∧ st.id.seqno < p.id.seqno ∧
      st.config = some cfg ∧
      ext.computeSubset cfg.vset (if info.originalMode then s.catchainSeqno else s.vsetSwitchRound)
          cfg.shuffle = some subset ∧
      (info.keyBlock = true → p.keyConfigOk = true) ∧
      (info.keyBlock = false → s.consensusInfo = st.consensusInfo) ∧
      Quorum Signed subset.validators p.id S := by
  unfold checkWithMasterState at h
  split at h
  · cases h
  rename_i a
  cases hpre : preCheck p with
  | none => rw [hpre] at h; cases h
  | some info =>
    rw [hpre] at h
    dsimp only at h
    split at h
    · cases h
    rename_i b
    cases hk : processGivenState ext p st info with
    | none => rw [hk] at h; cases h
    | some subset =>
      rw [hk] at h
      dsimp only at h
      unfold processGivenState at hk
      split at hk
      · cases hk
      split at hk
      · cases hk
      split at hk
      · cases hk
      rename_i c e f
      cases hc : st.config with
      | none => rw [hc] at hk; cases hk
      | some cfg =>
        rw [hc] at hk
        dsimp only [calcSubset] at hk
        cases hs : p.signatures with
        | none => rw [hs] at hk; cases hk
        | some s =>
          rw [hs] at hk
          obtain ⟨S, hS⟩ := accepted_signatures_have_quorum ext Signed hext p subset h
          refine ⟨info, cfg, s, subset, S, rfl, rfl, by simpa using a, by simpa using c, by simpa using e,
            by simpa using f, rfl, hk, ?_, ?_, hS⟩
          · intro hkb
            simpa [stateInfoOk, hkb] using b
          · intro hkb
            simpa [stateInfoOk, hkb, checkConsensusInfo, hs] using b

/-- A chain of key block proofs, newest first, each checked with the one before it; `root` is trusted. -/
inductive KeyChain (ext : Ext Sig) (root : Proof Sig) : List (Proof Sig) → Prop
  | root : KeyChain ext root [root]
  | step {p prev ps} : KeyChain ext root (prev :: ps) → checkWithPrevKeyBlock ext p prev = true →
      KeyChain ext root (p :: prev :: ps)

/-- C17: along a chain of accepted key block proofs of any length, sequence numbers strictly grow, and
every block but the trusted root carries a quorum of a subset computed from its predecessor's
validator set. -/
theorem key_chain_trusted (ext : Ext Sig) (Signed : Validator → BlockId → Prop)
    (hext : SoundSignatureCheck ext Signed) (root : Proof Sig) (ps : List (Proof Sig))
    (h : KeyChain ext root ps) :
    (ps.map (fun p => p.id.seqno)).Pairwise (· > ·) ∧
    ∀ i p prev, ps[i]? = some p → ps[i + 1]? = some prev →
      ∃ cfg n subset S, prev.config = some cfg ∧ ext.computeSubset cfg.vset n cfg.shuffle = some subset ∧
        Quorum Signed subset.validators p.id S := by
  have key : ∀ ps, KeyChain ext root ps →
      (ps.map (fun p => p.id.seqno)).Pairwise (· > ·) ∧ (∀ i p prev, ps[i]? = some p →
        ps[i + 1]? = some prev → checkWithPrevKeyBlock ext p prev = true) := by
    intro ps h
    induction h with
    | root => simp
    | @step p prev ps hc hck ih =>
      obtain ⟨ih1, ih2⟩ := ih
      obtain ⟨_, _, _, _, _, -, -, -, -, -, -, hlt, -⟩ :=
        accepted_by_key_block ext Signed hext p prev hck
      constructor
      · simp only [List.map_cons, List.pairwise_cons] at ih1 ⊢
        refine ⟨?_, ih1⟩
        intro a ha
        rcases List.mem_cons.1 ha with rfl | ha
        · exact hlt
        · have := ih1.1 a ha; omega
      · intro i q r hq hr
        cases i with
        | zero =>
          simp at hq hr
          subst hq; subst hr; exact hck
        | succ i => exact ih2 i q r (by simpa using hq) (by simpa using hr)
  obtain ⟨h1, h2⟩ := key ps h
  refine ⟨h1, ?_⟩
  intro i p prev hp hprev
  obtain ⟨info, pinfo, cfg, subset, S, -, -, -, -, -, -, -, hc, ⟨s, -, hs⟩, -, hq⟩ :=
    accepted_by_key_block ext Signed hext p prev (h2 i p prev hp hprev)
  exact ⟨cfg, _, subset, S, hc, hs, hq⟩

/-- A proof link carries no signatures and is never a key block: it is no evidence of validity by itself. -/
theorem proof_link_unsigned (p : Proof Sig) (h : checkProofLink p = true) :
    p.signatures = none ∧ p.id.shard.isMasterchain = false := by
  unfold checkProofLink at h
  simp only [Bool.and_eq_true, Bool.not_eq_true', Option.isSome_iff_exists] at h
  obtain ⟨hm, i, hi⟩ := h
  exact ⟨((preCheck_agrees p i hi).2.2.2.2.2.2.1 hm).1, hm⟩

/-! ### A concrete case: four validators of weights 5,5,5,5, three signed. -/

def demoVals : List Validator := [⟨1, 5⟩, ⟨2, 5⟩, ⟨3, 5⟩, ⟨4, 5⟩]

/-- A signature here is just the position of the signer. -/
def demoExt : Ext Nat where
  computeSubset := fun _ _ _ => some ⟨demoVals, 77⟩
  checkSignatures := fun vs sigs _ =>
    some (weightAt vs (Finset.univ.filter (fun i : Fin vs.length => (i : Nat) ∈ sigs)))

def mc : Shard := ⟨-1, []⟩
def demoInfo (seqno prev : Nat) : Info := ⟨0, seqno, mc, false, false, false, false, true, prev, false⟩
def demoKey (seqno prev : Nat) (sigs : List Nat) (w : Nat) : Proof Nat where
  id := ⟨mc, seqno, seqno * 10, 0⟩
  virtHash := some (seqno * 10)
  info := some (demoInfo seqno prev)
  keyConfigOk := true
  config := some ⟨0, false⟩
  signatures := some ⟨77, 0, 3, 0, sigs.length, w, sigs⟩

example : SoundSignatureCheck demoExt (fun _ _ => True) := by
  intro vs sigs id w h
  exact ⟨_, fun _ _ => trivial, (Option.some.inj h).symm⟩

/-- Three of four are accepted, two of four are not. -/
example : checkWithPrevKeyBlock demoExt (demoKey 9 4 [0, 1, 3] 15) (demoKey 4 0 [] 0) = true := by decide
example : checkWithPrevKeyBlock demoExt (demoKey 9 4 [0, 1] 10) (demoKey 4 0 [] 0) = false := by decide
example : KeyChain demoExt (demoKey 4 0 [] 0)
    [demoKey 11 9 [1, 2, 3] 15, demoKey 9 4 [0, 1, 3] 15, demoKey 4 0 [] 0] :=
  .step (.step .root (by decide)) (by decide)
example : checkWithMasterState demoExt (demoKey 9 4 [0, 1, 3] 15) ⟨⟨mc, 8, 0, 0⟩, some ⟨0, false⟩, 0⟩ = true := by
  decide

end Tycho.BlockProof
