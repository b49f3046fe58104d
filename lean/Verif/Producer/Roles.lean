import Verif.Producer.Made

/-! The role of the produced point. -/
namespace Tycho.Producer

open Tycho.PeerCount Tycho.Verifier

section
variable {W : World} {last : Option LastOwn} {localId r : Nat} {leader : Option Nat} {includes witness : List Info}
  {now : Nat} {p : Info} {srcP srcT : Source} {proof trigger : ALink}

theorem sticky_toSelf {q : Info} {k : Nat} (h : q.stickyAnchors = some k) : q.anchorLink .proof = .toSelf := by
  unfold Info.stickyAnchors Role.chained at h
  unfold Info.anchorLink Role.anchorProofLink
  cases hq : q.role <;> rw [hq] at h <;> simp at h ⊢

/-- Without sticky anchors there is one proof in a round. -/
theorem sole_proof (hW : W.Ok) (hsch : Schedule W) (hr : Ready W last localId r includes witness now) {q0 q' : Info}
    (h0 : q0 ∈ includes) (ha : q0.author = localId) (hp0 : q0.anchorLink .proof = .toSelf) (h' : q' ∈ includes)
    (hp' : q'.anchorLink .proof = .toSelf) : q'.author = localId := by
  by_cases hst : W.conf.stickyAnchors = 0
  · have hr0 := (hr.inc _ h0).1
    have hr' := (hr.inc _ h').1
    have a0 := (hr.inc _ h0).2
    have a' := (hr.inc _ h').2
    by_cases hg : r - 1 = W.conf.genesisRound
    · have m0 := (depOk hW a0).author
      have m' := (depOk hW a').author
      rw [hr0, hg] at m0
      rw [hr', hg] at m'
      have := hsch.genesis
      rw [List.length_eq_one_iff] at this
      obtain ⟨x, hx⟩ := this
      rw [hx] at m0 m'
      simp at m0 m'
      rw [← ha, m0, m']
    · have lead : ∀ q, q ∈ includes → q.anchorLink .proof = .toSelf → W.leader (r - 1) = some q.author := by
        intro q hq hs
        have hrq := (hr.inc _ hq).1
        have aq := (hr.inc _ hq).2
        have hne : q.round ≠ W.conf.genesisRound := by rw [hrq]; exact hg
        rw [← isStage_iff] at hs
        rcases hs with hs | ⟨l, t, hs⟩ | ⟨n, hs⟩
        · exact absurd hs (verify_shape aq.self.verified hne).notGenesis
        · have := (proof_by_leader hW q aq.self l t hs).1
          rw [hrq] at this; exact this
        · have := (verify_bounds aq.self.verified hne).2.2 n (by unfold Info.stickyAnchors Role.chained; rw [hs])
          omega
      have l0 := lead q0 h0 hp0
      have l' := lead q' h' hp'
      rw [l0] at l'
      injection l' with l'
      rw [← l', ha]
  · exact hr.soleProof hst q0 h0 ha (isStage_iff.mpr hp0) q' h' (isStage_iff.mpr hp')

theorem Source.From.round_le (hr : Ready W last localId r includes witness now) {q : Info}
    (hq : q ∈ includes ∨ q ∈ witness) : q.round ≤ r - 1 ∧ (q ∈ witness → q.round = r - 1 - 1) ∧ (q ∈ includes → q.round = r - 1) := by
  refine ⟨?_, fun h => (hr.wit _ h).1, fun h => (hr.inc _ h).1⟩
  rcases hq with hq | hq
  · exact Nat.le_of_eq (hr.inc _ hq).1
  · have := (hr.wit _ hq).1; omega

theorem anchorRound_le_round (hW : W.Ok) {q : Info} (h : AllAccepted W q) (s : Stage) : q.anchorRound s ≤ q.round := by
  by_cases hl : q.anchorLink s = .toSelf
  · unfold Info.anchorRound; rw [hl]; exact Nat.le_refl _
  · exact Nat.le_of_lt ((depOk hW h).lt s hl)

/-- After its own proof the node links the proof directly, so it makes a trigger. -/
theorem own_proof_link (hW : W.Ok) (hsch : Schedule W) (hr : Ready W last localId r includes witness now)
    (hm : Made last localId r leader includes witness now W.conf p srcP srcT proof trigger) {q0 : Info}
    (h0 : q0 ∈ includes) (ha : q0.author = localId) (hp0 : q0.anchorLink .proof = .toSelf) :
    proof = .direct (.includes localId) := by
  have hg := hW.genesis_pos
  have hab := hr.above
  have hr0 := (hr.inc _ h0).1
  have e0 : q0.anchorRound .proof = r - 1 := by unfold Info.anchorRound; rw [hp0]; exact hr0
  have hP : r - 1 ≤ srcP.info.anchorRound .proof := by
    rcases hm.choice with ⟨heq, hlt⟩ | ⟨_, hle⟩
    · have h1 := hlt q0 (.inl h0)
      have h2 := anchorRound_le_round hW (hr.depAccepted hm.fromT.mem) .trigger
      have h3 := (Source.From.round_le hr hm.fromT.mem).1
      omega
    · have := hle q0 (.inl h0); omega
  have hPr := anchorRound_le_round hW (hr.depAccepted hm.fromP.mem) .proof
  have hPb := Source.From.round_le hr hm.fromP.mem
  rcases hm.fromP with ⟨hmem, hpath⟩ | ⟨hmem, hpath⟩
  · have hself : srcP.info.anchorLink .proof = .toSelf := by
      by_contra hcon
      have h1 := (depOk hW (hr.depAccepted (.inl hmem))).lt .proof hcon
      have h2 := hPb.2.2 hmem
      omega
    have hauth := sole_proof hW hsch hr h0 ha hp0 hmem hself
    rcases link_cases hr hm.fromP hm.linkP with ⟨_, h, _⟩ | ⟨h, _⟩
    · rw [h, hpath, hauth]
    · exact absurd hself h
  · have := hPb.2.1 hmem
    omega

theorem prev_of_byAuthor {q0 : Info} (h : byAuthor includes localId = some q0) : q0 ∈ includes ∧ q0.author = localId :=
  byAuthor_some h

/-- The four ways to choose a role, with what they say about the previous own point. -/
inductive RoleCase (W : World) (localId r : Nat) (leader : Option Nat) (includes : List Info) (proof trigger : ALink) :
    Role → Prop
  | regular : (∀ q0, byAuthor includes localId = some q0 → q0.anchorLink .proof ≠ .toSelf) →
      ¬ (leader = some localId ∧ (byAuthor includes localId).isSome ∧ farEnough r proof W.conf = true) →
      RoleCase W localId r leader includes proof trigger (.regular proof trigger)
  | anchorProof (l q0) : proof = .indirect l → leader = some localId → farEnough r proof W.conf = true →
      byAuthor includes localId = some q0 → q0.anchorLink .proof ≠ .toSelf →
      RoleCase W localId r leader includes proof trigger (.anchorProof l trigger)
  | anchorTrigger (q0) : byAuthor includes localId = some q0 → q0.anchorLink .proof = .toSelf →
      RoleCase W localId r leader includes proof trigger .anchorTrigger
  | sticky (n q0) : byAuthor includes localId = some q0 → q0.anchorLink .proof = .toSelf → n < W.conf.stickyAnchors →
      (match q0.stickyAnchors with | some k => k + 1 = n | none => n = 0) →
      RoleCase W localId r leader includes proof trigger (.sticky n)

theorem role_cases (hW : W.Ok) (hsch : Schedule W) (hst : W.conf.stickyAnchors < 256)
    (hr : Ready W last localId r includes witness now)
    (hm : Made last localId r leader includes witness now W.conf p srcP srcT proof trigger) :
    RoleCase W localId r leader includes proof trigger p.role := by
  rw [hm.role]
  unfold chooseRole
  cases hlast : last.filter (fun l => l.round = r - 1) with
  | none =>
    have hn : byAuthor includes localId = none := by
      have := hm.prev
      rw [hlast] at this
      simpa using this
    simp only
    exact .regular (by simp [hn]) (by simp [hn])
  | some l =>
    obtain ⟨q0, hq0⟩ : ∃ q0, byAuthor includes localId = some q0 := by
      have := hm.prev
      rw [hlast] at this
      simp only [Option.map_some, Option.map_eq_some_iff] at this
      obtain ⟨q0, h, _⟩ := this
      exact ⟨q0, h⟩
    obtain ⟨h0, ha⟩ := byAuthor_some hq0
    rw [Option.filter_eq_some_iff] at hlast
    have hsticky := hr.sticky l hlast.1 (by simpa using hlast.2) q0 h0 ha
    simp only
    cases hk : l.sticky with
    | some k =>
      rw [hk] at hsticky
      have hself := sticky_toSelf hsticky.symm
      simp only
      split
      · rename_i hlt
        refine .sticky _ q0 hq0 hself (by omega) ?_
        rw [← hsticky]
      · exact .anchorTrigger q0 hq0 hself
    | none =>
      rw [hk] at hsticky
      simp only
      by_cases hself : q0.anchorLink .proof = .toSelf
      · rw [if_pos (own_proof_link hW hsch hr hm h0 ha hself)]
        split
        · rename_i hpos
          exact .sticky 0 q0 hq0 hself hpos (by rw [← hsticky])
        · exact .anchorTrigger q0 hq0 hself
      · have hnp : proof ≠ .direct (.includes localId) := by
          intro hcon
          rcases link_cases hr hm.fromP hm.linkP with ⟨h1, h2, _⟩ | ⟨_, _, _, h2⟩
          · rw [hcon] at h2
            injection h2 with h2
            rcases hm.fromP with ⟨hmem, hpath⟩ | ⟨hmem, hpath⟩
            · rw [hpath] at h2
              injection h2 with h2
              have := author_inj hr.incOnce hmem h0 (by rw [← h2, ha])
              rw [this] at h1
              exact hself h1
            · rw [hpath] at h2; simp at h2
          · rw [hcon] at h2; simp at h2
        rw [if_neg hnp]
        have hn : ∀ q, byAuthor includes localId = some q → q.anchorLink .proof ≠ .toSelf := by
          intro q hq
          rw [hq0] at hq
          injection hq with hq
          rw [← hq]; exact hself
        cases hpr : proof with
        | direct t =>
          simp only
          refine .regular hn ?_
          simp [farEnough]
        | indirect il =>
          simp only
          split
          · rename_i hc
            simp only [Bool.and_eq_true, decide_eq_true_eq] at hc
            exact .anchorProof il q0 rfl hc.1 hc.2 hq0 hself
          · rename_i hc
            refine .regular hn ?_
            rintro ⟨h1, _, h3⟩
            exact hc (by simp [h1, h3])

end

end Tycho.Producer
