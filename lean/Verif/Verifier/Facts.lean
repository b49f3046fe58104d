import Verif.Verifier.Struct

/-! The checks of one direct dependency, unfolded into readable facts. -/
namespace Tycho.Verifier

/-- What acceptance of `p` says about the dependency `q` listed under the id `i`. -/
structure DepFacts (W : World) (p : Info) (i : PointId) (q : Info) : Prop where
  body : W.body i = some q
  id : q.id = i
  prev : i.round = p.round - 1 → i.author = p.author → isProofOk p q = none
  time : q.time ≤ p.time + W.conf.clockSkew
  newer : ∀ s, q.anchorRound s ≤ p.anchorRound s
  proofTarget : p.anchorId .proof = some i → q.anchorLink .proof = .toSelf
  triggerTarget : p.anchorId .trigger = some i → q.anchorLink .trigger = .toSelf
  triggerTargetBound : p.anchorId .trigger = some i → ∀ b, p.triggerBoundProofId = some (some b) →
    q.anchorId .proof = some b
  through : ∀ s, p.anchorLinkThrough s = some i → q.anchorId s = p.anchorId s
  throughBound : p.anchorLinkThrough .trigger = some i → p.anchorId .trigger ≠ some i →
    ∀ b, p.triggerBoundProofId = some (some b) → q.anchorId .proof = some b
  throughTime : p.anchorLinkThrough .proof = some i → q.anchorTime = p.anchorTime
  chainedNewer : ∀ to th, p.chainedToThrough = some (some (to, th)) → q.anchorRound .proof ≤ to.round
  chainedThrough : ∀ to, p.chainedToThrough = some (some (to, some i)) → q.anchorId .proof = some to
  chainedPrev : p.chainedToThrough = some (some (i, none)) → q.anchorLink .proof = .toSelf
  sticky : p.chainedToThrough = some (some (i, none)) → ∀ n, p.stickyAnchors = some n →
    n < W.conf.stickyAnchors ∧ (match q.stickyAnchors with | some k => k + 1 = n | none => n = 0)

theorem Facts.depFacts {W : World} (hW : W.Ok) {p : Info} (h : Facts W p) {i : PointId} (hi : i ∈ depIds p true) :
    ∃ q, DepFacts W p i q := by
  obtain ⟨P0, hP0, ha, hb, hc, hd, he, hg⟩ := prepare_some h.shape
  obtain ⟨q, P, hP, hq, _, hchk⟩ := h.dep i hi
  rw [hP0] at hP
  injection hP with hP
  subst hP
  have hid := hW.id_eq _ _ hq
  unfold directChecks at hchk
  rw [List.forall_mem_append] at hchk
  obtain ⟨hd1, hd2⟩ := hchk
  simp only [List.mem_cons, List.not_mem_nil, or_false, forall_eq_or_imp, forall_eq, fire_eq_none, hid] at hd1
  obtain ⟨c1, c2, c3, c4, c5, c6, c7, c8, c9, c10⟩ := hd1
  have htr : P0.triggerId.round = p.anchorRound .trigger := anchorId_round ha
  have hpr : P0.proofId.round = p.anchorRound .proof := anchorId_round hb
  refine ⟨q, hq, hid, ?_, by simpa using c2, ?_, ?_, ?_, ?_, ?_, ?_, ?_, ?_, ?_, ?_, ?_⟩
  · intro h1 h2
    rw [if_pos (by simp [h1, h2])] at c1
    exact c1
  · intro s; cases s
    · rw [← htr]; simpa using c3
    · rw [← hpr]; simpa using c4
  · intro hx
    rw [hb] at hx; injection hx with hx
    simpa [hx] using c5
  · intro hx
    rw [ha] at hx; injection hx with hx
    rw [if_pos (by rw [hx])] at c6
    unfold checkTriggerTarget at c6
    by_contra hcon
    rw [if_pos hcon] at c6
    simp at c6
  · intro hx b hbd
    rw [ha] at hx; injection hx with hx
    rw [if_pos (by rw [hx])] at c6
    unfold checkTriggerTarget at c6
    rw [he] at hbd; injection hbd with hbd
    rw [hbd] at c6
    split at c6
    · simp at c6
    · split at c6
      · simp at c6
      · rename_i hh
        simp only [Option.any_some, decide_eq_true_eq, ne_eq, Decidable.not_not] at hh
        exact hh.symm
  · intro s hx
    cases s
    · rw [hc] at hx; injection hx with hx
      rw [ha]
      simpa [hx] using c7
    · rw [hd] at hx; injection hx with hx
      rw [hb]
      simpa [hx] using c9
  · intro hx hy b hbd
    rw [hc] at hx; injection hx with hx
    rw [he] at hbd; injection hbd with hbd
    have hnt : P0.triggerThrough ≠ P0.triggerId := by
      intro hcon; rw [ha, ← hcon, hx] at hy; exact hy rfl
    have h7 : q.anchorId .trigger = some P0.triggerId := by simpa [hx] using c7
    rw [hbd] at c8
    have c8' := c8
    rw [h7] at c8'
    simp only [hx, decide_true, Bool.true_and] at c8'
    rw [hx] at hnt
    simp only [ne_eq, hnt, not_false_eq_true, decide_true, Bool.true_and, Option.any_some, decide_eq_false_iff_not,
      Decidable.not_not] at c8'
    exact c8'.symm
  · intro hx
    rw [hd] at hx; injection hx with hx
    simpa [hx] using c10
  · intro to th hx
    rw [hg] at hx; injection hx with hx
    rw [hx] at hd2
    unfold chainedChecks at hd2
    have := hd2 _ (List.mem_append_left _ (List.mem_singleton.mpr rfl))
    rw [fire_eq_none] at this
    cases haq : q.anchorId .proof with
    | none => rw [haq] at this; simp at this
    | some j =>
      rw [haq] at this
      simp only [Option.all_some, decide_eq_false_iff_not, Nat.not_lt] at this
      rw [← anchorId_round haq]
      omega
  · intro to hx
    rw [hg] at hx; injection hx with hx
    rw [hx] at hd2
    unfold chainedChecks at hd2
    simp only [List.mem_append, List.mem_singleton] at hd2
    have := hd2 _ (.inr rfl)
    rw [fire_eq_none] at this
    simpa [hid] using this
  · intro hx
    rw [hg] at hx; injection hx with hx
    rw [hx] at hd2
    unfold chainedChecks at hd2
    simp only [List.mem_append, List.mem_singleton, hid, if_true] at hd2
    have := hd2 _ (.inr (List.mem_cons_self))
    rw [fire_eq_none] at this
    simpa using this
  · intro hx n hn
    rw [hg] at hx; injection hx with hx
    rw [hx] at hd2
    unfold chainedChecks at hd2
    simp only [List.mem_append, List.mem_singleton, hid, if_true] at hd2
    have := hd2 _ (.inr (List.mem_cons_of_mem _ (List.mem_cons_self)))
    rw [fire_eq_none, hn] at this
    simp only [Option.any_some, Bool.not_eq_eq_eq_not, Bool.not_false, Bool.and_eq_true, decide_eq_true_eq] at this
    refine ⟨this.1, ?_⟩
    have h2 := this.2
    cases hk : q.stickyAnchors with
    | none => rw [hk] at h2; simpa using h2
    | some k => rw [hk] at h2; simp at h2; exact h2.1

/-! ### paths -/

theorem throughId_mem {p : Info} {t : Through} {i : PointId} (h : p.throughId t = some i) : i ∈ depIds p true := by
  rw [mem_depIds]
  unfold Info.throughId at h
  cases t with
  | includes a =>
    simp only [Option.map_eq_some_iff] at h
    obtain ⟨d, hd, rfl⟩ := h
    exact .inl ⟨rfl, PMap.get?_mem hd⟩
  | witness a =>
    simp only [Option.map_eq_some_iff] at h
    obtain ⟨d, hd, rfl⟩ := h
    exact .inr ⟨rfl, PMap.get?_mem hd⟩

theorem depIds_round_lt {W : World} {p : Info} (h : Facts W p) (hg : 0 < W.conf.genesisRound) {i : PointId}
    (hi : i ∈ depIds p true) : i.round < p.round := by
  have := h.above
  rcases mem_depIds.mp hi with ⟨h, _⟩ | ⟨h, _⟩ <;> omega

theorem dep_of_facts {W : World} {p : Info} {i : PointId} {q : Info} (hi : i ∈ depIds p true)
    (h : DepFacts W p i q) : Dep W p q := by
  refine ⟨by rw [h.id]; exact h.body, ?_⟩
  rw [h.id]
  exact mem_depIds.mp hi

theorem mem_depIds_of_dep {W : World} {p q : Info} (h : Dep W p q) : q.id ∈ depIds p true :=
  mem_depIds.mpr h.2

theorem AllAccepted.dep {W : World} {p q : Info} (h : AllAccepted W p) (hd : Dep W p q) : AllAccepted W q :=
  fun r hr => h r (Relation.ReflTransGen.head hd hr)

theorem AllAccepted.self {W : World} {p : Info} (h : AllAccepted W p) : Accepted W p := h p .refl

theorem Dep.facts {W : World} (hW : W.Ok) {p q : Info} (hf : Facts W p) (hd : Dep W p q) : DepFacts W p q.id q := by
  obtain ⟨q', h⟩ := hf.depFacts hW (mem_depIds_of_dep hd)
  have := h.body
  rw [hd.1] at this
  injection this with this
  rw [this]; rw [this] at h; exact h

end Tycho.Verifier
