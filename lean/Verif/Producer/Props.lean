import Verif.Producer.Valid
import Verif.Verifier.Verdict

/-! Producer and verifier agree. -/
namespace Tycho.Producer

open Tycho.PeerCount Tycho.Verifier

section
variable {W : World} {last : Option LastOwn} {localId r : Nat} {includes witness : List Info} {now : Nat} {p : Info}

theorem mem_insertLink {l x : ILink} {ls : List ILink} : x ∈ insertLink l ls ↔ x = l ∨ x ∈ ls := by
  induction ls with
  | nil => simp [insertLink]
  | cons y ys ih =>
    unfold insertLink
    split
    · simp
    · simp only [List.mem_cons, ih]
      constructor
      · rintro (h | h | h)
        · exact .inr (.inl h)
        · exact .inl h
        · exact .inr (.inr h)
      · rintro (h | h | h)
        · exact .inr (.inl h)
        · exact .inl h
        · exact .inr (.inr h)

theorem mem_indirectLinks {l : ILink} (h : l ∈ indirectLinks p) :
    p.anchorLink .trigger = .indirect l ∨ p.anchorLink .proof = .indirect l ∨ p.indirectAnchorProof = some l := by
  have key : ∀ ls : List ILink, l ∈ ls.foldr insertLink [] ↔ l ∈ ls := by
    intro ls
    induction ls with
    | nil => simp
    | cons y ys ih => rw [List.foldr_cons, mem_insertLink, ih, List.mem_cons]
  unfold indirectLinks at h
  rw [key, List.mem_filterMap] at h
  obtain ⟨o, ho, he⟩ := h
  simp only [id] at he
  subst he
  have hany : ∀ a : AnyLink, a.indirect? = some l → a = .indirect l := by
    intro a ha
    cases a <;> simp [AnyLink.indirect?] at ha
    rw [ha]
  simp only [List.mem_cons, List.not_mem_nil, or_false] at ho
  rcases ho with h | h | h
  · exact .inl (hany _ h.symm)
  · exact .inr (.inl (hany _ h.symm))
  · exact .inr (.inr h.symm)

theorem Made.proofLinkOk {srcP srcT : Source} {proof trigger : ALink} (hW : W.Ok) (hsch : Schedule W)
    (hst : W.conf.stickyAnchors < 256) (hr : Ready W last localId r includes witness now)
    (hm : Made last localId r (W.leader r) includes witness now W.conf p srcP srcT proof trigger) :
    p.isProofLinkOk (decide (W.leader p.round = some p.author)) W.conf = true := by
  have hro : p.round = r := hm.round
  have hau : p.author = localId := hm.author
  have hab := hr.above
  have hg := hW.genesis_pos
  have hrc := role_cases hW hsch hst hr hm
  unfold Info.isProofLinkOk
  dsimp only
  rw [hro, hau]
  generalize hrole : p.role = ro at hrc
  cases hrc with
  | regular _ hn =>
    simp only [Bool.not_eq_eq_eq_not, Bool.not_true]
    rw [Bool.eq_false_iff]
    intro hcon
    simp only [Bool.and_eq_true, decide_eq_true_eq] at hcon
    obtain ⟨⟨h1, h2⟩, h3⟩ := hcon
    apply hn
    refine ⟨h1, ?_, ?_⟩
    · have := hm.has_iff hr
      rw [← this, PMap.has_iff_get?]
      exact h2
    · have hlink : p.anchorLink .proof = proof.any := by unfold Info.anchorLink; rw [hrole]; rfl
      unfold Info.anchorRound at h3
      rw [hlink] at h3
      cases proof with
      | direct t =>
        cases t <;> simp only [ALink.any, hro] at h3 <;> split at h3 <;> simp at h3 <;> omega
      | indirect l =>
        simp only [ALink.any] at h3
        unfold farEnough
        exact h3
  | anchorProof l q0 hpr hlead hfar =>
    simp only [hlead, decide_true, Bool.true_and]
    unfold farEnough at hfar
    rw [hpr] at hfar
    exact hfar
  | anchorTrigger => rfl
  | sticky => rfl

/-- **C57.** A point made by an honest node in a legal situation, whose dependencies all turn out to be valid, is valid:
the node never invalidates itself. -/
theorem produced_point_valid (hW : W.Ok) (hsch : Schedule W) (hst : W.conf.stickyAnchors < 256)
    (hr : Ready W last localId r includes witness now) {digest n b : Nat}
    (hc : create last localId r (W.leader r) includes witness now digest n b W.conf = .ok p) (run : Run)
    (hf : Faithful W p run) (hv : AllValid p run) : validate W.conf p run = .valid := by
  obtain ⟨-, srcP, srcT, proof, trigger, hm⟩ := create_made hc
  have hro : p.round = r := hm.round
  have hab := hr.above
  have hg := hW.genesis_pos
  have hsh := hm.shape hW hsch hst hr
  have hrc := role_cases hW hsch hst hr hm
  have htimes := hm.times hr
  obtain ⟨P, hP, ha, hb, hcc, hd, he, hg'⟩ := prepare_some hsh
  unfold validate
  rw [if_neg (by omega), if_neg (by omega), hf.leader, hm.proofLinkOk hW hsch hst hr, hv.rounds.1, hv.rounds.2.1,
    hv.rounds.2.2, hP]
  simp only [Bool.not_true, Bool.false_eq_true, if_false, Bool.false_and]
  have hinv : (checkValid W.conf p P run.order).inv = none := by
    rw [checkValid_inv]
    intro item hitem
    obtain ⟨q, first, rfl⟩ := hv.deps item hitem
    have hmem := hf.order.mem_iff.mp hitem
    rw [hv.others, List.append_nil, List.mem_map] at hmem
    obtain ⟨i, hi, hres⟩ := hmem
    have hid := hf.resolves i _ hres
    obtain ⟨q', hq', hid', hbody⟩ := mem_depIds_made hr hm hi
    have hbq := hf.bodies _ hitem q rfl
    rw [hid, hbody] at hbq
    injection hbq with hbq
    subst hbq
    have hfact := hm.depFacts hW hsch hst hr hq'
    have hsome : (q'.anchorId .proof).isSome := by
      obtain ⟨t, h1, _⟩ := anchor_target hW .proof q' (hr.depAccepted hq')
      rw [h1]; rfl
    unfold itemOk
    dsimp only
    rw [if_neg]
    · exact ⟨q', rfl, checks_none hP hsh hst hfact hsome⟩
    · rintro ⟨⟨h1, h2⟩, h3⟩
      change q'.author = p.author at h2
      apply h3
      have hau : p.author = localId := hm.author
      have hinc : q' ∈ includes := by
        rcases hq' with h | h
        · exact h
        · exact absurd (by rw [← hau]; exact h2) (hr.wit q' h).2.1
      unfold Info.prevDigest
      rw [hm.inc, ← h2]
      exact digests_get hr.incOnce hinc
  have hlat : (checkValid W.conf p P run.order).latest = none := by
    cases hl : (checkValid W.conf p P run.order).latest with
    | none => rfl
    | some d =>
      obtain ⟨dp, h1, _, h3⟩ := checkValid_latest_mem run.order d hl
      obtain ⟨q, first, h4⟩ := hv.deps _ h1
      injection h4 with h4
      subst h4
      simp [rootOf] at h3
  rw [hinv, hlat]
  simp only
  have trigSrc : ∀ l, p.anchorLink .trigger = .indirect l → Linked p .trigger srcT := by
    intro l hl
    generalize hrole : p.role = ro at hrc
    unfold Info.anchorLink at hl
    rw [hrole] at hl
    cases hrc with
    | regular => exact hm.linkedTrigger hW hr (.inl ⟨_, hrole⟩)
    | anchorProof => exact hm.linkedTrigger hW hr (.inr ⟨_, hrole⟩)
    | anchorTrigger => simp [Role.anchorTriggerLink] at hl
    | sticky => simp [Role.anchorTriggerLink] at hl
  have proofSrc : ∀ l, p.anchorLink .proof = .indirect l → Linked p .proof srcP := by
    intro l hl
    generalize hrole : p.role = ro at hrc
    unfold Info.anchorLink at hl
    rw [hrole] at hl
    cases hrc with
    | regular => exact hm.linkedProof hW hr hrole
    | anchorProof => simp [Role.anchorProofLink] at hl
    | anchorTrigger => simp [Role.anchorProofLink] at hl
    | sticky => simp [Role.anchorProofLink] at hl
  have chainSrc : ∀ l, p.indirectAnchorProof = some l → srcP.info.anchorId .proof = some l.to := by
    intro l hl
    generalize hrole : p.role = ro at hrc
    unfold Info.indirectAnchorProof at hl
    rw [hrole] at hl
    cases hrc with
    | regular => simp [Role.chained] at hl
    | anchorProof l' _ hpr =>
      simp [Role.chained] at hl
      subst hl
      exact (hm.chainedLink hr hpr).2.1
    | anchorTrigger => simp [Role.chained] at hl
    | sticky => simp [Role.chained] at hl
  -- the target of a link, by its source
  have targetOf : ∀ (s : Stage) (src : Source) (t : Info), src.From includes witness → src.info.anchorId s = some t.id → W.body t.id = some t →
      t.anchorLink s = .toSelf ∧ t.time ≤ p.time + W.conf.clockSkew := by
    intro s src t hfr h1 h2
    obtain ⟨t', g1, g2, _, g4⟩ := anchor_target hW s src.info (hr.depAccepted hfr.mem)
    rw [h1] at g1
    injection g1 with g1
    rw [← g1, h2] at g2
    injection g2 with g2
    subst g2
    refine ⟨g4, ?_⟩
    have := hr.anchorsClock src.info hfr.mem s t.id t (anchorId_linksTo h1) h2
    have := htimes.1
    omega
  have hinv2 : (checkIndirect W.conf p P.bound none run.orderI).inv = none := by
    rw [checkIndirect_inv]
    intro item hitem
    rcases hv.targets item hitem with rfl | ⟨t, first, th, rfl⟩
    · trivial
    · refine ⟨t, rfl, ?_⟩
      have hbody : W.body t.id = some t := hf.bodiesI _ _ hitem t rfl
      have hmem := hf.orderI.mem_iff.mp hitem
      rw [List.mem_map] at hmem
      obtain ⟨l, hl, hres⟩ := hmem
      rw [Option.map_eq_some_iff] at hres
      obtain ⟨dp, hdp, hpair⟩ := hres
      simp only [Prod.mk.injEq] at hpair
      obtain ⟨rfl, rfl⟩ := hpair
      have hid : t.id = l.to := hf.resolvesI _ _ hdp
      have hl' : l ∈ indirectLinks p := (List.takeWhile_sublist _).subset hl
      unfold indirectChecks
      simp only [List.mem_cons, List.not_mem_nil, or_false, forall_eq_or_imp, forall_eq, fire_eq_none]
      refine ⟨?_, ?_, ?_, ?_⟩
      · have : t.time ≤ p.time + W.conf.clockSkew := by
          rcases mem_indirectLinks hl' with h | h | h
          · exact (targetOf .trigger srcT t hm.fromT (by rw [hid]; exact ((trigSrc l h).indirect l h).2.1) hbody).2
          · exact (targetOf .proof srcP t hm.fromP (by rw [hid]; exact ((proofSrc l h).indirect l h).2.1) hbody).2
          · exact (targetOf .proof srcP t hm.fromP (by rw [hid]; exact chainSrc l h) hbody).2
        simp; omega
      · split
        · rename_i hc
          rw [Option.any_eq_true] at hc
          obtain ⟨l2, h2, h3⟩ := hc
          simp only [decide_eq_true_eq] at h3
          have hlk : p.anchorLink .trigger = .indirect l2 := by
            cases h : p.anchorLink .trigger <;> rw [h] at h2 <;> simp [AnyLink.indirect?] at h2
            rw [h2]
          have hsrc := ((trigSrc l2 hlk).indirect l2 hlk).2.1
          rw [← h3] at hsrc
          unfold checkTriggerTarget
          rw [if_neg (by rw [(targetOf .trigger srcT t hm.fromT hsrc hbody).1]; simp)]
          cases hbd : P.bound with
          | none => simp
          | some bd =>
            have hj : p.anchorId .trigger = some t.id := by rw [(trigSrc l2 hlk).anchorId]; exact hsrc
            obtain ⟨k1, k2, k3, _⟩ := hm.bound hW hsch hst hr (by rw [he, hbd]) hj
            have := (hm.bound_trigger hW hr k3 k2 hbody k1).2
            simp [this]
        · rfl
      · split
        · rename_i hc
          rw [Option.any_eq_true] at hc
          obtain ⟨l2, h2, h3⟩ := hc
          simp only [decide_eq_true_eq] at h3
          have hlk : p.anchorLink .proof = .indirect l2 := by
            cases h : p.anchorLink .proof <;> rw [h] at h2 <;> simp [AnyLink.indirect?] at h2
            rw [h2]
          have hsrc := (proofSrc l2 hlk).indirect l2 hlk
          have hsid := hsrc.2.1
          rw [← h3] at hsid
          rw [if_neg (by rw [(targetOf .proof srcP t hm.fromP hsid hbody).1]; simp), fire_eq_none]
          have ht1 := htimes.2.2.2.2 srcP hm.fromP (.inr ⟨l2.to, by rw [hlk, ← hsrc.2.2]⟩)
          obtain ⟨t', g1, g2, _, _, g5⟩ := anchorTime_target hW srcP.info (hr.depAccepted hm.fromP.mem)
          rw [hsid] at g1
          injection g1 with g1
          rw [← g1, hbody] at g2
          injection g2 with g2
          subst g2
          simp [ht1, g5]
        · rfl
      · by_cases hc : p.indirectAnchorProof.any (fun l => decide (t.id = l.to)) = true
        · rw [Option.any_eq_true] at hc
          obtain ⟨l2, h2, h3⟩ := hc
          simp only [decide_eq_true_eq] at h3
          have hsid := chainSrc l2 h2
          rw [← h3] at hsid
          have := (targetOf .proof srcP t hm.fromP hsid hbody).1
          simp [this]
        · simp only [Bool.not_eq_true] at hc
          rw [hc]; rfl
  have hlat2 : (checkIndirect W.conf p P.bound none run.orderI).latest = none := by
    cases hl : (checkIndirect W.conf p P.bound none run.orderI).latest with
    | none => rfl
    | some d =>
      rcases checkIndirect_latest_mem run.orderI d hl with h | ⟨dp, th, h1, h3⟩
      · simp at h
      · rcases hv.targets _ h1 with h4 | ⟨q, first, th', h4⟩
        · simp at h4
        · injection h4 with h4
          injection h4 with h4 _
          subst h4
          simp [rootOf] at h3
  rw [hinv2, hlat2]

/-- The execution of `validate` in which every dependency is found valid at once. -/
def honestRun (W : World) (p : Info) : Run where
  isLeader := decide (W.leader p.round = some p.author)
  r0 := true
  r1 := true
  r2 := true
  resolve i := (W.body i).map (fun q => .valid q true)
  others := []
  order := (depIds p true).map (fun i => (W.body i).map (fun q => .valid q true))
  scan _ := true
  resolveI i := (W.body i).map (fun q => .valid q true)
  orderI := (scannedLinks p (fun _ => true)).map
    (fun l => ((W.body l.to).map (fun q => DagPoint.valid q true)).map (fun dp => (dp, l.path)))

theorem honestRun_faithful (hW : W.Ok) (p : Info) : Faithful W p (honestRun W p) where
  leader := rfl
  resolves := by
    intro i dp h
    simp only [honestRun, Option.map_eq_some_iff] at h
    obtain ⟨q, hq, rfl⟩ := h
    exact hW.id_eq _ _ hq
  bodies := by
    intro dp h q hq
    simp only [honestRun, List.mem_map, Option.map_eq_some_iff] at h
    obtain ⟨i, _, q', hq', rfl⟩ := h
    simp [DagPoint.info?] at hq
    subst hq
    simp only [DagPoint.id]
    rw [hW.id_eq _ _ hq']; exact hq'
  order := by simp [honestRun]
  others := by simp [honestRun]
  resolvesI := by
    intro i dp h
    simp only [honestRun, Option.map_eq_some_iff] at h
    obtain ⟨q, hq, rfl⟩ := h
    exact hW.id_eq _ _ hq
  bodiesI := by
    intro dp t h q hq
    simp only [honestRun, List.mem_map, Option.map_eq_some_iff, Prod.mk.injEq] at h
    obtain ⟨l, _, dp', ⟨q', hq', rfl⟩, rfl, rfl⟩ := h
    simp [DagPoint.info?] at hq
    subst hq
    simp only [DagPoint.id]
    rw [hW.id_eq _ _ hq']; exact hq'
  orderI := by simp [honestRun]

/-- **C57.** The produced point joins the accepted history: with its body known, it and its whole history are accepted, so
everything proved about accepted histories holds of it. -/
theorem produced_point_accepted (hW : W.Ok) (hsch : Schedule W) (hst : W.conf.stickyAnchors < 256)
    (hr : Ready W last localId r includes witness now) {digest n b : Nat} (hb : b ≤ W.conf.payloadBatchBytes)
    (hc : create last localId r (W.leader r) includes witness now digest n b W.conf = .ok p)
    (hk : W.body p.id = some p) : AllAccepted W p := by
  obtain ⟨-, srcP, srcT, proof, trigger, hm⟩ := create_made hc
  intro q hq
  rcases Relation.ReflTransGen.cases_head hq with rfl | ⟨d, hd, hrest⟩
  · refine ⟨hk, produced_point_verified hW hsch hst hr hb hc, honestRun W p, honestRun_faithful hW p, .inl ?_⟩
    refine produced_point_valid hW hsch hst hr hc _ (honestRun_faithful hW p) ⟨⟨rfl, rfl, rfl⟩, rfl, ?_, ?_⟩
    · intro o ho
      simp only [honestRun, List.mem_map] at ho
      obtain ⟨i, hi, rfl⟩ := ho
      obtain ⟨q', _, _, hbody⟩ := mem_depIds_made hr hm hi
      exact ⟨q', true, by rw [hbody]; rfl⟩
    · intro o ho
      simp only [honestRun, List.mem_map] at ho
      obtain ⟨l, _, rfl⟩ := ho
      cases hbd : W.body l.to with
      | none => exact .inl rfl
      | some t => exact .inr ⟨t, true, l.path, rfl⟩
  · obtain ⟨q', hq', hid, hbody⟩ := mem_depIds_made hr hm (mem_depIds_of_dep hd)
    rw [hd.1] at hbody
    injection hbody with hbody
    subst hbody
    exact hr.depAccepted hq' q hrest

/-- **C58.** Making a point does not panic, if the node includes its own point of the previous round whenever it remembers
one (as the caller does). -/
theorem create_no_panic (hW : W.Ok) (hr : Ready W last localId r includes witness now)
    (hown : ∀ l, last = some l → l.round = r - 1 → ∃ q ∈ includes, q.author = localId) (digest n b : Nat) :
    create last localId r (W.leader r) includes witness now digest n b W.conf ≠ .panic := by
  have hne : includes ≠ [] := by
    intro hcon
    have := hr.incQuorum
    rw [hcon] at this
    unfold quorum at this
    split at this <;> simp at this
  have hsome : ∀ q, q ∈ includes ∨ q ∈ witness → ∀ s, (q.anchorId s).isSome := by
    intro q hq s
    obtain ⟨t, h1, _⟩ := anchor_target hW s q (hr.depAccepted hq)
    rw [h1]; rfl
  have hlinkSome : ∀ src s, src.From includes witness → (link r src s).isSome := by
    intro src s hf
    unfold link
    obtain ⟨i, hi⟩ := Option.isSome_iff_exists.mp (hsome _ hf.mem s)
    rw [hi]
    cases src.path <;> dsimp only <;> split <;> rfl
  obtain ⟨srcT, hT⟩ := Option.isSome_iff_exists.mp (linkSource_isSome (witness := witness) .trigger hne)
  obtain ⟨srcM, hM⟩ := Option.isSome_iff_exists.mp (linkSource_isSome (witness := witness) .proof hne)
  have fT := (linkSource_spec hT).1
  have fM := (linkSource_spec hM).1
  obtain ⟨srcP, hsP, fP⟩ : ∃ srcP, srcP = (if srcT.info.anchorRound .trigger > srcM.info.anchorRound .proof then srcT else srcM) ∧
      srcP.From includes witness := ⟨_, rfl, by split <;> assumption⟩
  obtain ⟨proof, hproof⟩ := Option.isSome_iff_exists.mp (hlinkSome srcP .proof fP)
  obtain ⟨trigger, htrigger⟩ := Option.isSome_iff_exists.mp (hlinkSome srcT .trigger fT)
  have hlinks : anchorLinks r includes witness = some (proof, trigger) := by
    unfold anchorLinks
    simp only [Option.bind_eq_bind, hT, hM, Option.bind_some, ← hsP, hproof, htrigger]
    rfl
  have hpath : ∀ prev, (anchorTimeOf (.direct srcP.path) prev includes witness).isSome := by
    intro prev
    unfold anchorTimeOf
    rcases fP with ⟨hmem, hp⟩ | ⟨hmem, hp⟩
    · rw [hp]; simp only [byAuthor_of_mem hr.incOnce hmem]; rfl
    · rw [hp]; simp only [byAuthor_of_mem hr.witOnce hmem]; rfl
  have hproofTime : ∀ prev, (anchorTimeOf proof.any prev includes witness).isSome := by
    intro prev
    rcases link_cases hr fP hproof with ⟨_, h, _⟩ | ⟨_, dst, _, h⟩
    · rw [h]; exact hpath prev
    · rw [h]; exact hpath prev
  unfold create
  dsimp only
  split
  · simp
  rw [hlinks]
  dsimp only
  cases hl : last.filter (fun l => l.round = r - 1) with
  | none =>
    simp only [Option.map_none]
    cases hb : byAuthor includes localId with
    | some q => simp [checkPrev]
    | none =>
      simp only [Option.map_none, checkPrev, chooseRole, Role.anchorProofLink]
      unfold getTime
      obtain ⟨x, hx⟩ := Option.isSome_iff_exists.mp (hproofTime none)
      rw [hx]
      simp
  | some l =>
    rw [Option.filter_eq_some_iff] at hl
    obtain ⟨q, hq, ha⟩ := hown l hl.1 (by simpa using hl.2)
    have hb : byAuthor includes localId = some q := by rw [← ha]; exact byAuthor_of_mem hr.incOnce hq
    rw [hb]
    simp only [Option.map_some, checkPrev]
    split
    · rename_i res hres
      split at hres
      · simp at hres
      · injection hres with hres; rw [← hres]; simp
    · have hrole : (anchorTimeOf ((chooseRole (some l) localId r (W.leader r) proof trigger W.conf).anchorProofLink localId)
          (some q) includes witness).isSome := by
        have hself : (anchorTimeOf .toSelf (some q) includes witness).isSome := rfl
        have htrig : (anchorTimeOf (.direct (.includes localId)) (some q) includes witness).isSome := by
          unfold anchorTimeOf; simp only [hb]; rfl
        unfold chooseRole
        simp only
        split
        · split
          · exact hself
          · exact htrig
        · split
          · split
            · exact hself
            · exact htrig
          · cases hpr : proof with
            | direct t =>
              have := hproofTime (some q)
              rw [hpr] at this
              exact this
            | indirect il =>
              simp only
              split
              · exact hself
              · have := hproofTime (some q)
                rw [hpr] at this
                exact this
      obtain ⟨x, hx⟩ := Option.isSome_iff_exists.mp hrole
      unfold getTime
      rw [hx]
      simp

end

end Tycho.Producer
