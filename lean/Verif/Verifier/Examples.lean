import Verif.Verifier.Skip

/-! Concrete, non-trivial instances of the hypotheses of the verifier theorems. -/
namespace Tycho.Verifier.Examples

open Tycho.Verifier

/-- An execution in which every dependency is found valid, answered in the order of request. -/
def honestRun (W : World) (p : Info) : Run where
  isLeader := decide (W.leader p.round = some p.author)
  r0 := true
  r1 := true
  r2 := true
  resolve i := (W.body i).map (fun q => .valid q true)
  others := []
  order := (depIds p true).map (fun i => (W.body i).map (fun q => .valid q true))
  scan _ := true
  resolveI i := (W.body i).map (fun q => .valid q true)
  orderI := (scannedLinks p (fun _ => true)).map
    (fun l => ((W.body l.to).map (fun q => DagPoint.valid q true)).map (fun dp => (dp, l.path)))

theorem honestRun_faithful {W : World} (hW : W.Ok) (p : Info) : Faithful W p (honestRun W p) where
  leader := rfl
  resolves := by
    intro i dp h
    simp only [honestRun, Option.map_eq_some_iff] at h
    obtain ⟨q, hq, rfl⟩ := h
    exact hW.id_eq _ _ hq
  bodies := by
    intro dp h q hq
    simp only [honestRun, List.mem_map, Option.map_eq_some_iff] at h
    obtain ⟨i, _, q', hq', rfl⟩ := h
    simp [DagPoint.info?] at hq
    subst hq
    simp only [DagPoint.id]
    rw [hW.id_eq _ _ hq']; exact hq'
  order := by simp [honestRun]
  others := by simp [honestRun]
  resolvesI := by
    intro i dp h
    simp only [honestRun, Option.map_eq_some_iff] at h
    obtain ⟨q, hq, rfl⟩ := h
    exact hW.id_eq _ _ hq
  bodiesI := by
    intro dp t h q hq
    simp only [honestRun, List.mem_map, Option.map_eq_some_iff, Prod.mk.injEq] at h
    obtain ⟨l, _, dp', ⟨q', hq', rfl⟩, rfl, rfl⟩ := h
    simp [DagPoint.info?] at hq
    subst hq
    simp only [DagPoint.id]
    rw [hW.id_eq _ _ hq']; exact hq'
  orderI := by simp [honestRun]

/-- Digests used below: ten times the round plus the author. -/
def dg (r a : Nat) : Nat := 10 * r + a

/-- Genesis, three rounds of regular points with one proof at round 4 and its trigger at round 5. -/
def pt (r a : Nat) (includes evidence : PMap) (role : Role) (time anchorTime : Nat) : Info :=
  ⟨⟨r, dg r a, a⟩, 0, 0, includes, [], evidence, role, time, anchorTime⟩

def genesisPt : Info := pt 1 0 [] [] .genesis 100 100
def inc (r : Nat) : PMap := [(1, dg r 1), (2, dg r 2), (3, dg r 3)]
def ev (a : Nat) : PMap := [(1, 0), (2, 0), (3, 0)].filter (fun e => e.1 ≠ a)
def gid : PointId := genesisPt.id
def viaInc (a : Nat) : ALink := .indirect ⟨gid, .includes a⟩

def r2 (a : Nat) : Info := pt 2 a [(0, dg 1 0)] [] (.regular (.direct (.includes 0)) (.direct (.includes 0))) (110 + a) 100
def r3 (a : Nat) : Info := pt 3 a (inc 2) (ev a) (.regular (viaInc 1) (viaInc 2)) (120 + a) 100
/-- The proof of the leader 1 at round 4; its candidate is `r3 1`. -/
def proof4 : Info := pt 4 1 (inc 3) (ev 1) (.anchorProof ⟨gid, .includes 2⟩ (viaInc 3)) 131 121
def r4 (a : Nat) : Info := pt 4 a (inc 3) (ev a) (.regular (viaInc 1) (viaInc 1)) (130 + a) 100
/-- The trigger of the leader 1 at round 5. -/
def trigger5 : Info := pt 5 1 (inc 4) (ev 1) .anchorTrigger 141 121
def r5 (a : Nat) : Info :=
  pt 5 a (inc 4) (ev a) (.regular (.direct (.includes 1)) (.indirect ⟨gid, .includes 3⟩)) (140 + a) 121
def r6 (a : Nat) : Info :=
  pt 6 a (inc 5) (ev a) (.regular (.indirect ⟨proof4.id, .includes 1⟩) (.direct (.includes 1))) (150 + a) 121
def r7 (a : Nat) : Info :=
  pt 7 a (inc 6) (ev a) (.regular (.indirect ⟨proof4.id, .includes 2⟩) (.indirect ⟨trigger5.id, .includes 3⟩)) (160 + a) 121

def pts : List Info :=
  [genesisPt, r2 1, r2 2, r2 3, r3 1, r3 2, r3 3, proof4, r4 2, r4 3, trigger5, r5 2, r5 3, r6 1, r6 2, r6 3, r7 2]

def W : World where
  conf := ⟨1, 5, 20, 0, 1000⟩
  peersFor r := if r = 1 then [0] else [1, 2, 3]
  leader r := if r = 4 then some 1 else none
  body i := pts.find? (fun p => p.id = i)

theorem body_mem {i p} (h : W.body i = some p) : p ∈ pts := by
  have h : pts.find? (fun p => p.id = i) = some p := h
  exact List.mem_of_find?_eq_some h

theorem W_ok : W.Ok where
  id_eq := by
    intro i p h
    have := List.find?_some h
    simpa using this
  includes_uniq := by
    intro i p h
    have : ∀ p ∈ pts, p.includes.Uniq := by unfold PMap.Uniq; decide +kernel
    exact this p (body_mem h)
  witness_uniq := by
    intro i p h
    have : ∀ p ∈ pts, p.witness.Uniq := by unfold PMap.Uniq; decide +kernel
    exact this p (body_mem h)
  evidence_uniq := by
    intro i p h
    have : ∀ p ∈ pts, p.evidence.Uniq := by unfold PMap.Uniq; decide +kernel
    exact this p (body_mem h)
  genesis_pos := by decide

theorem all_valid : ∀ p ∈ pts, W.body p.id = some p ∧ verify p W.peersFor W.conf = .ok ∧
    validate W.conf p (honestRun W p) = .valid := by decide +kernel

theorem pts_accepted (p : Info) (h : p ∈ pts) : Accepted W p :=
  ⟨(all_valid p h).1, (all_valid p h).2.1, honestRun W p, honestRun_faithful W_ok p, .inl (all_valid p h).2.2⟩

theorem pts_allAccepted (p : Info) (h : p ∈ pts) : AllAccepted W p := by
  intro q hq
  apply pts_accepted
  induction hq with
  | refl => exact h
  | tail _ hd _ => exact body_mem hd.1

/-- The hypotheses of the history theorems hold of the point `r7 2`, six rounds above genesis, whose history has a proof
and a trigger that are not genesis. -/
example : ∃ i t, LinksTo (r7 2) .proof i ∧ W.body i = some t ∧ t = proof4 ∧ IsStage .proof t := by
  have h := pts_allAccepted (r7 2) (by decide +kernel)
  have hl : LinksTo (r7 2) .proof proof4.id := LinksTo.proofIndirect ⟨proof4.id, .includes 2⟩ _ rfl
  obtain ⟨t, h1, h2, _, h4⟩ := (anchor_links_lead_to_anchors W_ok _ h .proof).2 _ hl
  refine ⟨_, t, hl, h1, ?_, h4⟩
  have : W.body proof4.id = some proof4 := by decide +kernel
  rw [this] at h1
  injection h1 with h1
  exact h1.symm

/-- The anchor time is the time of the candidate `r3 1`. -/
example : (r7 2).anchorTime = (r3 1).time := by
  have h := pts_allAccepted (r7 2) (by decide +kernel)
  obtain ⟨t, h1, h2, h3⟩ := anchor_time_is_candidate_time W_ok _ h proof4.id
    (LinksTo.proofIndirect ⟨proof4.id, .includes 2⟩ _ rfl)
  decide

/-- The trigger named by `r7 2` is the trigger of the proof it names. -/
example : ∃ tr, W.body trigger5.id = some tr ∧ LinksTo tr .proof proof4.id := by
  have h := pts_allAccepted (r7 2) (by decide +kernel)
  rcases trigger_matches_proof W_ok _ h _ _ rfl proof4.id trigger5.id
    (LinksTo.proofIndirect ⟨proof4.id, .includes 2⟩ _ rfl)
    (LinksTo.triggerIndirect ⟨trigger5.id, .includes 3⟩ _ (.inl ⟨_, rfl⟩) rfl) with h | h
  · exact absurd h (by decide)
  · exact h

/-- The chain of proofs goes from round 4 to genesis. -/
example : ∃ t, W.body proof4.id = some t ∧ ProofChain W t :=
  proof_chain_reaches_genesis W_ok _ (pts_allAccepted (r7 2) (by decide +kernel)) _
    (LinksTo.proofIndirect ⟨proof4.id, .includes 2⟩ _ rfl)

example : W.leader proof4.round = some proof4.author ∧ gid.round + 2 < proof4.round :=
  let h := proof_by_leader W_ok _ (pts_accepted proof4 (by decide +kernel)) _ _ rfl
  ⟨h.1, h.2.1⟩

/-- Quorums of `r7 2` with itself and of two points of round 6: all three peers. -/
example : 2 ≤ (peersOf (r6 1).includes ∩ peersOf (r6 2).includes).card :=
  includes_quorums_intersect (conf := W.conf) (peersFor := W.peersFor) (by decide) (r6 1) (r6 2) (by decide +kernel)
    (by decide +kernel) rfl (by decide) (by unfold PMap.Uniq; decide) (by unfold PMap.Uniq; decide)

/-- A leader that does not prove at round 4 is ill-formed. -/
example : validate W.conf { r4 2 with id := ⟨4, 41, 1⟩, evidence := ev 1 } (honestRun W { r4 2 with id := ⟨4, 41, 1⟩, evidence := ev 1 }) =
    .illFormed (.badProofLink true) := by decide +kernel

/-- A point that names an older proof than its dependencies is invalid. -/
example : (validate W.conf { r7 2 with role := .regular (.indirect ⟨gid, .includes 2⟩) (.indirect ⟨trigger5.id, .includes 3⟩) }
    (honestRun W { r7 2 with role := .regular (.indirect ⟨gid, .includes 2⟩) (.indirect ⟨trigger5.id, .includes 3⟩) })).kind =
      (1, none) := by decide +kernel

/-- One invalid dependency makes the point transitively invalid, in either order of arrival, with that root cause. -/
def badRun (flip : Bool) : Run :=
  let a := (honestRun W (r7 2)).order
  let bad : Option DagPoint := some (.invalid (r6 1) false (.notTrigger gid))
  { honestRun W (r7 2) with order := if flip then a.drop 1 ++ [bad] else bad :: a.drop 1 }

example : validate W.conf (r7 2) (badRun false) = .transInvalid ⟨⟨(r6 1).id, .includes 1⟩, .notTrigger gid⟩ ∧
    validate W.conf (r7 2) (badRun true) = .transInvalid ⟨⟨(r6 1).id, .includes 1⟩, .notTrigger gid⟩ := by
  decide +kernel

/-! ### anchor times may decrease

Verification does not make anchor times grow along the chain of proofs: below, with an allowed clock skew of 5, all points
are valid, the proof at round 4 has anchor time 150, and the proof at round 7 that chains to it has anchor time 145. The
candidate of the later proof does not know the earlier proof yet, so nothing bounds its time from below. -/

def inc4 (r : Nat) (l : List Nat) : PMap := l.map (fun a => (a, dg r a))
def ev4 (a : Nat) : PMap := [(1, 0), (2, 0), (3, 0), (4, 0)].filter (fun e => e.1 ≠ a)

def v2 (a : Nat) : Info := pt 2 a [(0, dg 1 0)] [] (.regular (.direct (.includes 0)) (.direct (.includes 0))) (110 + a) 100
def v3 (a : Nat) : Info :=
  pt 3 a (inc4 2 [1, 2, 3, 4]) (ev4 a) (.regular (viaInc 2) (viaInc 2)) (if a = 1 then 150 else 120) 100
def vProof4 : Info := pt 4 1 (inc4 3 [1, 2, 3]) (ev4 1) (.anchorProof ⟨gid, .includes 2⟩ (viaInc 2)) 151 150
def v4 (a : Nat) : Info := pt 4 a (inc4 3 [2, 3, 4]) (ev4 a) (.regular (viaInc 2) (viaInc 2)) 130 100
def vTrigger5 : Info := pt 5 1 (inc4 4 [1, 2, 3]) (ev4 1) .anchorTrigger 152 150
def v5 (a : Nat) : Info := pt 5 a (inc4 4 [2, 3, 4]) (ev4 a) (.regular (viaInc 2) (viaInc 2)) 140 100
def v6 (a : Nat) : Info := pt 6 a (inc4 5 [2, 3, 4]) (ev4 a) (.regular (viaInc 2) (viaInc 2)) 145 100
def v63 : Info := pt 6 3 (inc4 5 [1, 2, 3]) (ev4 3)
  (.regular (.indirect ⟨vProof4.id, .includes 1⟩) (.direct (.includes 1))) 151 150
def vProof7 : Info := pt 7 2 (inc4 6 [2, 3, 4]) (ev4 2)
  (.anchorProof ⟨vProof4.id, .includes 3⟩ (.indirect ⟨vTrigger5.id, .includes 3⟩)) 147 145

def vpts : List Info :=
  [genesisPt, v2 1, v2 2, v2 3, v2 4, v3 1, v3 2, v3 3, v3 4, vProof4, v4 2, v4 3, v4 4, vTrigger5, v5 2, v5 3, v5 4,
    v6 2, v63, v6 4, vProof7]

def V : World where
  conf := ⟨1, 5, 20, 0, 1000⟩
  peersFor r := if r = 1 then [0] else [1, 2, 3, 4]
  leader r := if r = 4 then some 1 else if r = 7 then some 2 else none
  body i := vpts.find? (fun p => p.id = i)

theorem v_body_mem {i p} (h : V.body i = some p) : p ∈ vpts := by
  have h : vpts.find? (fun p => p.id = i) = some p := h
  exact List.mem_of_find?_eq_some h

theorem V_ok : V.Ok where
  id_eq := by
    intro i p h
    have := List.find?_some h
    simpa using this
  includes_uniq := by
    intro i p h
    have : ∀ p ∈ vpts, p.includes.Uniq := by unfold PMap.Uniq; decide +kernel
    exact this p (v_body_mem h)
  witness_uniq := by
    intro i p h
    have : ∀ p ∈ vpts, p.witness.Uniq := by unfold PMap.Uniq; decide +kernel
    exact this p (v_body_mem h)
  evidence_uniq := by
    intro i p h
    have : ∀ p ∈ vpts, p.evidence.Uniq := by unfold PMap.Uniq; decide +kernel
    exact this p (v_body_mem h)
  genesis_pos := by decide

theorem v_all_valid : ∀ p ∈ vpts, V.body p.id = some p ∧ verify p V.peersFor V.conf = .ok ∧
    validate V.conf p (honestRun V p) = .valid := by decide +kernel

/-- A proof with its whole history valid whose anchor time is below that of the proof it chains to. -/
theorem anchor_time_may_decrease : AllAccepted V vProof7 ∧ ChainsTo vProof7 vProof4.id ∧
    V.body vProof4.id = some vProof4 ∧ vProof7.anchorTime < vProof4.anchorTime := by
  refine ⟨?_, ChainsTo.proof ⟨vProof4.id, .includes 3⟩ _ rfl, by decide +kernel, by decide⟩
  intro q hq
  have hmem : q ∈ vpts := by
    induction hq with
    | refl => decide +kernel
    | tail _ hd _ => exact v_body_mem hd.1
  exact ⟨(v_all_valid q hmem).1, (v_all_valid q hmem).2.1, honestRun V q, honestRun_faithful V_ok q,
    .inl (v_all_valid q hmem).2.2⟩

/-! ### a run of sticky points -/

def s4 (a : Nat) : Info := pt 4 a (inc 3) (ev a) (.regular (viaInc 1) (viaInc 1)) (130 + a) 100
def sProof5 : Info := pt 5 1 (inc 4) (ev 1) (.anchorProof ⟨gid, .includes 2⟩ (viaInc 3)) 141 131
def s5 (a : Nat) : Info := pt 5 a (inc 4) (ev a) (.regular (viaInc 1) (viaInc 1)) (140 + a) 100
def sSticky6 : Info := pt 6 1 (inc 5) (ev 1) (.sticky 0) 151 141
def s6 (a : Nat) : Info :=
  pt 6 a (inc 5) (ev a) (.regular (.direct (.includes 1)) (.indirect ⟨gid, .includes 3⟩)) (150 + a) 131
def sSticky7 : Info := pt 7 1 (inc 6) (ev 1) (.sticky 1) 161 151

def spts : List Info := [genesisPt, r2 1, r2 2, r2 3, r3 1, r3 2, r3 3, s4 1, s4 2, s4 3, sProof5, s5 2, s5 3, sSticky6, s6 2,
  s6 3, sSticky7]

def S : World where
  conf := ⟨1, 5, 20, 3, 1000⟩
  peersFor r := if r = 1 then [0] else [1, 2, 3]
  leader r := if r = 5 then some 1 else none
  body i := spts.find? (fun p => p.id = i)

theorem s_body_mem {i p} (h : S.body i = some p) : p ∈ spts := by
  have h : spts.find? (fun p => p.id = i) = some p := h
  exact List.mem_of_find?_eq_some h

theorem S_ok : S.Ok where
  id_eq := by
    intro i p h
    have := List.find?_some h
    simpa using this
  includes_uniq := by
    intro i p h
    have : ∀ p ∈ spts, p.includes.Uniq := by unfold PMap.Uniq; decide +kernel
    exact this p (s_body_mem h)
  witness_uniq := by
    intro i p h
    have : ∀ p ∈ spts, p.witness.Uniq := by unfold PMap.Uniq; decide +kernel
    exact this p (s_body_mem h)
  evidence_uniq := by
    intro i p h
    have : ∀ p ∈ spts, p.evidence.Uniq := by unfold PMap.Uniq; decide +kernel
    exact this p (s_body_mem h)
  genesis_pos := by decide

theorem s_all_valid : ∀ p ∈ spts, S.body p.id = some p ∧ verify p S.peersFor S.conf = .ok ∧
    validate S.conf p (honestRun S p) = .valid := by decide +kernel

example : StickyRun S sSticky7 1 ∧ 1 < S.conf.stickyAnchors := by
  refine sticky_runs S_ok sSticky7 ?_ 1 rfl
  intro q hq
  have hmem : q ∈ spts := by
    induction hq with
    | refl => decide +kernel
    | tail _ hd _ => exact s_body_mem hd.1
  exact ⟨(s_all_valid q hmem).1, (s_all_valid q hmem).2.1, honestRun S q, honestRun_faithful S_ok q,
    .inl (s_all_valid q hmem).2.2⟩

/-! ### other versions of the previous point -/

/-- The honest run, in which one more version of the author's previous point is known. -/
def forkRun (o : DagPoint) : Run :=
  { honestRun W (r7 2) with others := [some o], order := some o :: (honestRun W (r7 2)).order }

def fork6 : Info := { r6 2 with id := ⟨6, 99, 2⟩ }

example : validate W.conf (r7 2) (forkRun (.valid fork6 true)) = .valid ∧
    validate W.conf (r7 2) (forkRun (.notFound fork6.id false)) = .valid ∧
    validate W.conf (r7 2) (forkRun (.notFound fork6.id true)) = .invalid (.mustHaveReferencedPrevPoint fork6.id) ∧
    validate W.conf (r7 2) (forkRun (.invalid fork6 false (.notTrigger gid))) =
      .invalid (.mustHaveSkippedRound fork6.id) := by decide +kernel

example : MayBeSkipped true (.notFound fork6.id false) := by
  have hf := honestRun_faithful W_ok (r7 2)
  refine skipped_previous_point (W := W) (p := r7 2) (run := forkRun (.notFound fork6.id false)) ?_ (by decide)
    (.inl (by decide +kernel)) _ (by simp [forkRun])
  exact {
    leader := hf.leader
    resolves := hf.resolves
    bodies := by
      intro dp hdp q hq
      rcases List.mem_cons.mp hdp with h | h
      · injection h with h; subst h; simp [DagPoint.info?] at hq
      · exact hf.bodies dp h q hq
    order := (List.perm_append_comm (l₁ := [_])).trans (List.Perm.append_right _ (by simp [honestRun, forkRun]))
    others := by
      intro dp hdp
      simp only [forkRun, List.mem_singleton, Option.some.injEq] at hdp
      subst hdp
      decide
    resolvesI := hf.resolvesI
    bodiesI := hf.bodiesI
    orderI := hf.orderI }

end Tycho.Verifier.Examples
