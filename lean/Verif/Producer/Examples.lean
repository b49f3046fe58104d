import Verif.Producer.Props
import Verif.Verifier.Examples

/-! Concrete, non-trivial instances of the hypotheses of the producer theorems, and the finding. -/
namespace Tycho.Producer.Examples

open Tycho.Verifier Tycho.Verifier.Examples Tycho.PeerCount

/-- Signers among three peers. -/
def sig3 : PeerCount := ⟨1⟩

theorem W_schedule : Schedule W where
  genesis := by decide
  later := by
    intro r h
    have h : 1 < r := h
    have : W.peersFor r = [1, 2, 3] := if_neg (by omega)
    rw [this]; decide

/-- Everything that `Ready` says of lists of points is computed; what it says of histories comes from `pts_allAccepted`. -/
theorem ready_of {last : Option LastOwn} {localId r : Nat} {includes witness : List Info} {now : Nat}
    (h0 : W.conf.genesisRound < r) (h1 : localId ∈ W.peersFor r)
    (h2 : ∀ q ∈ includes, q.round = r - 1 ∧ q ∈ pts) (h3 : (includes.map (·.author)).Nodup)
    (h4 : quorum W (r - 1) ≤ includes.length)
    (h5 : ∀ q ∈ witness, q.round = r - 1 - 1 ∧ q.author ≠ localId ∧ q ∈ pts) (h6 : (witness.map (·.author)).Nodup)
    (h7 : ∀ l, last = some l → l.round = r - 1 → tryFrom (W.peersFor r).length = .ok l.signers ∧
      ∀ e ∈ l.evidence, e.1 ∈ W.peersFor r ∧ e.1 ≠ localId)
    (h8 : ∀ l, last = some l → l.round = r - 1 → ∀ q ∈ includes, q.author = localId → l.sticky = q.stickyAnchors)
    (h9 : ∀ q ∈ includes ++ witness, q.time ≤ now + W.conf.clockSkew ∧
      ∀ s ∈ [Stage.proof, Stage.trigger], ∀ t ∈ pts, q.anchorId s = some t.id → t.time ≤ now + W.conf.clockSkew) :
    Ready W last localId r includes witness now where
  above := h0
  author := h1
  inc := fun q hq => ⟨(h2 q hq).1, pts_allAccepted q (h2 q hq).2⟩
  incOnce := h3
  incQuorum := h4
  wit := fun q hq => ⟨(h5 q hq).1, (h5 q hq).2.1, pts_allAccepted q (h5 q hq).2.2⟩
  witOnce := h6
  evidence := h7
  sticky := h8
  clock := fun q hq => (h9 q (List.mem_append.mpr hq)).1
  anchorsClock := by
    intro q hq s i t hl hb
    have hmem : q ∈ pts := by
      rcases hq with h | h
      · exact (h2 q h).2
      · exact (h5 q h).2.2
    have hbq : W.body q.id = some q := (all_valid q hmem).1
    have hi := linksTo_anchorId (W_ok.includes_uniq _ _ hbq) (W_ok.witness_uniq _ _ hbq) hl
    have hid := W_ok.id_eq _ _ hb
    refine (h9 q (List.mem_append.mpr hq)).2 s (by cases s <;> simp) t (body_mem hb) ?_
    rw [hid]; exact hi
  soleProof := by intro h; exact absurd rfl h

/-! ### a regular point of round 6 -/

def last2 : LastOwn := ⟨dg 5 2, ev 2, inc 4, none, 5, sig3⟩

theorem ready6 : Ready W (some last2) 2 6 [r5 2, r5 3, trigger5] [] 152 := by
  apply ready_of
  · decide
  · decide
  · decide +kernel
  · decide
  · decide
  · simp
  · simp
  · rintro l hl -; injection hl with hl; subst hl; decide
  · rintro l hl -; injection hl with hl; subst hl; decide
  · decide +kernel

theorem create6 : create (some last2) 2 6 (W.leader 6) [r5 2, r5 3, trigger5] [] 152 (dg 6 2) 0 0 W.conf =
    .ok { r6 2 with includes := [(2, dg 5 2), (3, dg 5 3), (1, dg 5 1)] } := by decide +kernel

example : verify { r6 2 with includes := [(2, dg 5 2), (3, dg 5 3), (1, dg 5 1)] } W.peersFor W.conf = .ok :=
  produced_point_verified W_ok W_schedule (by decide) ready6 (by decide) create6

example (run : Run) (hf : Faithful W { r6 2 with includes := [(2, dg 5 2), (3, dg 5 3), (1, dg 5 1)] } run)
    (hv : AllValid { r6 2 with includes := [(2, dg 5 2), (3, dg 5 3), (1, dg 5 1)] } run) :
    validate W.conf { r6 2 with includes := [(2, dg 5 2), (3, dg 5 3), (1, dg 5 1)] } run = .valid :=
  produced_point_valid W_ok W_schedule (by decide) ready6 create6 run hf hv

/-! ### a trigger by its author: the point of round 5 in the world -/

def last1 : LastOwn := ⟨dg 4 1, ev 1, inc 3, none, 4, sig3⟩

theorem ready5 : Ready W (some last1) 1 5 [proof4, r4 2, r4 3] [] 141 := by
  apply ready_of
  · decide
  · decide
  · decide +kernel
  · decide
  · decide
  · simp
  · simp
  · rintro l hl -; injection hl with hl; subst hl; decide
  · rintro l hl -; injection hl with hl; subst hl; decide
  · decide +kernel

theorem create5 : create (some last1) 1 5 (W.leader 5) [proof4, r4 2, r4 3] [] 141 (dg 5 1) 0 0 W.conf = .ok trigger5 := by
  decide +kernel

example : AllAccepted W trigger5 :=
  produced_point_accepted W_ok W_schedule (by decide) ready5 (by decide) create5 (by decide +kernel)

/-! ### a proof by the leader of round 4, with a witness -/

def last1' : LastOwn := ⟨dg 3 1, ev 1, inc 2, none, 3, sig3⟩

theorem ready4 : Ready W (some last1') 1 4 [r3 1, r3 2, r3 3] [r2 2] 131 := by
  apply ready_of
  · decide
  · decide
  · decide +kernel
  · decide
  · decide
  · decide +kernel
  · decide
  · rintro l hl -; injection hl with hl; subst hl; decide
  · rintro l hl -; injection hl with hl; subst hl; decide
  · decide +kernel

def made4 : Info := { proof4 with witness := [(2, dg 2 2)], role := .anchorProof ⟨gid, .includes 3⟩ (viaInc 3) }

theorem create4 : create (some last1') 1 4 (W.leader 4) [r3 1, r3 2, r3 3] [r2 2] 131 (dg 4 1) 0 0 W.conf = .ok made4 := by
  decide +kernel

example : verify made4 W.peersFor W.conf = .ok :=
  produced_point_verified W_ok W_schedule (by decide) ready4 (by decide) create4

/-! ### errors -/

/-- Too few signatures: an error, not a panic. -/
example : create (some { last2 with evidence := [(1, 0)] }) 2 6 (W.leader 6) [r5 2, r5 3, trigger5] [] 152
    (dg 6 2) 0 0 W.conf = .err .notEnoughEvidence := by decide +kernel

example : create (some last2) 2 6 (W.leader 6) [r5 2, r5 3, trigger5] [] 152 0 0 0 W.conf ≠ .panic :=
  create_no_panic W_ok ready6 (by intro l _ _; exact ⟨r5 2, by decide +kernel, by decide⟩) 0 0 0

/-- The hypothesis of `create_no_panic` is needed: with the own previous point proven but not included there is a panic. -/
example : create (some last2) 2 6 (W.leader 6) [r5 1, r5 3, r5 4] [] 152 0 0 0 W.conf = .panic := by decide +kernel

/-! ### finding: an honest node may make an invalid point

The clocks of authors 1, 3 and 2 are 10 apart at most (twice the allowed skew of 5): 1 is ahead of 3 by 5, 3 is ahead of 2
by 5. The trigger of 1 has time 153; the point of 3 at round 6 (time 148) names it and is valid. Node 2 includes that point
at 143 (148 ≤ 143 + 5: `Threshold` lets it through), its new point names the trigger too, and verifiers find that the
trigger is too far in the future (153 > 143 + 5). So `Ready.anchorsClock` cannot be dropped. -/

def w3 (a : Nat) : Info := pt 3 a (inc4 2 [1, 2, 3, 4]) (ev4 a) (.regular (viaInc 2) (viaInc 2)) 120 100
def wProof4 : Info := pt 4 1 (inc4 3 [1, 2, 3]) (ev4 1) (.anchorProof ⟨gid, .includes 2⟩ (viaInc 2)) 152 120
def w4 (a : Nat) : Info := pt 4 a (inc4 3 [2, 3, 4]) (ev4 a) (.regular (viaInc 2) (viaInc 2)) 147 100
def wTrigger5 : Info := pt 5 1 (inc4 4 [1, 2, 3]) (ev4 1) .anchorTrigger 153 120
def w42 (a : Nat) : Info := pt 4 a (inc4 3 [2, 3, 4]) (ev4 a) (.regular (viaInc 2) (viaInc 2)) 130 100
def w5 (a : Nat) : Info := pt 5 a (inc4 4 [2, 3, 4]) (ev4 a) (.regular (viaInc 2) (viaInc 2)) 140 100
def w6 (a : Nat) : Info := pt 6 a (inc4 5 [2, 3, 4]) (ev4 a) (.regular (viaInc 2) (viaInc 2)) 142 100
def w63 : Info := pt 6 3 (inc4 5 [1, 2, 3]) (ev4 3)
  (.regular (.indirect ⟨wProof4.id, .includes 1⟩) (.direct (.includes 1))) 148 120

def wpts : List Info :=
  [genesisPt, v2 1, v2 2, v2 3, v2 4, w3 1, w3 2, w3 3, w3 4, wProof4, w42 2, w42 3, w42 4, wTrigger5, w5 2, w5 3, w5 4,
    w6 2, w63, w6 4]

def U : World where
  conf := ⟨1, 5, 20, 0, 1000⟩
  peersFor r := if r = 1 then [0] else [1, 2, 3, 4]
  leader r := if r = 4 then some 1 else none
  body i := wpts.find? (fun p => p.id = i)

/-- All points are valid. -/
theorem u_all_valid : ∀ p ∈ wpts, U.body p.id = some p ∧ verify p U.peersFor U.conf = .ok ∧
    validate U.conf p (Tycho.Verifier.Examples.honestRun U p) = .valid := by decide +kernel

def lastU : LastOwn := ⟨dg 6 2, ev4 2, inc4 5 [2, 3, 4], none, 6, ⟨1⟩⟩

/-- What node 2 makes at 143 from dependencies not later than 143 + 5. -/
def bad : Info := pt 7 2 (inc4 6 [2, 3, 4]) (ev4 2)
  (.regular (.indirect ⟨wProof4.id, .includes 3⟩) (.indirect ⟨wTrigger5.id, .includes 3⟩)) 143 120

example : (∀ q ∈ [w6 2, w63, w6 4], q.time ≤ 143 + U.conf.clockSkew) ∧
    create (some lastU) 2 7 (U.leader 7) [w6 2, w63, w6 4] [] 143 (dg 7 2) 0 0 U.conf = .ok bad ∧
    verify bad U.peersFor U.conf = .ok ∧
    validate U.conf bad (Tycho.Verifier.Examples.honestRun U bad) =
      .invalid (.dependencyTimeTooFarInFuture wProof4.id) := by decide +kernel

/-! ### finding: two proofs in one round when anchors are sticky

The leader 1 proves at round 5 and goes on with a sticky anchor at round 6, while the leader 2 of round 6, which has not
seen the proof of round 5, proves at round 6. Node 2 then includes both. `max_by_key` takes the last of equal rounds in
the order of a hash map, so the choice is arbitrary: with its own proof last node 2 continues it and the point is valid;
with its own proof first it makes a regular point, which verifiers reject. So `Ready.soleProof` cannot be dropped. -/

def s3 (a : Nat) : Info := pt 3 a (inc4 2 [1, 2, 3, 4]) (ev4 a) (.regular (viaInc 2) (viaInc 2)) 120 100
def s4 (a : Nat) : Info := pt 4 a (inc4 3 [2, 3, 4]) (ev4 a) (.regular (viaInc 2) (viaInc 2)) 130 100
def s41 : Info := pt 4 1 (inc4 3 [1, 2, 3]) (ev4 1) (.regular (viaInc 2) (viaInc 2)) 130 100
def sProof5 : Info := pt 5 1 (inc4 4 [1, 2, 3]) (ev4 1) (.anchorProof ⟨gid, .includes 2⟩ (viaInc 2)) 140 130
def s5 (a : Nat) : Info := pt 5 a (inc4 4 [2, 3, 4]) (ev4 a) (.regular (viaInc 2) (viaInc 2)) 140 100
def sSticky6 : Info := pt 6 1 (inc4 5 [1, 2, 3]) (ev4 1) (.sticky 0) 150 140
def sProof6 : Info := pt 6 2 (inc4 5 [2, 3, 4]) (ev4 2) (.anchorProof ⟨gid, .includes 3⟩ (viaInc 3)) 150 140
def s6 (a : Nat) : Info := pt 6 a (inc4 5 [2, 3, 4]) (ev4 a) (.regular (viaInc 2) (viaInc 2)) 150 100

def spts : List Info :=
  [genesisPt, v2 1, v2 2, v2 3, v2 4, s3 1, s3 2, s3 3, s3 4, s41, s4 2, s4 3, s4 4, sProof5, s5 2, s5 3, s5 4,
    sSticky6, sProof6, s6 3, s6 4]

def S : World where
  conf := ⟨1, 5, 20, 2, 1000⟩
  peersFor r := if r = 1 then [0] else [1, 2, 3, 4]
  leader r := if r = 5 then some 1 else if r = 6 then some 2 else none
  body i := spts.find? (fun p => p.id = i)

theorem s_all_valid : ∀ p ∈ spts, S.body p.id = some p ∧ verify p S.peersFor S.conf = .ok ∧
    validate S.conf p (Tycho.Verifier.Examples.honestRun S p) = .valid := by decide +kernel

def lastS : LastOwn := ⟨dg 6 2, ev4 2, inc4 5 [2, 3, 4], none, 6, ⟨1⟩⟩

def goodS : Info := pt 7 2 (inc4 6 [1, 3, 2]) (ev4 2) (.sticky 0) 160 150
def badS : Info := pt 7 2 (inc4 6 [2, 3, 1]) (ev4 2) (.regular (.direct (.includes 1)) (.direct (.includes 1))) 160 140

example : create (some lastS) 2 7 (S.leader 7) [sSticky6, s6 3, sProof6] [] 160 (dg 7 2) 0 0 S.conf = .ok goodS ∧
    create (some lastS) 2 7 (S.leader 7) [sProof6, s6 3, sSticky6] [] 160 (dg 7 2) 0 0 S.conf = .ok badS ∧
    verify goodS S.peersFor S.conf = .ok ∧
    validate S.conf goodS (Tycho.Verifier.Examples.honestRun S goodS) = .valid ∧ verify badS S.peersFor S.conf = .ok ∧
    validate S.conf badS (Tycho.Verifier.Examples.honestRun S badS) = .invalid (.notTrigger sProof6.id) := by decide +kernel

end Tycho.Producer.Examples
