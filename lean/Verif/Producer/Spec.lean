import Verif.Producer.Model
import Verif.Verifier.Spec

/-! What an honest node may assume when it makes a point, stated with the specification of the verifier. -/
namespace Tycho.Producer

open Tycho.PeerCount Tycho.Verifier

/-- Number of includes that a point one round above `r` needs: one at genesis, else a majority of `3F + 1`. -/
def quorum (W : World) (r : Nat) : Nat :=
  if r = W.conf.genesisRound then 1 else 2 * (((W.peersFor r).length + 1) / 3) + 1

/-- The peer schedule: one author of genesis, and then at least three peers and at most as many as fit into `u8`. -/
structure Schedule (W : World) : Prop where
  genesis : (W.peersFor W.conf.genesisRound).length = 1
  later : ∀ r, W.conf.genesisRound < r → 3 ≤ (W.peersFor r).length ∧ ((W.peersFor r).length + 1) / 3 * 3 + 1 ≤ 255

/-- The situation of an honest node that makes a point at round `r`. -/
structure Ready (W : World) (last : Option LastOwn) (localId r : Nat) (includes witness : List Info) (now : Nat) :
    Prop where
  above : W.conf.genesisRound < r
  /-- the node is scheduled -/
  author : localId ∈ W.peersFor r
  /-- includes are accepted points of the previous round, one for an author, and there are enough of them -/
  inc : ∀ q ∈ includes, q.round = r - 1 ∧ AllAccepted W q
  incOnce : (includes.map (·.author)).Nodup
  incQuorum : quorum W (r - 1) ≤ includes.length
  /-- witnesses are accepted points of the round before, one for an author, none of its own -/
  wit : ∀ q ∈ witness, q.round = r - 1 - 1 ∧ q.author ≠ localId ∧ AllAccepted W q
  witOnce : (witness.map (·.author)).Nodup
  /-- signatures for the previous own point are from other peers of this round, counted against their number -/
  evidence : ∀ l, last = some l → l.round = r - 1 → tryFrom (W.peersFor r).length = .ok l.signers ∧
    ∀ e ∈ l.evidence, e.1 ∈ W.peersFor r ∧ e.1 ≠ localId
  /-- the remembered number of sticky anchors is the one of the previous own point -/
  sticky : ∀ l, last = some l → l.round = r - 1 → ∀ q ∈ includes, q.author = localId → l.sticky = q.stickyAnchors
  /-- dependencies are not later than the clock plus the allowed skew -/
  clock : ∀ q, q ∈ includes ∨ q ∈ witness → q.time ≤ now + W.conf.clockSkew
  /-- the same of the proofs and triggers that the dependencies name -/
  anchorsClock : ∀ q, q ∈ includes ∨ q ∈ witness → ∀ s i t, LinksTo q s i → W.body i = some t →
    t.time ≤ now + W.conf.clockSkew
  /-- with sticky anchors: if the previous own point is a proof, it is the only one among includes -/
  soleProof : W.conf.stickyAnchors ≠ 0 → ∀ q ∈ includes, q.author = localId → IsStage .proof q →
    ∀ q' ∈ includes, IsStage .proof q' → q'.author = localId

/-- An execution of `validate` for `p` in which every dependency is found to be valid, no other version of the previous
own point is known, and the rounds of dependencies are in the DAG. -/
structure AllValid (p : Info) (run : Run) : Prop where
  rounds : run.r0 = true ∧ run.r1 = true ∧ run.r2 = true
  others : run.others = []
  deps : ∀ o ∈ run.order, ∃ q first, o = some (.valid q first)
  targets : ∀ o ∈ run.orderI, o = none ∨ ∃ q first th, o = some (.valid q first, th)

end Tycho.Producer
