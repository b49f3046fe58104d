/-!
Model of `consensus/src/dag/proof_leader.rs`. Rounds are `u32`; the arithmetic that can overflow is
modelled with an explicit `none`. The generator `Pcg32::seed_from_u64(c).random_range(0..n)` is a
parameter `coin c n`.
-/
namespace Tycho.ProofLeader

/-- consensus/src/dag/proof_leader.rs:12 -/
def waveRounds : Nat := 3

/-- consensus/src/models/point (AnchorStageRole). -/
inductive Role where
  | trigger
  | proof
deriving DecidableEq, Repr

/-- consensus/src/dag/proof_leader.rs:57-65 `role`. -/
def role (round : Nat) : Option Role :=
  match round % waveRounds with
  | 0 => none
  | 1 => some .proof
  | _ => some .trigger

/-- consensus/src/dag/proof_leader.rs:67-73 `align_genesis`; `none` is arithmetic overflow of u32. -/
def alignGenesis (startRound : Nat) : Option Nat :=
  if startRound + 1 < 2 ^ 32 then
    let quotient := (startRound + 1) / waveRounds
    let quotient := if quotient = 0 then 1 else quotient
    let r := quotient * waveRounds + 1
    if r < 2 ^ 32 then some r else none
  else none

/-- consensus/src/dag/proof_leader.rs:26-27 `anchor_candidate` in `new`. -/
def anchorCandidate (round genesis : Nat) : Nat := max (round / waveRounds * waveRounds) genesis

/-- consensus/src/dag/proof_leader.rs:36-55 `new` + `finish`: `ordered` gives the ordered peers for a
round, `current` the peer set for a round, `none` as outer result is the `assert!` panic. -/
def leader {Peer : Type} [DecidableEq Peer] (coin : Nat → Nat → Nat)
    (ordered current : Nat → List Peer) (round genesis : Nat) : Option (Option Peer) :=
  let candidate := anchorCandidate round genesis
  let peers := ordered candidate
  match peers[coin candidate peers.length]? with
  | none => none
  | some leader =>
    if leader ∉ current round then some none
    else match role round with
      | some .proof => some (some leader)
      | _ => some none

end Tycho.ProofLeader
