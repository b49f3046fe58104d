/-! Model of `consensus/src/models/peer_count.rs`. `usize` is modelled by `Nat`. -/
namespace Tycho.PeerCount

/-- consensus/src/models/peer_count.rs:1-2 `struct PeerCount(u8)`: holds F. -/
structure PeerCount where
  oneF : Nat
deriving DecidableEq, Repr

/-- Outcome of `try_from`: value, error value, or the `assert!` panic. -/
inductive Outcome where
  | ok (p : PeerCount)
  | tooFew
  | panicOverflow
deriving DecidableEq, Repr

/-- consensus/src/models/peer_count.rs:16-34 `TryFrom<usize>`. -/
def tryFrom (totalPeers : Nat) : Outcome :=
  if totalPeers < 3 then .tooFew
  else
    let oneF := (totalPeers + 1) / 3
    let full := oneF * 3 + 1
    if full ≤ 255 then .ok ⟨oneF % 256⟩ else .panicOverflow

/-- consensus/src/models/peer_count.rs:37 `GENESIS`. -/
def genesis : PeerCount := ⟨0⟩

/-- consensus/src/models/peer_count.rs:38 `MAX`. -/
def maxCount : PeerCount := ⟨(255 - 1) / 3⟩

/-- consensus/src/models/peer_count.rs:40-42 `full`. -/
def PeerCount.full (p : PeerCount) : Nat := p.oneF * 3 + 1

/-- consensus/src/models/peer_count.rs:44-46 `majority`. -/
def PeerCount.majority (p : PeerCount) : Nat := p.oneF * 2 + 1

/-- consensus/src/models/peer_count.rs:49-53 `majority_of_others`. -/
def PeerCount.majorityOfOthers (p : PeerCount) : Nat := p.oneF * 2

/-- consensus/src/models/peer_count.rs:56-58 `reliable_minority`. -/
def PeerCount.reliableMinority (p : PeerCount) : Nat := p.oneF + 1

end Tycho.PeerCount
