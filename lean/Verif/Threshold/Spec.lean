import Verif.Threshold.Model

/-! How a round's threshold is used, and executions. -/
namespace Tycho.Threshold

open Tycho.PeerCount

/-- What callers keep to: `add` is called at most once for an author (the first valid point of a location, C20), only for
scheduled peers and points of this round, and `get_reached` only after `reached` has ended and while no call is running. -/
def Legal (peers : List Nat) (s : St) : Act → Prop
  | .addCount p => p.round = s.round ∧ p.author ∈ peers ∧ ∀ q ∈ s.added, q.author ≠ p.author
  | .getStart _ => s.worker = .free ∧ s.isReached = true
  | _ => True

/-- Timers start at most `δ` after the clock reading they rely on. -/
def Prompt (δ : Nat) (s : St) : Act → Prop
  | .reachedRecv lag | .getStart lag => lag ≤ δ
  | .getRecv lag => match s.worker with
    | .draining maxTime _ => s.clock + lag + s.skew ≤ maxTime + δ
    | _ => True
  | _ => True

/-- The actions lead from one state to the other, and all are legal and satisfy `A`. -/
inductive Run (peers : List Nat) (A : St → Act → Prop) : St → List Act → St → Prop
  | nil (s) : Run peers A s [] s
  | cons {s a s' as s''} : A s a → Legal peers s a → step s a = some s' → Run peers A s' as s'' → Run peers A s (a :: as) s''

/-- States of a threshold for the round's peers, with the clock at `c0` when it was made. -/
def Reachable (peers : List Nat) (round skew c0 : Nat) (A : St → Act → Prop) (s : St) : Prop :=
  ∃ pc acts, (tryFrom peers.length = .ok pc ∨ (peers.length = 1 ∧ pc = genesis)) ∧
    Run peers A (init round pc skew c0) acts s

/-- The quorum for a number of peers, as a number. -/
def majorityOf (n : Nat) : Nat := if n = 1 then 1 else 2 * ((n + 1) / 3) + 1

end Tycho.Threshold
