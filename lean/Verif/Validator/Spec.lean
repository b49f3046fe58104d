import Verif.Validator.Model

/-! ## What validation has to guarantee -/
namespace Tycho.Validator

open Tycho.Table

/-- Weight of a validator, the node itself included. -/
def weightOf (c : Cfg) (p : Peer) : Nat := if p = c.own then c.ownWeight else c.weight p

/-- Total weight of the validator set. -/
def totalWeight (c : Cfg) : Nat := ((c.own :: c.peers).map (weightOf c)).sum

/-- A signature of `p` for the block `b`: the own one, or one that passes the check under the key of a validator. -/
def SigOk (c : Cfg) (b : BlockId) (p : Peer) (s : Sig) : Prop := (p = c.own ∧ s = c.sign b) ∨ (p ∈ c.peers ∧ c.verify p b s = true)

/-- Signatures that make a block final: valid, of different validators, and with more than two thirds of the weight. -/
structure Final (c : Cfg) (b : BlockId) (sigs : List (Peer × Sig)) (w : Nat) : Prop where
  valid : ∀ e ∈ sigs, SigOk c b e.1 e.2
  distinct : (sigs.map (·.1)).Nodup
  weight : w = ((sigs.map (·.1)).map (weightOf c)).sum
  twoThirds : 2 * totalWeight c < 3 * w

/-- A session as it is created: different validators, and a positive total weight below half of the range of `u64`. -/
structure CfgOk (c : Cfg) : Prop where
  nodup : (c.own :: c.peers).Nodup
  threshold : c.threshold = thresholdOf (totalWeight c)
  pos : 0 < totalWeight c
  small : totalWeight c * 2 ≤ u64Max
  seqno : ∀ b, c.seqno b ≤ c.maxSeqno

/-- Two nodes with the same validator set. -/
structure SameSet (c1 c2 : Cfg) : Prop where
  members : (c1.own :: c1.peers).Perm (c2.own :: c2.peers)
  weights : ∀ p, weightOf c1 p = weightOf c2 p

/-- Weight of validators, in a list. -/
def weightSum (c : Cfg) (l : List Peer) : Nat := (l.map (weightOf c)).sum

/-- The own signature for `b` has left the validator: sent to a peer or part of a result. -/
def GivesOut (st : St) (b : BlockId) : Prop := b ∈ st.exposed ∨ ∃ t sigs w, st.tasks t = some (.vDone (.complete b sigs w))

/-- States reachable by any schedule. -/
def Reach (c : Cfg) (start : Nat) (st : St) : Prop := ∃ acts, steps c (init c start) acts = some st

end Tycho.Validator
