import Verif.Validator.Props

/-! ## Concrete sessions -/
namespace Tycho.Validator

/-- Four validators of weight 1; the node is validator 0. Block `10 * n + k` has seqno `n`. -/
def exCfg : Option Cfg := newCfg [(0, 1), (1, 1), (2, 1), (3, 1)] 0 (fun p b s => decide (s = 100 * b + p)) (fun b => 100 * b) (fun b => if b < 1000 then b / 10 else 0) 0 2 1000

def ex : Cfg := ⟨[3, 2, 1], fun p => if p = 0 ∨ p = 1 ∨ p = 2 ∨ p = 3 then 1 else 0, 0, 1, 3, fun p b s => decide (s = 100 * b + p), fun b => 100 * b, fun b => if b < 1000 then b / 10 else 0, 0, 2, 1000⟩

theorem ex_ok : CfgOk ex := by
  refine ⟨by decide, by decide +kernel, by decide +kernel, by decide +kernel, ?_⟩
  intro b
  show (if b < 1000 then b / 10 else 0) ≤ 1000
  by_cases h : b < 1000
  · rw [if_pos h]; exact Nat.le_trans (Nat.div_le_self b 10) (Nat.le_of_lt h)
  · rw [if_neg h]; exact Nat.zero_le _

example : exCfg.map (fun c => (c.own, c.peers, c.ownWeight, c.threshold, c.peers.map c.weight)) = some (0, [3, 2, 1], 1, 3, [1, 1, 1]) := by decide +kernel
/-- The node has to be a validator. -/
example : (newCfg [(1, 1), (2, 1)] 0 ex.verify ex.sign ex.seqno 0 2 1000).isNone := by decide +kernel

def outcome (st : St) (t : Nat) : Option Outcome := match st.tasks t with
  | some (.vDone o) => some o
  | _ => none

def runs (t n : Nat) : List Act := List.replicate n (.run t)

/-- Validator 1 sends a signature for block 10 before the node knows the block; it is cached. Then the node validates block 10, validator 2 sends
its signature, validator 3 sends a wrong one. -/
def exRun : List Act :=
  [.exchange 1 1 1 1001] ++ runs 1 4 ++ [.validate 0 10] ++ runs 0 10 ++ [.spawn 0 3, .spawn 0 4] ++ runs 0 2 ++ [.exchange 5 3 1 999] ++ runs 5 5 ++ [.exchange 2 2 1 1002] ++
  runs 2 9 ++ runs 3 1 ++ runs 4 1 ++ [.query 3, .found 4] ++ runs 4 1 ++ [.take 0 4] ++ runs 0 1

example : (steps ex (init ex 1) exRun).map (fun st => (outcome st 0, st.exposed)) =
    some (some (.complete 10 [(0, 1000), (1, 1001), (2, 1002)] 3), [10, 10, 10]) := by decide +kernel

/-- The hypotheses of `complete_final` are met. -/
example : ∃ st, Reach ex 1 st ∧ ∃ sigs w, st.tasks 0 = some (.vDone (.complete 10 sigs w)) := by
  have h : (steps ex (init ex 1) exRun).isSome := by decide +kernel
  obtain ⟨st, hs⟩ := Option.isSome_iff_exists.1 h
  have ho : ((steps ex (init ex 1) exRun).bind (fun st => outcome st 0)) = some (.complete 10 [(0, 1000), (1, 1001), (2, 1002)] 3) := by decide +kernel
  rw [hs] at ho
  refine ⟨st, ⟨_, hs⟩, [(0, 1000), (1, 1001), (2, 1002)], 3, ?_⟩
  simp only [Option.bind_some, outcome] at ho
  split at ho
  · next h1 => rw [h1]; cases ho; rfl
  · cases ho

/-- A cancelled validation stops. -/
example : (steps ex (init ex 1) ([.validate 0 10] ++ runs 0 10 ++ [.spawn 0 3, .spawn 0 4, .spawn 0 5] ++ runs 0 1 ++ [.cancelUntil 1 1] ++ runs 1 3 ++ [.token 1 1] ++ runs 1 1 ++ [.remove 1 1] ++ runs 1 1 ++ [.stop 0])).map
    (fun st => outcome st 0) = some (some .skipped) := by decide +kernel

/-- FINDING: after `cancel_until` the own signature may be given out for a second block of the same seqno. A second validation of seqno 1 is past
its first check when seqno 1 is cancelled and the entry of the first is removed; it registers its block, and an exchange answers with the
signature before the second check. So `no_equivocation` cannot do without its hypothesis on `cancelledUntil`. -/
def exTwice : List Act :=
  [.validate 0 10] ++ runs 0 9 ++ [.validate 6 11] ++ runs 6 2 ++ [.exchange 1 1 1 1001] ++ runs 1 9 ++
  [.cancelUntil 2 1] ++ runs 2 3 ++ [.token 2 1] ++ runs 2 1 ++ [.remove 2 1] ++ runs 2 1 ++
  runs 6 2 ++ [.exchange 3 1 1 1101] ++ runs 3 9

example : (steps ex (init ex 1) exTwice).map (fun st => (st.exposed, st.cancelledUntil)) = some ([11, 10], 1) := by decide +kernel

/-- FINDING: above half of the range of `u64` the product in the threshold saturates, and less than two thirds are enough: here all the weight is
`2 ^ 64 - 1` and the threshold is a third of it, so that two disjoint sets of validators could complete two blocks. -/
example : thresholdOf (2 ^ 64 - 1) = 6148914691236517206 ∧ 3 * thresholdOf (2 ^ 64 - 1) < 2 * (2 ^ 64 - 1) ∧ 2 * thresholdOf (2 ^ 64 - 1) < 2 ^ 64 - 1 := by decide +kernel

end Tycho.Validator
