import Verif.Slasher.Collect
import Verif.Slasher.Scope
import Verif.Slasher.Half
/-!
Concrete cases and findings of the slasher.
-/
namespace Tycho.Slasher

def yes : Sig := ⟨true, false⟩
def no : Sig := ⟨false, false⟩
def bad : Sig := ⟨false, true⟩

/-- Three validators, blocks 101 to 106 in batches of two; 104 is skipped and 103 not seen. -/
def evs : List Ev := [.validated 101 [yes, no, yes], .validated 102 [yes, yes, bad], .skipped 104, .validated 106 [no, no, yes]]

example : Ordered 101 evs := by unfold Ordered evs; decide

example : (collect 2 101 [0, 1, 2] (.init 2 :: evs)).finish =
    [⟨101, [true, true], [(0, [false, true, false, true]), (1, [false, false, false, true]), (2, [false, true, true, false])]⟩,
     ⟨105, [false, true], [(0, [false, false, false, false]), (1, [false, false, false, false]), (2, [false, false, false, true])]⟩] := by
  decide +kernel

example : ∃ b ∈ (collect 2 101 [0, 1, 2] (.init 2 :: evs)).finish, b.tells 102 [yes, yes, bad] :=
  all_sent 2 101 [0, 1, 2] evs (by decide) (by unfold Ordered evs; decide) 102 _ (by decide) rfl

/-- Finding (a hypothesis of `all_sent` is needed): with a change of the batch size the blocks of the batch being filled are lost
(validator_events.rs:98-111). -/
theorem resize_loses : (collect 2 101 [0] [.init 2, .validated 101 [yes], .resize 4, .validated 102 [yes]]).finish =
    [⟨101, [false, true, false, false], [(0, [false, false, false, true, false, false, false, false])]⟩] := by decide +kernel

/-- Finding: after a change of the batch size a batch may start before the end of one that was sent (its blocks are still different); the contract
then refuses it, and what it tells is lost. -/
theorem resized_batch_overlaps :
    ∃ a b : Batch, (collect 2 101 [0] [.init 2, .validated 101 [yes], .validated 103 [yes], .resize 10, .validated 104 [yes]]).finish = [a, b] ∧
      b.start < a.start + 2 ∧
      ((accepted 1 [(2, 105, 0, a), (10, 115, 0, b)]).stored.map (·.2.start)) = [101] := by
  refine ⟨⟨101, [true, false], [(0, [false, true, false, false])]⟩,
    ⟨101, [false, false, false, true, false, false, false, false, false, false],
      [(0, [false, false, false, false, false, false, false, true, false, false, false, false, false, false, false, false, false, false, false, false])]⟩, ?_⟩
  decide +kernel

/-- A session that was not made fit to send loses its batches when it ends. -/
example : (collect 2 101 [0] [.validated 101 [yes], .validated 103 [yes]]).finish = [] := by decide +kernel

/-- The scope: signatures, then the commit; what comes later is not told. -/
example : (Scope.run [7, 9] [.receive 9 true, .receive 7 false, .receive 8 true, .receive 9 false, .commit, .receive 7 true, .discard]).told =
    [some [bad, ⟨true, true⟩]] := by decide +kernel
example : (Scope.run [7, 9] [.receive 9 true]).told = [none] := by decide +kernel

/-- Batches as three validators send them: of blocks 1 and 2. `s i j`: the bits for the nodes. -/
def batch (start : Nat) (sigs : List (Nat × List Sig)) : Batch :=
  ⟨start, [true, true], sigs.map (fun e => (e.1, e.2.flatMap (fun s => [s.invalid, s.valid])))⟩

def msgs : List (Nat × Nat × Nat × Batch) := [
  (2, 3, 0, batch 1 [(0, [no, no]), (1, [yes, yes]), (2, [no, no]), (3, [yes, yes])]),
  (2, 4, 1, batch 1 [(0, [yes, yes]), (1, [no, no]), (2, [no, no]), (3, [yes, yes])]),
  (2, 4, 1, batch 2 [(0, [yes, yes]), (1, [no, no]), (2, [no, no]), (3, [yes, yes])]),
  (2, 5, 3, batch 1 [(0, [yes, yes]), (1, [yes, yes]), (2, [no, no]), (3, [no, no])]),
  (2, 6, 2, batch 1 [(0, [yes, yes]), (4, [yes, yes])]),
  (2, 6, 0, batch 3 [(0, [no, no]), (1, [yes, yes]), (2, [no, yes]), (3, [yes, yes])])]

example : ((accepted 4 msgs).stored.map (fun e => (e.1, e.2.start))) = [(0, 1), (1, 1), (3, 1), (0, 3)] := by decide +kernel
example : ∀ m ∈ msgs, 0 < m.1 ∧ m.1 ≤ 255 ∧ m.2.1 < 2 ^ 32 := by decide +kernel

/-- A comparison with whole numbers: slow means less than half of the mean. -/
def cfg : Config := ⟨2, 1, 1, fun v _ l => decide (2 * v * l.length < l.sum)⟩

def weights : List Nat := [10, 10, 9, 10]

example : analyze cfg weights 4 6 0 [1] (accepted 4 msgs).stored = some [2] := by decide +kernel
/-- The node itself is left out. -/
example : analyze cfg weights 4 6 2 [1] (accepted 4 msgs).stored = some [] := by decide +kernel
/-- Two of the accusers are not enough. -/
example : analyze cfg weights 4 6 0 [1] ((accepted 4 msgs).stored.take 2) = some [] := by decide +kernel
/-- The hypotheses of `accused_iff`. -/
example : (countAll (weights.take 4) (accepted 4 msgs).stored).isSome = true ∧ cfg.lenThr ≤ min (6 + 1) (2 ^ 32 - 1) - [1].foldl min (2 ^ 32 - 1) ∧
    2 ≤ (weights.take 4).length := by decide +kernel
/-- The hypotheses of `minority_cannot_accuse` for two observers. -/
example : 3 * weightOf (weights.take 4) [0, 1] ≤ 2 * (weights.take 4).sum := by decide +kernel

/-- Finding: one stored batch that is not as the contract would have it makes the whole analysis fail, not only that batch. -/
theorem one_bad_batch_stops_analysis : analyze cfg weights 4 6 0 [1] ((accepted 4 msgs).stored ++ [(4, batch 1 [(0, [yes, yes])])]) = none := by
  decide +kernel

/-- Finding: `malformed` batches (entries of unknown validators) never come through the contract, which refuses them: see `accepted_analyzed`. -/
theorem malformed_is_refused : (accepted 4 [(2, 3, 0, batch 1 [(4, [yes, yes])])]).stored = [] := by
  decide +kernel

end Tycho.Slasher
