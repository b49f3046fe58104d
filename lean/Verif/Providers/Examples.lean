import Verif.Providers.Props
import Verif.Providers.Select

namespace Tycho.Providers

/-! ### Cycle -/

def cy1 : CycleSt := ⟨⟨.left, some 11⟩, 11, .right, .idle, false⟩

theorem cy1_exec : CycleExec 10
    [.begin 11, .next .right 10, .ask .right 10, .none .left 10, .ask .left 10] cy1 :=
  .step _ _ _ _ (.step _ _ _ _ (.step _ _ _ _ (.step _ _ _ _ .init
    (CycleStep.start _ rfl)) (CycleStep.none _ .left rfl)) (CycleStep.some _ .right rfl)) (CycleStep.begin _ .right rfl rfl)

/-- the left provider had no block 11, the right one returned it: its shard blocks are asked of the right one -/
example : CycleStep cy1 [.block .right 11] cy1 := CycleStep.block cy1 rfl

example :=
  cycle_block_same_provider 10 _ cy1 cy1 cy1_exec _ (CycleStep.block cy1 rfl) .right 11 (by decide)

/-- the exception of `cycle_block_same_provider` is reachable: the right provider returned block 11, its call for block 12
found nothing, and now shard blocks of block 11 are asked of the left one -/
def cy2 : CycleSt := ⟨⟨.left, none⟩, 11, .right, .asking .left, false⟩

theorem cy2_exec : CycleExec 10
    [.ask .left 11, .none .right 11, .ask .right 11, .begin 11, .next .right 10, .ask .right 10, .none .left 10, .ask .left 10] cy2 :=
  .step _ _ _ _ (.step _ _ _ _ cy1_exec (CycleStep.start _ rfl)) (CycleStep.none _ .right rfl)

example : CycleStep cy2 [.block .left 11] cy2 := CycleStep.block cy2 rfl

example : ∃ s', CycleStep cy1 [Ev.ask Part.right 11] s' := ⟨_, CycleStep.start cy1 rfl⟩

/-! ### Chain -/

def ch1 : ChainSt := ⟨.active, 11, .left, .idle, false⟩

theorem ch1_exec : ChainExec 10 [.begin 11, .next .left 10, .ask .left 10] ch1 :=
  .step _ _ _ _ (.step _ _ _ _ (.step _ _ _ _ .init (ChainStep.start _ rfl)) (ChainStep.some _ .left rfl))
    (ChainStep.begin _ .left rfl rfl)

/-- the last block of the left provider: its shard blocks go to the right one -/
def ch2 : ChainSt := ⟨.leaving 12, 11, .left, .asking .right, false⟩

theorem ch2_exec : ChainExec 10 [.ask .right 11, .none .left 11, .ask .left 11, .begin 11, .next .left 10, .ask .left 10] ch2 :=
  .step _ _ _ _ (.step _ _ _ _ ch1_exec (ChainStep.start _ rfl)) (ChainStep.noneLeft _ rfl)

example : ChainStep ch2 [.block .right 11] ch2 := ChainStep.block ch2 rfl

def ch3 : ChainSt := ⟨.gone, 12, .right, .idle, true⟩

theorem ch3_exec : ∃ tr, ChainExec 10 tr ch3 ∧ .none .left 11 ∈ tr ∧ .cleanup .left 12 ∈ tr ∧ .cleanup .right 11 ∈ tr :=
  ⟨_, .step _ _ _ _ (.step _ _ _ _ (.step _ _ _ _ (.step _ _ _ _ ch2_exec (ChainStep.some _ .right rfl)) (ChainStep.cleanup _ rfl))
    (ChainStep.begin _ .right rfl rfl)) (ChainStep.cleanup _ rfl), by decide, by decide, by decide⟩

/-! ### Fallback -/

def fb1 : FbSt := ⟨true, none, 11, .idle, true⟩

/-- the client timed out, the fallback had block 11, it is not cleaned -/
theorem fb1_exec : FbExec 10
    [.cleaned 11, .begin 11, .next .right 10, .ask .right 10, .none .left 10, .ask .left 10] fb1 :=
  .step _ _ _ _ (.step _ _ _ _ (.step _ _ _ _ (.step _ _ _ _ (.step _ _ _ _ .init
    (FbStep.start _ rfl)) (FbStep.nonePrimary _ rfl)) (FbStep.some _ .right rfl)) (FbStep.begin _ .right rfl rfl))
    (FbStep.cleanup _ rfl)

/-- then the fallback has no block 12, the client returns it, and the fallback is cleaned at 12 -/
theorem fb2_exec : FbExec 10
    [.cleaned 12, .cleanup .right 12, .begin 12, .next .left 11, .ask .left 11, .none .right 11, .ask .right 11,
     .cleaned 11, .begin 11, .next .right 10, .ask .right 10, .none .left 10, .ask .left 10]
    ⟨false, none, 12, .idle, true⟩ :=
  .step _ _ _ _ (.step _ _ _ _ (.step _ _ _ _ (.step _ _ _ _ (.step _ _ _ _ fb1_exec
    (FbStep.start _ rfl)) (FbStep.noneFallback _ .left rfl)) (FbStep.some _ .left rfl)) (FbStep.begin _ .left rfl rfl))
    (FbStep.cleanup _ rfl)

/-! ### Retry and select -/

example : retry 2 0 [none, some 7, none] = some (some 7, 2) := by decide
example : retry 2 0 [none, none, none, some 7] = some ((none : Option Nat), 3) := by decide

example : select 9 [some ⟨3, some 1⟩, some ⟨0, none⟩, some ⟨2, some 5⟩, some ⟨2, some 6⟩] = some (some 5, 2) := by decide
example : ∃ i, Winner [some ⟨3, some 1⟩, some ⟨0, none⟩, some ⟨2, some 5⟩, some ⟨2, some 6⟩] i 2 5 :=
  ((select_some 9 [some ⟨3, some 1⟩, some ⟨0, none⟩, some ⟨2, some 5⟩, some ⟨2, some 6⟩] 5 2).1 (by decide)).2
example : select 9 [some ⟨3, (none : Option Nat)⟩, some ⟨0, none⟩] = some (none, 3) := by decide

end Tycho.Providers
