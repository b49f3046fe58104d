import Verif.IntrusiveList.Props

/-! ## Two lists on one heap -/
namespace Tycho.IntrusiveList

/-- Pushes to two lists, removal from the middle and from an end, removal of a node that is nowhere, and a push of a removed node. -/
def exOps : List Op :=
  [.push 0 1, .push 0 2, .push 1 5, .push 0 3, .remove 0 2, .remove 0 9, .push 1 2, .pop 1, .last 0, .remove 0 3, .pop 0, .pop 0]

example : RunOk (fun _ => []) exOps := by
  simp [exOps, RunOk, Contract, specStep, Lists.set]
  refine ⟨?_, ?_, ?_, ?_⟩ <;> intro m <;> (repeat' split) <;> simp

example : (specRun (fun _ => []) exOps).2 =
    [none, none, none, none, some 2, none, none, some 5, some 1, some 3, some 1, none] := by decide +kernel

example : (run init exOps).map (fun r => (r.2, r.1.lists 0, r.1.lists 1, r.1.heap 2, r.1.heap 5)) =
    some ([none, none, none, none, some 2, none, none, some 5, some 1, some 3, some 1, none],
      ⟨none, none⟩, ⟨some 2, some 2⟩, ⟨none, none⟩, ⟨none, none⟩) := by decide +kernel

/-- The contract is needed: pushing the front node again fails the assertion. -/
example : run init [.push 0 1, .push 0 1] = none := by decide +kernel

/-- Pushing a node that is not at the front twice is not noticed, and the next pop loses a node. -/
example : (run init [.push 0 1, .push 0 2, .push 0 1, .pop 0]).map (fun r => r.1.lists 0) = some ⟨none, none⟩ := by decide +kernel

/-- Removing from another list is noticed only in the middle or not at all: here list 1 takes away the links of a node of list 0. -/
example : (run init [.push 0 1, .push 0 2, .push 0 3, .remove 1 2]).map (fun r => (r.2, r.1.heap 3, r.1.lists 1)) =
    some ([none, none, none, some 2], ⟨none, some 1⟩, ⟨none, none⟩) := by decide +kernel

end Tycho.IntrusiveList
