import Verif.OrderedMap.Props

namespace Tycho.OrderedMap.Examples

/-- Upserts one after another, with their results (the caller's test: the values differ). -/
def run (m : Map Nat Nat) : List (Nat × Nat) → Option (Map Nat Nat × List (Upsert Nat Nat))
  | [] => some (m, [])
  | e :: l => (upsert m e.1 e.2 (fun a b => a != b)).bind fun r => (run r.1 l).map fun q => (q.1, r.2 :: q.2)

/-- The case of the test of the code: keys 1..5 stand for a..e. -/
theorem bounded_run : run (withMaxLen 3) [(1, 1), (2, 2), (3, 3), (4, 0), (5, 1), (4, 2), (1, 2), (5, 4)] =
    some (⟨[(4, 2), (3, 3), (5, 4)], 3⟩,
      [.inserted, .inserted, .inserted, .tooLow, .evicted 1 1, .evicted 5 1, .tooLow, .evicted 2 2]) := by decide +kernel

theorem collected : (fromIter [(3, 1), (1, 2), (2, 0), (1, 0), (0, 0)]).inner = [(0, 0), (1, 0), (2, 0), (3, 1)] := by
  decide +kernel

/-- An update that moves an entry both ways. -/
theorem moved : run (fromIter [(1, 10), (2, 20), (3, 30)]) [(1, 25), (3, 5), (2, 20)] =
    some (⟨[(3, 5), (2, 20), (1, 25)], 3⟩, [.updated 10, .updated 30, .rejected]) := by decide +kernel

theorem zero_bound : run (withMaxLen 0) [(1, 1)] = some (⟨[], 0⟩, [.tooLow]) := by decide +kernel

/-- The map keeps the greatest of what it was offered only if values do not fall: what was refused or dropped
is forgotten, so after a falling update a lesser entry stays. -/
theorem falling : run (withMaxLen 1) [(1, 5), (2, 4), (1, 3)] = some (⟨[(1, 3)], 1⟩, [.inserted, .tooLow, .updated 5]) := by
  decide +kernel

/-- A full map that is reached, with an entry above its least. -/
example : ∃ m : Map Nat Nat, Reach m ∧ get m 4 = none ∧ m.inner.length = m.maxLen ∧
    ∃ j w, get m j = some w ∧ Below (j, w) (4, 15) :=
  ⟨_, .fromIter [(1, 10), (2, 20)], by decide +kernel, rfl, 1, 10, by decide +kernel, .inl (by decide)⟩

example : (([(1, 1), (2, 2), (3, 3), (4, 0)] : List (Nat × Nat)).map (·.1)).Nodup := by decide

end Tycho.OrderedMap.Examples
