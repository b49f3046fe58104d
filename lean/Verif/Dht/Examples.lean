import Verif.Dht.Props

/-! Concrete cases, and the order `closest` does not keep. -/
namespace Tycho.Dht

/-- The id whose last byte is `n`. -/
def idOf (n : Nat) : List Nat := List.replicate 31 0 ++ [n]

theorem isId_idOf {n : Nat} (h : n < 256) : IsId (idOf n) := by
  refine ⟨by simp [idOf], ?_⟩
  intro b hb
  unfold idOf at hb
  rcases List.mem_append.1 hb with hb | hb
  · have := List.eq_of_mem_replicate hb; omega
  · simp at hb; omega

/-- Three peers in buckets 1, 3 and 3 of at most two, one refused, one refreshed. -/
def exOps : List Op :=
  [.add (idOf 1) false true, .add (idOf 4) false true, .add (idOf 5) false true, .add (idOf 6) false true, .add (idOf 4) false true,
   .add (idOf 0) false true]

theorem exOps_wf : WfOps exOps := by
  intro id e a h
  simp only [exOps, List.mem_cons, List.not_mem_nil, or_false, Op.add.injEq] at h
  rcases h with ⟨rfl, _⟩ | ⟨rfl, _⟩ | ⟨rfl, _⟩ | ⟨rfl, _⟩ | ⟨rfl, _⟩ | ⟨rfl, _⟩ <;> exact isId_idOf (by decide)

def exTable : Table := run 2 (Table.new (idOf 0)) exOps

example : exTable.buckets 1 = [idOf 1] ∧ exTable.buckets 3 = [idOf 5, idOf 4] ∧ size exTable = 3 := by decide +kernel
example : exTable.contains (idOf 5) = true ∧ exTable.contains (idOf 6) = false ∧ exTable.contains (idOf 0) = false := by decide +kernel
/-- A full bucket takes a new peer in place of an expired oldest one. -/
example : (exTable.add (idOf 7) 2 true true).2 = true ∧ (exTable.add (idOf 7) 2 true true).1.buckets 3 = [idOf 4, idOf 7] := by decide +kernel
example : (exTable.add (idOf 7) 2 false true).2 = false := by decide +kernel
example : exTable.closest (idOf 4) 2 = [idOf 5, idOf 4] := by decide +kernel
example : ¬ Stored exTable (idOf 0) := local_never_stored (isId_idOf (by decide)) exOps_wf
example : (exTable.closest (idOf 2) 10).length = 3 := by
  rw [show exTable = run 2 (Table.new (idOf 0)) exOps from rfl,
    closest_length (isId_idOf (by decide)) exOps_wf (isId_idOf (by decide))]
  decide +kernel
/-- A stored peer nearer to the key than the local one. -/
example : ∃ x xs, exTable.closest (idOf 4) 1 = x :: xs ∧ xorDistance x (idOf 4) < xorDistance (idOf 0) (idOf 4) :=
  closest_progress (y := idOf 5) (isId_idOf (by decide)) exOps_wf (isId_idOf (by decide)) (by decide)
    ((contains_iff exOps_wf (idOf 5)).1 (by decide +kernel)) (by decide +kernel)

/-- A lookup is not nearest first: the nearest of the stored peers to key 2 is 1 (their exclusive or is 3, two bits), and the
answer begins with 5 (exclusive or 7, three bits): buckets farther than the key's are visited before the nearer ones. -/
theorem closest_not_nearest_first :
    ∃ x y, exTable.closest (idOf 2) 1 = [x] ∧ Stored exTable y ∧ xorDistance y (idOf 2) < xorDistance x (idOf 2) ∧
      kad y (idOf 2) < kad x (idOf 2) := by
  refine ⟨idOf 5, idOf 1, by decide +kernel, ⟨1, by decide +kernel⟩, by decide +kernel, by decide +kernel⟩

example : xorDistance (idOf 0) (idOf 4) = 3 ∧ xorDistance (idOf 5) (idOf 4) = 1 := by decide +kernel
example : xorDistance (128 :: List.replicate 31 0) (idOf 4) = 256 := by decide +kernel
example : randomKeyAt (idOf 9) 3 [0xf6] = idOf 0xe := by decide +kernel
example : ∃ rnd, randomKeyAt (idOf 9) 3 rnd = idOf 0xe := by
  obtain ⟨r, _, _, h⟩ := randomKeyAt_onto (a := idOf 9) (b := idOf 0xe) (d := 3) (isId_idOf (by decide)) (isId_idOf (by decide))
    (by decide) (by decide +kernel)
  exact ⟨r, h⟩

end Tycho.Dht
