import Verif.StateFile.Props
/-! A small state: a root with three references (one child twice), a child that shares the leaf with the root. -/
namespace Tycho.StateFile
open Tycho.Bytes Tycho.Codec Tycho.Table

/-- A toy hash (a polynomial modulo a prime). -/
def toy : Crypto where
  sha x := beBytes 32 (x.foldl (fun a b => (a * 131 + b + 7) % (2 ^ 255 - 19)) 5)
  level m := if m / 4 % 2 = 1 then 3 else if m / 2 % 2 = 1 then 2 else m % 2
  sha_length x := beBytes_length 32 _

def ent0 : Ent := ⟨0, .ordinary, [], [], [], 0⟩
def bLeaf : Body := ⟨0, 2, [0xab]⟩
def eLeaf : Ent := (buildEnt toy bLeaf []).getD ent0
/-- Five bits of data. -/
def bMid : Body := ⟨1, 1, [0xac]⟩
def eMid : Ent := (buildEnt toy bMid [eLeaf]).getD ent0
/-- The row of the root has the flag of stored hashes. -/
def bRoot : Body := ⟨3 + 16, 4, [1, 2]⟩
def eRoot : Ent := (buildEnt toy bRoot [eMid, eLeaf, eMid]).getD ent0

def dbT (h : Nat) : Option (List Nat) :=
  if h = eLeaf.repr then some (rowBytes (hasher toy) bLeaf eLeaf [])
  else if h = eMid.repr then some (rowBytes (hasher toy) bMid eMid [eLeaf.repr])
  else if h = eRoot.repr then some (rowBytes (hasher toy) bRoot eRoot [eMid.repr, eLeaf.repr, eMid.repr])
  else none

def entT (h : Nat) : Ent := if h = eLeaf.repr then eLeaf else if h = eMid.repr then eMid else eRoot
def rankT (h : Nat) : Nat := if h = eLeaf.repr then 0 else if h = eMid.repr then 1 else 2

theorem storedLeaf : Stored (hasher toy) dbT entT eLeaf.repr bLeaf [] :=
  ⟨by decide +kernel, (by decide +kernel : buildEnt toy bLeaf [] = some (entT eLeaf.repr)), by decide +kernel, ⟨by decide +kernel, by decide +kernel⟩,
    by unfold Normal; decide +kernel, by decide +kernel, by decide +kernel⟩
theorem storedMid : Stored (hasher toy) dbT entT eMid.repr bMid [eLeaf.repr] :=
  ⟨by decide +kernel, (by decide +kernel : buildEnt toy bMid [entT eLeaf.repr] = some (entT eMid.repr)), by decide +kernel, ⟨by decide +kernel, by decide +kernel⟩,
    by unfold Normal; decide +kernel, by decide +kernel, by decide +kernel⟩
set_option maxRecDepth 20000 in
theorem storedRoot : Stored (hasher toy) dbT entT eRoot.repr bRoot [eMid.repr, eLeaf.repr, eMid.repr] :=
  ⟨by decide +kernel, (by decide +kernel : buildEnt toy bRoot [entT eMid.repr, entT eLeaf.repr, entT eMid.repr] = some (entT eRoot.repr)), by decide +kernel, ⟨by decide +kernel, by decide +kernel⟩,
    by unfold Normal; decide +kernel, by decide +kernel, by decide +kernel⟩

theorem cellLeaf : dbCell (hasher toy) dbT eLeaf.repr = some (bLeaf.clear, []) := storedLeaf.cell (hasher_laws toy) (by decide +kernel)
theorem cellMid : dbCell (hasher toy) dbT eMid.repr = some (bMid.clear, [eLeaf.repr]) := storedMid.cell (hasher_laws toy) (by decide +kernel)
theorem cellRoot : dbCell (hasher toy) dbT eRoot.repr = some (bRoot.clear, [eMid.repr, eLeaf.repr, eMid.repr]) :=
  storedRoot.cell (hasher_laws toy) (by decide +kernel)

theorem reach3 {cell : Nat → Option (Body × List Nat)} {l m r : Nat} {b1 b2 b3 : Body} (hl : cell l = some (b1, [])) (hm : cell m = some (b2, [l]))
    (hr : cell r = some (b3, [m, l, m])) {h : Nat} (h0 : Reach cell r h) : h = l ∨ h = m ∨ h = r := by
  induction h0 with
  | refl => exact Or.inr (Or.inr rfl)
  | step h1 h2 h3 ih =>
    rcases ih with rfl | rfl | rfl
    · rw [hl] at h2; injection h2 with h2; injection h2 with h2 h4; subst h4; cases h3
    · rw [hm] at h2; injection h2 with h2; injection h2 with h2 h4; subst h4; simp only [List.mem_singleton] at h3; exact Or.inl h3
    · rw [hr] at h2; injection h2 with h2; injection h2 with h2 h4; subst h4
      simp only [List.mem_cons, List.not_mem_nil, or_false] at h3
      rcases h3 with h3 | h3 | h3
      · exact Or.inr (Or.inl h3)
      · exact Or.inl h3
      · exact Or.inr (Or.inl h3)

theorem acyclic3 {cell : Nat → Option (Body × List Nat)} {l m r : Nat} {b1 b2 b3 : Body} (hl : cell l = some (b1, [])) (hm : cell m = some (b2, [l]))
    (hr : cell r = some (b3, [m, l, m])) {rank : Nat → Nat} (h1 : rank l < rank m) (h2 : rank m < rank r) {h : Nat} {b : Body} {refs : List Nat} {c : Nat}
    (h0 : Reach cell r h) (h3 : cell h = some (b, refs)) (h4 : c ∈ refs) : rank c < rank h := by
  rcases reach3 hl hm hr h0 with rfl | rfl | rfl
  · rw [hl] at h3; injection h3 with h3; injection h3 with h3 h5; subst h5; cases h4
  · rw [hm] at h3; injection h3 with h3; injection h3 with h3 h5; subst h5; simp only [List.mem_singleton] at h4; subst h4; exact h1
  · rw [hr] at h3; injection h3 with h3; injection h3 with h3 h5; subst h5
    simp only [List.mem_cons, List.not_mem_nil, or_false] at h4
    rcases h4 with rfl | rfl | rfl <;> omega

theorem content3 {db : Nat → Option (List Nat)} {ent : Nat → Ent} {l m r : Nat} {b1 b2 b3 : Body} (hl : dbCell (hasher toy) db l = some (b1.clear, []))
    (hm : dbCell (hasher toy) db m = some (b2.clear, [l])) (hr : dbCell (hasher toy) db r = some (b3.clear, [m, l, m]))
    (sl : Stored (hasher toy) db ent l b1 []) (sm : Stored (hasher toy) db ent m b2 [l]) (sr : Stored (hasher toy) db ent r b3 [m, l, m])
    (lt : l < 256 ^ 32 ∧ m < 256 ^ 32) {h : Nat}
    (h0 : Reach (dbCell (hasher toy) db) r h) : ∃ b refs, Stored (hasher toy) db ent h b refs ∧ ∀ c ∈ refs, c < 256 ^ 32 := by
  rcases reach3 hl hm hr h0 with rfl | rfl | rfl
  · exact ⟨_, _, sl, by simp⟩
  · exact ⟨_, _, sm, by simpa using lt.1⟩
  · exact ⟨_, _, sr, by simp [lt.1, lt.2]⟩

/-- The hypotheses of C98 and C99 hold for it. -/
def inDbT : InDb toy dbT eRoot.repr where
  ent := entT
  rank := rankT
  content := ⟨fun _ hr => content3 cellLeaf cellMid cellRoot storedLeaf storedMid storedRoot (by decide +kernel) hr, by decide +kernel⟩
  acyclic := fun _ _ _ _ h1 h2 h3 => acyclic3 cellLeaf cellMid cellRoot (by decide +kernel) (by decide +kernel) h1 h2 h3

def fileT : List Nat := (writeState (hasher toy) dbT eRoot.repr 12).getD []
/-- Three cells, 57 bytes; the bytes are these. -/
example : fileT = [0xb5, 0xee, 0x9c, 0x72, 0x84, 1, 0, 0, 0, 3, 0, 0, 0, 1, 0, 0, 0, 0, 26, 0, 0, 0, 0, 16, 23, 26,
    3, 4, 1, 2, 0, 0, 0, 1, 0, 0, 0, 2, 0, 0, 0, 1, 1, 1, 0xac, 0, 0, 0, 2, 0, 2, 0xab] := by decide +kernel
example : IsBytes fileT := by unfold IsBytes; decide +kernel

def importT (per batch : Nat) (expected : Option Nat) : Option (Nat × Table Nat (List Nat)) := importState (hasher toy) false per batch expected fileT
/-- The file is accepted with chunks of one, two and many cells and gives three rows; the wrong root is refused. -/
example : (importT 1 0 (some eRoot.repr)).map (fun p => (p.1, p.2.length)) = some (eRoot.repr, 3) := by decide +kernel
example : (importT 2 1 none).map (fun p => (p.1, p.2.length)) = some (eRoot.repr, 3) := by decide +kernel
example : (importT 10000 100000 none).map (fun p => (p.1, p.2.length)) = some (eRoot.repr, 3) := by decide +kernel
example : (importT 10000 100000 (some eMid.repr)) = none := by decide +kernel
/-- A file whose second cell is not used by the first is refused; so is a reference to the cell itself. -/
example : importState (hasher toy) false 10 10 none
    ([0xb5, 0xee, 0x9c, 0x72, 4, 1, 0, 0, 0, 2, 0, 0, 0, 1, 0, 0, 0, 0, 5, 0, 0, 0, 0] ++ [0, 0] ++ [0, 2, 0xab]) = none := by decide +kernel
example : importState (hasher toy) false 10 10 none
    ([0xb5, 0xee, 0x9c, 0x72, 4, 1, 0, 0, 0, 1, 0, 0, 0, 1, 0, 0, 0, 0, 6, 0, 0, 0, 0] ++ [1, 0, 0, 0, 0, 0]) = none := by decide +kernel

def cellsT : List (List Nat) := ((fileCells (hasher toy) fileT).getD (⟨false, 0, 0⟩, [])).2
example : (fileCells (hasher toy) fileT).map (fun p => (p.1, p.2.length)) = some (⟨false, 4, 3⟩, 3) := by decide +kernel

/-- The cells at the three positions. -/
def cellT (i : Nat) : Option (Body × List Ent × Ent) := entryAt (hasher toy) 4 cellsT 3 i

def clashFree : Option (Body × List Ent × Ent) → Option (Body × List Ent × Ent) → Bool
  | some (b, es, e), some (b', es', e') => decide (e.repr = e'.repr → b.clear = b'.clear ∧ es.map Ent.repr = es'.map Ent.repr)
  | _, _ => false

theorem cellT_none (i : Nat) (h : 3 ≤ i) : cellT i = none := by
  have hl : cellsT.length = 3 := by decide +kernel
  unfold cellT entryAt
  have hn : cellsT[i]? = none := by rw [List.getElem?_eq_none]; omega
  rw [hn]
  rfl

theorem clashFreeT : ∀ i < 3, ∀ j < 3, clashFree (cellT i) (cellT j) = true := by decide +kernel

/-- The hypothesis of C100 and C101 about collisions holds for it. -/
theorem noCollisionT : NoCollision (hasher toy) 4 cellsT 4 cellsT := by
  intro i b es e j b' es' e' h1 h2
  have hl : cellsT.length = 3 := by decide +kernel
  unfold CellIn at h1 h2
  rw [hl] at h1 h2
  have h1' : cellT i = some (b, es, e) := h1
  have h2' : cellT j = some (b', es', e') := h2
  have hi : i < 3 := by
    rcases Nat.lt_or_ge i 3 with h | h
    · exact h
    · rw [cellT_none i h] at h1'; cases h1'
  have hj : j < 3 := by
    rcases Nat.lt_or_ge j 3 with h | h
    · exact h
    · rw [cellT_none j h] at h2'; cases h2'
  have h3 := clashFreeT i hi j hj
  rw [h1', h2'] at h3
  exact of_decide_eq_true h3

end Tycho.StateFile
