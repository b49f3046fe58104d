import Verif.ArchiveFile.Props

namespace Tycho.ArchiveFile
open Tycho.Bytes Tycho.Codec

def xA : Ext := ⟨0x11223344, 1, 2, 3, fun _ p => p != 0⟩

theorem xA_ok : xA.Ok := by constructor <;> decide

def h32 (n : Nat) : List Nat := List.replicate 32 n
def mcId : BlockId := ⟨0xffffffff, 0x8000000000000000, 7, h32 1, h32 2⟩
def shId : BlockId := ⟨0, 0x8000000000000000, 9, h32 3, h32 4⟩
def es : List Entry := [⟨mcId, .block, [1, 2, 3]⟩, ⟨shId, .block, [9, 9]⟩, ⟨mcId, .proof, []⟩, ⟨mcId, .diff, [5]⟩]

theorem es_ok : ∀ e ∈ es, EntryOk xA e := by
  intro e he
  simp only [es, List.mem_cons, List.not_mem_nil, or_false] at he
  rcases he with rfl | rfl | rfl | rfl <;> exact ⟨⟨by decide, by decide, by decide, by unfold IsBytes; decide +kernel, by unfold IsBytes; decide +kernel, by decide⟩, by decide, by unfold IsBytes; decide⟩

example : (encArchive xA es).length = 4 + 4 * 92 + 6 := by decide +kernel
example : read xA (encArchive xA es) = some es := by decide +kernel
/-- cut into chunks: 5 bytes, then 50 at a time -/
def cut (n : Nat) : Nat → List Nat → List (List Nat)
  | 0, l => [l]
  | k + 1, l => l.take n :: cut n k (l.drop n)

example : verifyAll xA (cut 50 7 (encArchive xA es)) = true := by decide +kernel
example : verifyAll xA (cut 7 53 (encArchive xA es)) = true := by decide +kernel
example : ((cut 7 53 (encArchive xA es)).flatten = encArchive xA es) ∧ (4 ≤ ((cut 7 53 (encArchive xA es)).head?.getD []).length) := by decide +kernel
/-- a byte is lost or changed -/
example : verifyAll xA [(encArchive xA es).dropLast] = false := by decide +kernel
example : verifyAll xA [encArchive xA es ++ [0]] = false := by decide +kernel
/-- the reader alone does not see up to 7 more bytes -/
example : read xA (encArchive xA es ++ [0, 0, 0, 0, 0, 0, 0]) = some es := by decide +kernel
/-- **finding** a package whose last entry is empty is not accepted, although it is read -/
example : verifyAll xA [encArchive xA (es.take 3)] = false ∧ read xA (encArchive xA (es.take 3)) = some (es.take 3) := by decide +kernel
/-- **finding** the first chunk must have 4 bytes -/
example : verifyAll xA [(encArchive xA es).take 3, (encArchive xA es).drop 3] = false := by decide +kernel

example : NoDup es := by unfold NoDup; decide +kernel
example : ((Archive.new xA (encArchive xA es)).map (fun a => (a.part mcId .block, a.part mcId .proof, a.part shId .proof, (a.mc 7).isSome, (a.mc 9).isSome))) =
    some (some [1, 2, 3], some [], none, true, false) := by decide +kernel
example : (Archive.new xA (encArchive xA (es ++ [⟨shId, .block, [1]⟩]))).isNone = true := by decide +kernel
example : checkRange [3, 4, 5] = true ∧ checkRange [3, 5] = false ∧ checkRange [] = false := by decide

end Tycho.ArchiveFile
