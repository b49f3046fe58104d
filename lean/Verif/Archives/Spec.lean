import Verif.Archives.Model
import Mathlib.Data.Nat.Init

/-! Which archive a masterchain block and its shard blocks belong to, as a function of the chain alone. -/
namespace Tycho.Archives

/-- Archive of the masterchain block `s + i`: a new one is started after a key block, unless the next one is a key block too, and after 100 blocks. -/
def archAt (w : World) : Nat → Nat
  | 0 => w.s
  | i + 1 =>
    let n := w.s + i + 1
    if (w.key (n - 1) = true ∧ w.key n = false) ∨ archAt w i + maxMc ≤ n then n else archAt w i

def arch (w : World) (n : Nat) : Nat := archAt w (n - w.s)

/-- the file has exactly the blocks of the archive: each part of each block once -/
structure Good (w : World) (a : Nat) (c : List (Ty × Nat)) : Prop where
  once : c.Nodup
  exact' : ∀ t x, (t, x) ∈ c ↔ ∃ n, w.s ≤ n ∧ arch w n = a ∧ x ∈ w.blocks n

variable {w : World}

theorem arch_start : arch w w.s = w.s := by simp [arch, archAt]

theorem arch_succ {n : Nat} (h : w.s ≤ n) : arch w (n + 1) =
    if (w.key n = true ∧ w.key (n + 1) = false) ∨ arch w n + maxMc ≤ n + 1 then n + 1 else arch w n := by
  have e : n + 1 - w.s = (n - w.s) + 1 := by omega
  have e2 : w.s + (n - w.s) = n := by omega
  simp only [arch, e, archAt, e2, Nat.add_sub_cancel]
  rfl

theorem arch_bounds : ∀ n, w.s ≤ n → w.s ≤ arch w n ∧ arch w n ≤ n ∧ n < arch w n + maxMc := by
  intro n h
  induction n, h using Nat.le_induction with
  | base => rw [arch_start]; simp [maxMc]
  | succ n h ih =>
    rw [arch_succ h]
    split
    · simp only [maxMc]; omega
    · rename_i hc
      simp only [maxMc] at *
      omega

theorem arch_step {n : Nat} (h : w.s ≤ n) : arch w (n + 1) = arch w n ∨ arch w (n + 1) = n + 1 := by
  rw [arch_succ h]; split
  · exact .inr rfl
  · exact .inl rfl

theorem arch_mono {m n : Nat} (h : w.s ≤ m) (hmn : m ≤ n) : arch w m ≤ arch w n := by
  induction n, hmn using Nat.le_induction with
  | base => exact Nat.le_refl _
  | succ n hn ih =>
    rcases arch_step (w := w) (n := n) (by omega) with e | e
    · rw [e]; exact ih
    · have := (arch_bounds (w := w) m h).2.1; omega

theorem arch_idem {n : Nat} (h : w.s ≤ n) : arch w (arch w n) = arch w n := by
  induction n, h using Nat.le_induction with
  | base => rw [arch_start, arch_start]
  | succ n hn ih =>
    rcases arch_step (w := w) (n := n) (by omega) with e | e
    · rw [e]; exact ih
    · rw [e]; exact e

/-- an archive which begins at or before a block is not after the archive of the block -/
theorem arch_of_le {m n : Nat} (h : w.s ≤ m) (hl : arch w m ≤ n) : arch w m ≤ arch w n := by
  have := arch_mono (w := w) (arch_bounds (w := w) m h).1 hl
  rwa [arch_idem h] at this

end Tycho.Archives
