import Verif.Cert.Model
import Mathlib.Data.Nat.Bitwise
/-!
The packed word of a cert, cert.rs:143-148, and its bit operations, against the record of the model. A word is a number
below 2^16: the height is in the lower 12 bits, the flags in the upper four.
-/
namespace Tycho.Cert

/-- The flags of a record as a four bit number: TOP, INIT_STARTED, the second bit of INIT_COMPLETED, COMMITTED. -/
def Word.flags (w : Word) : Nat :=
  8 * w.top.toNat + 4 * w.started.toNat + 2 * w.completed.toNat + w.committed.toNat

/-- The packed word. -/
def Word.pack (w : Word) : Nat := w.flags * 4096 + w.height

/-- cert.rs:143-148. -/
def TOP : Nat := 8 * 4096
/-- cert.rs:144. -/
def INIT_STARTED : Nat := 4 * 4096
/-- cert.rs:145. -/
def INIT_COMPLETED : Nat := INIT_STARTED ||| (2 * 4096)
/-- cert.rs:146. -/
def COMMITTED : Nat := 1 * 4096
/-- cert.rs:147. -/
def ALL_FLAGS : Nat := TOP ||| INIT_COMPLETED ||| COMMITTED
/-- `!ALL_FLAGS` on 16 bits. -/
def NOT_FLAGS : Nat := 65535 - ALL_FLAGS

theorem flags_lt (w : Word) : w.flags < 16 := by
  obtain ⟨h, a, b, c, d⟩ := w
  cases a <;> cases b <;> cases c <;> cases d <;> simp [Word.flags]

theorem pack_lt (w : Word) (h : w.height < 4096) : w.pack < 65536 := by
  have := flags_lt w; unfold Word.pack; omega

theorem or_low {f h : Nat} (hh : h < 4096) : h ||| f * 4096 = f * 4096 + h := by
  have := Nat.two_pow_add_eq_or_of_lt (i := 12) (b := h) (by simpa using hh) f
  rw [Nat.lor_comm, Nat.mul_comm f 4096]
  exact this.symm

theorem and_flags {f h : Nat} (hf : f < 16) (hh : h < 4096) : (f * 4096 + h) &&& 61440 = f * 4096 := by
  apply Nat.eq_of_testBit_eq
  intro i
  rw [Nat.testBit_and, Nat.mul_comm f 4096]
  rw [show (61440 : Nat) = 2 ^ 12 * 15 + 0 by decide, show (4096 : Nat) = 2 ^ 12 by decide]
  have hh' : h < 2 ^ 12 := by simpa using hh
  rw [Nat.testBit_two_pow_mul_add _ hh', Nat.testBit_two_pow_mul_add 15 (by decide)]
  have e0 : (2 ^ 12 * f).testBit i = (2 ^ 12 * f + 0).testBit i := by simp
  rw [e0, Nat.testBit_two_pow_mul_add f (by decide)]
  by_cases hi : i < 12
  · simp [hi]
  · simp only [if_neg hi]
    have h15 : (15 : Nat) = 2 ^ 4 - 1 := by decide
    rw [h15, Nat.testBit_two_pow_sub_one]
    by_cases h4 : i - 12 < 4
    · simp [h4]
    · have : f.testBit (i - 12) = false := by
        apply Nat.testBit_lt_two_pow
        calc f < 2 ^ 4 := by omega
          _ ≤ 2 ^ (i - 12) := Nat.pow_le_pow_right (by decide) (by omega)
      simp [this]

theorem and_low {f h : Nat} (hh : h < 4096) : (f * 4096 + h) &&& 4095 = h := by
  rw [show (4095 : Nat) = 2 ^ 12 - 1 by decide, Nat.and_two_pow_sub_one_eq_mod]
  omega

theorem all_flags : ALL_FLAGS = 61440 := by decide
theorem not_flags : NOT_FLAGS = 4095 := by decide

/-- Unmasking gives the height (`height & !ALL_FLAGS`, cert.rs:177, 189, 199). -/
theorem unmask_height (w : Word) (h : w.height < 4096) : w.pack &&& NOT_FLAGS = w.height := by
  rw [not_flags]; unfold Word.pack; exact and_low h

/-- The flags of the packed word. -/
theorem mask_flags (w : Word) (h : w.height < 4096) : w.pack &&& ALL_FLAGS = w.flags * 4096 := by
  rw [all_flags]; unfold Word.pack; exact and_flags (flags_lt w) h

/-- The closure of `fetch_update` in `max_height_published`, cert.rs:236-240: the height with the inherited flags replaces
the stored word if it is greater. -/
def raisePacked (stored height topMask : Nat) : Option Nat :=
  let height := height ||| (stored &&& ALL_FLAGS)
  if height > stored then some (height ||| topMask) else none

theorem or_top (w : Word) (h : w.height < 4096) (top : Bool) :
    w.pack ||| (if top then TOP else 0) = ({ w with top := w.top || top } : Word).pack := by
  have e : ∀ a : Word, a.height = w.height → a.pack = w.height ||| a.flags * 4096 := by
    intro a ha; rw [or_low h, ← ha]; rfl
  rw [e w rfl, e { w with top := w.top || top } rfl]
  rw [Nat.lor_assoc]
  congr 1
  obtain ⟨_, a, b, c, d⟩ := w
  cases a <;> cases b <;> cases c <;> cases d <;> cases top <;> (simp only [Word.flags]; decide)

/-- On packed words the closure does what `Word.raise` does on records. -/
theorem raise_packed (w : Word) (h : Nat) (top : Bool) (hw : w.height < 4096) (hh : h < 4096) :
    raisePacked w.pack h (if top then TOP else 0) = (w.raise h top).map Word.pack := by
  unfold raisePacked
  simp only
  rw [mask_flags w hw, or_low hh]
  have e : w.flags * 4096 + h = ({ w with height := h } : Word).pack := rfl
  unfold Word.raise
  by_cases hgt : h > w.height
  · rw [if_pos hgt, if_pos (by unfold Word.pack; omega), e, or_top { w with height := h } hh top]; rfl
  · rw [if_neg hgt, if_neg (by unfold Word.pack; omega)]; rfl

/-- A failed exchange repeats the closure with the flags of an earlier read kept in `height`; as flags are never cleared
this changes nothing. -/
theorem raise_retry (w w' : Word) (h : Nat) (hw : w.height < 4096) (hw' : w'.height < 4096) (_hh : h < 4096)
    (hsub : w.flags ||| w'.flags = w'.flags) (mask : Nat) :
    raisePacked w'.pack (h ||| (w.pack &&& ALL_FLAGS)) mask = raisePacked w'.pack h mask := by
  unfold raisePacked
  simp only
  rw [mask_flags w hw, mask_flags w' hw']
  have : h ||| w.flags * 4096 ||| w'.flags * 4096 = h ||| w'.flags * 4096 := by
    rw [Nat.lor_assoc]
    congr 1
    have h1 : ∀ x : Nat, x * 4096 = x <<< 12 := by intro x; rw [Nat.shiftLeft_eq]
    rw [h1, h1, ← Nat.shiftLeft_or_distrib, hsub]
  rw [this]

/-- The flag updates `fetch_or(..)` of `set_deps` and `set_committed` (cert.rs:175, 188, 197). -/
theorem or_flags_packed (w : Word) (h : w.height < 4096) :
    w.pack ||| INIT_STARTED = ({ w with started := true } : Word).pack ∧
    w.pack ||| INIT_COMPLETED = ({ w with started := true, completed := true } : Word).pack ∧
    w.pack ||| COMMITTED = ({ w with committed := true } : Word).pack := by
  have e : ∀ a : Word, a.height = w.height → a.pack = w.height ||| a.flags * 4096 := by
    intro a ha; rw [or_low h, ← ha]; rfl
  rw [e w rfl, e { w with started := true } rfl, e { w with started := true, completed := true } rfl,
    e { w with committed := true } rfl]
  simp only [Nat.lor_assoc]
  obtain ⟨_, a, b, c, d⟩ := w
  refine ⟨?_, ?_, ?_⟩ <;> congr 1 <;> cases a <;> cases b <;> cases c <;> cases d <;> (simp only [Word.flags]; decide)

/-- The tests `prev & INIT_COMPLETED == INIT_COMPLETED`, `& INIT_STARTED`, `& TOP`, `& COMMITTED`
(cert.rs:178, 184, 189, 190, 243); the first needs that a completed initialization was started. -/
theorem test_flags_packed (w : Word) (h : w.height < 4096) (ho : w.completed = true → w.started = true) :
    (w.pack &&& INIT_COMPLETED = INIT_COMPLETED ↔ w.completed = true) ∧
    (w.pack &&& INIT_STARTED = 0 ↔ w.started = false) ∧
    (w.pack &&& TOP = TOP ↔ w.top = true) ∧ (w.pack &&& COMMITTED = COMMITTED ↔ w.committed = true) := by
  have hi : ∀ m, m &&& ALL_FLAGS = m → w.pack &&& m = (w.flags * 4096) &&& m := by
    intro m hm
    rw [← mask_flags w h, Nat.land_assoc, Nat.land_comm ALL_FLAGS m, hm]
  rw [hi INIT_COMPLETED (by decide), hi INIT_STARTED (by decide), hi TOP (by decide), hi COMMITTED (by decide)]
  obtain ⟨_, a, b, c, d⟩ := w
  simp only at ho
  cases a <;> cases b <;> cases c <;> cases d <;>
    first
      | (exfalso; exact absurd (ho rfl) (by decide))
      | (simp only [Word.flags]; decide)

end Tycho.Cert
