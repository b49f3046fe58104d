import Mathlib.Data.Real.Sqrt
import Mathlib.Tactic.Positivity
import Mathlib.Tactic.FieldSimp
import Mathlib.Tactic.Linarith
/-!
The comparison of rates of the analyzer (`slasher/src/analyzer.rs:136-159, 222-243`) with real numbers instead of floating point.
-/
namespace Tycho.Slasher

/-- `wilson_upper_bound`, analyzer.rs:222-243, over the reals. -/
noncomputable def wilson (hits samples : Nat) (z : ℝ) : ℝ :=
  if samples = 0 then 1
  else
    let n : ℝ := samples
    let p : ℝ := (min hits samples : Nat) / n
    max 0 (min 1 ((p + z * z / (2 * n) + z * Real.sqrt (p * (1 - p) / n + z * z / (4 * n * n))) / (1 + z * z / n)))

/-- The bound is not below the rate itself. -/
theorem wilson_ge (hits samples : Nat) (z : ℝ) (hz : 0 ≤ z) (hs : 0 < samples) (hh : hits ≤ samples) :
    (hits : ℝ) / samples ≤ wilson hits samples z := by
  have hn : (0 : ℝ) < samples := by exact_mod_cast hs
  have hp0 : (0 : ℝ) ≤ hits / samples := by positivity
  have hp1 : (hits : ℝ) / samples ≤ 1 := by
    rw [div_le_one hn]; exact_mod_cast hh
  unfold wilson
  rw [if_neg (by omega)]
  simp only [Nat.min_eq_left hh]
  generalize (hits : ℝ) / samples = p at hp0 hp1
  generalize (samples : ℝ) = n at hn
  refine le_trans ?_ (le_max_right _ _)
  refine le_min hp1 ?_
  have hz2 : 0 ≤ z * z / n := by positivity
  rw [le_div_iff₀ (by linarith)]
  have hsq : z / (2 * n) ≤ Real.sqrt (p * (1 - p) / n + z * z / (4 * n * n)) := by
    apply Real.le_sqrt_of_sq_le
    have h1 : (z / (2 * n)) ^ 2 = z * z / (4 * n * n) := by field_simp; ring
    have h2 : 0 ≤ p * (1 - p) / n := by
      apply div_nonneg _ hn.le
      apply mul_nonneg hp0; linarith
    linarith
  have h3 : z * (z / (2 * n)) ≤ z * Real.sqrt (p * (1 - p) / n + z * z / (4 * n * n)) := mul_le_mul_of_nonneg_left hsq hz
  have h4 : z * (z / (2 * n)) = z * z / (2 * n) := by ring
  have h5 : z * z / (2 * n) + z * z / (2 * n) = z * z / n := by field_simp; ring
  have h6 : p * (z * z / n) ≤ z * z / n := by
    have := mul_le_mul_of_nonneg_right hp1 hz2
    linarith
  nlinarith

/-- The bound of a node that signed nothing. -/
theorem wilson_zero (samples : Nat) (z : ℝ) (hz : 0 ≤ z) (hs : 0 < samples) :
    wilson 0 samples z = z * z / (samples + z * z) := by
  have hn : (0 : ℝ) < samples := by exact_mod_cast hs
  unfold wilson
  rw [if_neg (by omega)]
  simp only [Nat.zero_min, Nat.cast_zero, zero_div, zero_mul, zero_add]
  generalize (samples : ℝ) = n at hn
  have h1 : Real.sqrt (z * z / (4 * n * n)) = z / (2 * n) := by
    rw [show z * z / (4 * n * n) = (z / (2 * n)) ^ 2 by field_simp; ring]
    exact Real.sqrt_sq (by positivity)
  rw [h1]
  have h2 : (z * z / (2 * n) + z * (z / (2 * n))) / (1 + z * z / n) = z * z / (n + z * z) := by field_simp; ring
  rw [h2]
  have h3 : z * z / (n + z * z) ≤ 1 := by
    rw [div_le_one (by positivity)]; linarith
  have h4 : 0 ≤ z * z / (n + z * z) := by positivity
  rw [min_eq_right h3, max_eq_right h4]

/-- The bound is a rate. -/
theorem wilson_unit (hits samples : Nat) (z : ℝ) : 0 ≤ wilson hits samples z ∧ wilson hits samples z ≤ 1 := by
  unfold wilson
  split
  · constructor <;> norm_num
  · exact ⟨le_max_left _ _, max_le (by norm_num) (min_le_left _ _)⟩

/-- The median as the analyzer takes it, analyzer.rs:136-148: the middle of the valid signatures of the others in order. -/
def middle (others : List Nat) : Nat := (others.mergeSort).getD (others.length / 2) 0

/-- The comparison, analyzer.rs:148-160, over the reals. -/
noncomputable def slowReal (factor z : ℝ) (hits samples : Nat) (others : List Nat) : Bool :=
  open Classical in decide (wilson hits samples z ≤ (middle others : ℝ) / samples * factor)

/-- A node that signs more than `factor` of what the middle node does is not slow. -/
theorem fast_not_slow (factor z : ℝ) (hz : 0 ≤ z) (hits samples : Nat) (others : List Nat) (hs : 0 < samples) (hh : hits ≤ samples)
    (hf : (middle others : ℝ) * factor < hits) : slowReal factor z hits samples others = false := by
  unfold slowReal
  apply decide_eq_false
  have hn : (0 : ℝ) < samples := by exact_mod_cast hs
  have h1 := wilson_ge hits samples z hz hs hh
  have h2 : (middle others : ℝ) / samples * factor < hits / samples := by
    rw [div_mul_eq_mul_div, div_lt_div_iff_of_pos_right hn]; exact hf
  intro h
  linarith

/-- The middle node and those above it are never slow, if `factor` is less than one and it signs anything. -/
theorem upper_half_not_slow (factor z : ℝ) (hz : 0 ≤ z) (hfac : factor < 1) (hits samples : Nat) (others : List Nat) (hs : 0 < samples)
    (hh : hits ≤ samples) (hm : middle others ≤ hits) (hpos : 0 < middle others) : slowReal factor z hits samples others = false := by
  apply fast_not_slow factor z hz hits samples others hs hh
  have h1 : (0 : ℝ) < middle others := by exact_mod_cast hpos
  have h2 : (middle others : ℝ) ≤ hits := by exact_mod_cast hm
  nlinarith

/-- A node that signed nothing is slow, when there were enough samples for the rate of the middle node. -/
theorem silent_is_slow (factor z : ℝ) (hz : 0 ≤ z) (samples : Nat) (others : List Nat) (hs : 0 < samples)
    (hf : z * z / (samples + z * z) ≤ (middle others : ℝ) / samples * factor) : slowReal factor z 0 samples others = true := by
  unfold slowReal
  apply decide_eq_true
  rw [wilson_zero samples z hz hs]
  exact hf

/-- With the constants of the code: a node that signed none of 100 blocks is slow if the middle node signed 8. -/
example (others : List Nat) (h : 8 ≤ middle others) : slowReal 0.5 1.96 0 100 others = true := by
  apply silent_is_slow _ _ (by norm_num) _ _ (by norm_num)
  have : (8 : ℝ) ≤ middle others := by exact_mod_cast h
  norm_num
  linarith

/-- And one that signed 50 of 100 is not if the middle node signed 99. -/
example (others : List Nat) (h : middle others = 99) : slowReal 0.5 1.96 50 100 others = false := by
  apply fast_not_slow _ _ (by norm_num) _ _ _ (by norm_num) (by norm_num)
  rw [h]; norm_num

end Tycho.Slasher
