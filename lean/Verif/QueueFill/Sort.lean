import Verif.QueueFill.Model

/-! The order of hashes. -/
namespace Tycho.QueueFill

theorem hashLe_trans (a b c : List Nat) (h : hashLe a b = true) (h' : hashLe b c = true) : hashLe a c = true := by
  simp only [hashLe, Bool.not_eq_true', decide_eq_false_iff_not] at *
  exact List.not_lt.2 (List.le_trans (List.not_lt.1 h) (List.not_lt.1 h'))

theorem hashLe_total (a b : List Nat) : (hashLe a b || hashLe b a) = true := by
  simp only [hashLe, Bool.or_eq_true, Bool.not_eq_true', decide_eq_false_iff_not]
  rcases List.le_total a b with h | h
  · exact .inl (List.not_lt.2 h)
  · exact .inr (List.not_lt.2 h)

theorem hashLe_lt (a b : List Nat) (h : hashLe a b = true) (hne : a ≠ b) : decide (a < b) = true := by
  simp only [hashLe, Bool.not_eq_true', decide_eq_false_iff_not] at h
  simp only [decide_eq_true_eq]
  by_cases hlt : a < b
  · exact hlt
  · exact absurd (List.le_antisymm (List.not_lt.1 h) (List.not_lt.1 hlt)) hne

end Tycho.QueueFill
