import Verif.Verifier.Spec
import Mathlib.Tactic.ByContra

/-! Facts about the model that the property proofs use. -/
namespace Tycho.Verifier

open Tycho.PeerCount

/-! ### maps -/

theorem PMap.get?_mem {m : PMap} {k v : Nat} (h : m.get? k = some v) : (k, v) ∈ m := by
  unfold PMap.get? at h
  rw [Option.map_eq_some_iff] at h
  obtain ⟨e, he, rfl⟩ := h
  have h1 := List.find?_some he
  have h2 := List.mem_of_find?_eq_some he
  simp at h1
  subst h1
  exact h2

theorem PMap.get?_of_mem {m : PMap} (hu : m.Uniq) {k v : Nat} (h : (k, v) ∈ m) : m.get? k = some v := by
  induction m with
  | nil => simp at h
  | cons e m ih =>
    unfold PMap.Uniq at *
    simp only [List.map_cons, List.nodup_cons, List.mem_map, not_exists, not_and] at hu
    unfold PMap.get? at *
    rw [List.find?_cons]
    by_cases he : e.1 = k
    · simp only [he, decide_true]
      rcases List.mem_cons.mp h with rfl | h
      · rfl
      · exact absurd he.symm (hu.1 _ h)
    · simp only [he, decide_false]
      rcases List.mem_cons.mp h with rfl | h
      · exact absurd rfl he
      · exact ih hu.2 h

theorem PMap.has_iff {m : PMap} {k : Nat} : m.has k = true ↔ ∃ v, (k, v) ∈ m := by
  unfold PMap.has
  simp only [List.any_eq_true, decide_eq_true_eq]
  constructor
  · rintro ⟨e, he, rfl⟩
    exact ⟨e.2, he⟩
  · rintro ⟨v, h⟩
    exact ⟨_, h, rfl⟩

theorem PMap.has_iff_get? {m : PMap} {k : Nat} : m.has k = true ↔ (m.get? k).isSome := by
  rw [PMap.has_iff]
  constructor
  · rintro ⟨v, hv⟩
    unfold PMap.get?
    simp only [Option.isSome_map, List.find?_isSome, decide_eq_true_eq]
    exact ⟨_, hv, rfl⟩
  · intro h
    obtain ⟨v, hv⟩ := Option.isSome_iff_exists.mp h
    exact ⟨v, PMap.get?_mem hv⟩

/-! ### reasons -/

theorem fire_eq_none {c : Bool} {r : Reason} : fire c r = none ↔ c = false := by
  unfold fire; cases c <;> simp

theorem lastOf_eq_none {inv : Option Reason} {l : List (Option Reason)} :
    lastOf inv l = none ↔ inv = none ∧ ∀ c ∈ l, c = none := by
  unfold lastOf
  induction l generalizing inv with
  | nil => simp
  | cons c l ih =>
    rw [List.foldl_cons, ih]
    cases c <;> cases inv <;> simp

/-! ### the loop of `check_valid` -/

/-- What `check_valid` demands of one item for the item not to set `invalid_reason`. -/
def itemOk (conf : Conf) (p : Info) (P : Prep) (item : Option DagPoint) : Prop := match item with
  | none => False
  | some dp =>
    if (dp.id.round = p.round - 1 ∧ dp.id.author = p.author) ∧ p.prevDigest ≠ some dp.id.digest then
      otherVersion p.prevDigest dp = none
    else ∃ dep, dp.info? = some dep ∧
      ∀ c ∈ directChecks conf p P (decide (dp.id.round = p.round - 1 ∧ dp.id.author = p.author)) dep, c = none

theorem dependency_ok {old dp th pr conf dep latest} (h : dependency old dp th pr conf = .ok (dep, latest)) :
    dp.info? = some dep := by
  unfold dependency at h
  cases dp <;> simp only [DagPoint.info?] at h ⊢
  · simp at h; simp [h]
  · split at h
    · simp at h; simp [h]
    · split at h <;> · simp at h; simp [h]
  · split at h <;> · simp at h; simp [h]
  · simp at h
  · simp at h

theorem dependency_err {old dp th pr conf r} (h : dependency old dp th pr conf = .error r) : dp.info? = none := by
  unfold dependency at h
  cases dp <;> simp only [DagPoint.info?] at h ⊢
  · simp at h
  · split at h
    · simp at h
    · split at h <;> simp at h
  · split at h <;> simp at h

theorem dependency_isOk (old dp th pr conf) (dep) (h : dp.info? = some dep) :
    ∃ latest, dependency old dp th pr conf = .ok (dep, latest) := by
  cases hd : dependency old dp th pr conf with
  | error r => rw [dependency_err hd] at h; simp at h
  | ok x =>
    obtain ⟨d, latest⟩ := x
    have := dependency_ok hd
    rw [h] at this
    injection this with this
    exact ⟨latest, by rw [this]⟩

theorem directStep_inv_none {conf p P st item} (hs : st.stop = false) :
    (directStep conf p P st item).inv = none ↔ st.inv = none ∧ itemOk conf p P item := by
  unfold directStep itemOk
  rw [hs]
  simp only [Bool.false_eq_true, if_false]
  cases item with
  | none => cases st.inv <;> simp
  | some dp =>
    simp only []
    split
    · rename_i h
      rw [lastOf_eq_none]
      simp
    · rename_i h
      split
      · rename_i r hr
        have := dependency_err hr
        simp [this]
      · rename_i dep latest hr
        have := dependency_ok hr
        rw [lastOf_eq_none]
        simp [this]

theorem directStep_stop {conf p P st item} (hs : st.stop = false) (h : (directStep conf p P st item).stop = true) :
    item = none := by
  unfold directStep at h
  rw [hs] at h
  simp only [Bool.false_eq_true, if_false] at h
  cases item with
  | none => rfl
  | some dp =>
    simp only [] at h
    split at h
    · simp [hs] at h
    · split at h <;> simp [hs] at h

theorem directStep_of_stop {conf p P st item} (hs : st.stop = true) : directStep conf p P st item = st := by
  unfold directStep; simp [hs]

theorem foldl_directStep_inv {conf p P} (order : List (Option DagPoint)) (st : St) (hst : st.stop = true → st.inv ≠ none) :
    (order.foldl (directStep conf p P) st).inv = none ↔
      st.inv = none ∧ ∀ item ∈ order, itemOk conf p P item := by
  induction order generalizing st with
  | nil => simp
  | cons item order ih =>
    rw [List.foldl_cons]
    by_cases hs : st.stop = true
    · rw [directStep_of_stop hs, ih _ hst]
      simp [hst hs]
    · have hs : st.stop = false := by simpa using hs
      have hstop : (directStep conf p P st item).stop = true → (directStep conf p P st item).inv ≠ none := by
        intro h hn
        rw [directStep_inv_none hs] at hn
        rw [directStep_stop hs h] at hn
        exact hn.2
      rw [ih _ hstop, directStep_inv_none hs]
      simp only [List.mem_cons, forall_eq_or_imp, and_assoc]

/-- The verdict of `check_valid` on the point itself does not depend on anything but the set of items. -/
theorem checkValid_inv {conf p P} (order : List (Option DagPoint)) :
    (checkValid conf p P order).inv = none ↔ ∀ item ∈ order, itemOk conf p P item := by
  unfold checkValid
  rw [foldl_directStep_inv _ _ (by simp)]
  simp

/-! ### the loop of `check_indirect_links` -/

/-- What `check_indirect_links` demands of one item. -/
def itemOkI (conf : Conf) (p : Info) (bound : Option PointId) (item : Option (DagPoint × Through)) : Prop :=
  match item with
  | none => True
  | some (dp, _) => ∃ dep, dp.info? = some dep ∧ ∀ c ∈ indirectChecks conf p bound dep, c = none

theorem indirectStep_inv_none {conf p b st item} :
    (indirectStep conf p b st item).inv = none ↔ st.inv = none ∧ itemOkI conf p b item := by
  unfold indirectStep itemOkI
  cases item with
  | none => simp
  | some x =>
    obtain ⟨dp, th⟩ := x
    simp only []
    split
    · rename_i r hr
      simp [dependency_err hr]
    · rename_i dep latest hr
      rw [lastOf_eq_none]
      simp [dependency_ok hr]

theorem checkIndirect_inv {conf p b latest} (order : List (Option (DagPoint × Through))) :
    (checkIndirect conf p b latest order).inv = none ↔ ∀ item ∈ order, itemOkI conf p b item := by
  unfold checkIndirect
  suffices h : ∀ st : St, (order.foldl (indirectStep conf p b) st).inv = none ↔
      st.inv = none ∧ ∀ item ∈ order, itemOkI conf p b item by
    rw [h]; simp
  induction order with
  | nil => simp
  | cons item order ih =>
    intro st
    rw [List.foldl_cons, ih, indirectStep_inv_none]
    simp only [List.mem_cons, forall_eq_or_imp, and_assoc]

end Tycho.Verifier
