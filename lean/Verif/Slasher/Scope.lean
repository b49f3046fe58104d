import Verif.Slasher.Model
import Mathlib.Data.List.Induction
import Mathlib.Data.List.Nodup
/-!
C156: the scope of a block's validation tells its listener once.
-/
namespace Tycho.Slasher

/-- A call that brings a signature. -/
def Call.isReceive : Call → Bool
  | .receive _ _ => true
  | _ => false

theorem sealed_stays (s : Scope) (h : s.sealed = true) : ∀ l : List Call, (l.foldl Scope.step s).told = s.told ∧ (l.foldl Scope.step s).sealed = true := by
  intro l
  induction l using List.reverseRecOn with
  | nil => exact ⟨rfl, h⟩
  | append_singleton l c ih =>
    rw [List.foldl_append, List.foldl_cons, List.foldl_nil]
    generalize l.foldl Scope.step s = t at ih
    cases c with
    | receive v ok =>
      simp only [Scope.step]
      split
      · exact ih
      · split
        · exact ih
        · exact ih
    | commit => simp only [Scope.step, ih.2, if_true]; exact ⟨ih.1, trivial⟩
    | discard => simp only [Scope.step, ih.2, if_true]; exact ⟨ih.1, trivial⟩

/-- The slots after signatures were received. -/
theorem received (ids : List Nat) (hd : ids.Nodup) : ∀ l : List Call, (∀ c ∈ l, c.isReceive = true) →
    ((l.foldl Scope.step (.begin ids)).ids = ids ∧ (l.foldl Scope.step (.begin ids)).sealed = false ∧ (l.foldl Scope.step (.begin ids)).told = [] ∧
      (l.foldl Scope.step (.begin ids)).slots = ids.map (fun v => ⟨decide (Call.receive v true ∈ l), decide (Call.receive v false ∈ l)⟩)) := by
  intro l
  induction l using List.reverseRecOn with
  | nil => intro _; simp [Scope.begin]
  | append_singleton l c ih =>
    intro h
    obtain ⟨h1, h2, h3, h4⟩ := ih (fun c hc => h c (by simp [hc]))
    rw [List.foldl_append, List.foldl_cons, List.foldl_nil]
    generalize l.foldl Scope.step (.begin ids) = s at *
    cases c with
    | commit => exact absurd (h .commit (by simp)) (by simp [Call.isReceive])
    | discard => exact absurd (h .discard (by simp)) (by simp [Call.isReceive])
    | receive v ok =>
      simp only [Scope.step]
      cases hk : s.ids.idxOf? v with
      | none =>
        simp only
        refine ⟨h1, h2, h3, ?_⟩
        rw [h4]
        apply List.map_congr_left
        intro x hx
        have hne : x ≠ v := by
          rintro rfl
          rw [List.idxOf?_eq_none_iff, h1] at hk
          exact hk hx
        simp [hne]
      | some k =>
        simp only
        have hk2 : s.ids[k]? = some v := by
          rw [List.idxOf?_eq_some_iff] at hk
          obtain ⟨hlt, he, _⟩ := hk
          rw [List.getElem?_eq_getElem hlt]
          simpa using he
        rw [h1] at hk2
        have hsl : s.slots[k]? = some ⟨decide (Call.receive v true ∈ l), decide (Call.receive v false ∈ l)⟩ := by
          rw [h4, List.getElem?_map, hk2]; rfl
        rw [hsl]
        simp only
        refine ⟨h1, h2, h3, ?_⟩
        apply List.ext_getElem?
        intro j
        rw [List.getElem?_set, h4, List.getElem?_map, List.length_map]
        by_cases hj : k = j
        · subst hj
          have hlt : k < ids.length := (List.getElem?_eq_some_iff.1 hk2).1
          rw [if_pos rfl, if_pos hlt, List.getElem?_map, hk2]
          cases ok <;> simp
        · rw [if_neg hj, List.getElem?_map]
          cases hx : ids[j]? with
          | none => rfl
          | some x =>
            have hne : x ≠ v := by
              rintro rfl
              obtain ⟨a1, a2⟩ := List.getElem?_eq_some_iff.1 hx
              obtain ⟨b1, b2⟩ := List.getElem?_eq_some_iff.1 hk2
              exact hj ((hd.getElem_inj_iff).1 (b2.trans a2.symm))
            simp [hne]

/-- C156: the listener of a block is told once: of the signatures received before the commit, valid or invalid for each validator of the session,
or, if the scope was discarded or dropped before a commit, that the block was skipped. -/
theorem told_once (ids : List Nat) (hd : ids.Nodup) (l : List Call) : (Scope.run ids l).told =
    [if (l.dropWhile Call.isReceive).head? = some .commit
      then some (ids.map (fun v => ⟨decide (Call.receive v true ∈ l.takeWhile Call.isReceive), decide (Call.receive v false ∈ l.takeWhile Call.isReceive)⟩))
      else none] := by
  have hl : l = l.takeWhile Call.isReceive ++ l.dropWhile Call.isReceive := List.takeWhile_append_dropWhile.symm
  have hall : ∀ c ∈ l.takeWhile Call.isReceive, c.isReceive = true := fun c hc => List.all_eq_true.1 (List.all_takeWhile (p := Call.isReceive) (l := l)) c hc
  have hhead : ∀ c, (l.dropWhile Call.isReceive).head? = some c → c.isReceive = false := by
    intro c hc
    have := List.head?_dropWhile_not Call.isReceive l
    rw [hc] at this
    simpa using this
  unfold Scope.run
  rw [hl, List.append_assoc, List.foldl_append, ← hl]
  generalize l.takeWhile Call.isReceive = p at *
  generalize l.dropWhile Call.isReceive = d at *
  obtain ⟨h1, h2, h3, h4⟩ := received ids hd p hall
  generalize p.foldl Scope.step (.begin ids) = s at *
  have hc : ∀ r : List Call, (r.foldl Scope.step (s.step .commit)).told = [some s.slots] := by
    intro r
    have : s.step .commit = { s with sealed := true, told := [some s.slots] } := by simp [Scope.step, h2, h3]
    rw [this]
    exact (sealed_stays _ rfl r).1
  have hdd : ∀ r : List Call, (r.foldl Scope.step (s.step .discard)).told = [none] := by
    intro r
    have : s.step .discard = { s with sealed := true, told := [none] } := by simp [Scope.step, h2, h3]
    rw [this]
    exact (sealed_stays _ rfl r).1
  cases d with
  | nil =>
    rw [List.nil_append, List.foldl_cons, hdd]
    simp
  | cons c d =>
    rw [List.cons_append, List.foldl_cons]
    have := hhead c rfl
    cases c with
    | receive v ok => simp [Call.isReceive] at this
    | commit => rw [hc, h4]; simp
    | discard => rw [hdd]; simp

end Tycho.Slasher
