import Verif.MsgBuffer.Spec
import Mathlib.Data.List.Perm.Basic
import Mathlib.Tactic.ByContra

/-! ## Lists of accounts and single accounts -/
namespace Tycho.MsgBuffer

open Tycho.Table

abbrev keep (f : Filter) : Msg → Bool := fun m => !f.skips m

theorem keys_setMsgs (l : List (Acc × List Msg)) (a : Acc) (v : List Msg) : (setMsgs l a v).map (·.1) = l.map (·.1) := by
  unfold setMsgs
  rw [List.map_map]
  apply List.map_congr_left
  intro e _
  simp only [Function.comp]
  split
  · rename_i h; exact h.symm
  · rfl

theorem get_setMsgs (l : List (Acc × List Msg)) (a x : Acc) (v : List Msg) :
    get (setMsgs l a v) x = if x = a then (get l a).map (fun _ => v) else get l x := by
  induction l with
  | nil => simp [setMsgs, Table.get]
  | cons e l ih =>
    unfold setMsgs at *
    rw [List.map_cons]
    by_cases he : e.1 = a
    · rw [if_pos he]
      by_cases hx : x = a
      · subst hx
        simp [Table.get, he]
      · simp only [Table.get]
        rw [if_neg (fun h => hx h.symm), ih, if_neg hx, if_neg hx, if_neg (fun h => hx (h.symm.trans he))]
    · rw [if_neg he]
      by_cases hx : e.1 = x
      · subst hx
        simp [Table.get, he]
      · simp only [Table.get, if_neg hx, if_neg he]
        rw [ih]

theorem msgsOf_setMsgs (l : List (Acc × List Msg)) (a x : Acc) (v l0 : List Msg) (h : get l a = some l0) :
    msgsOf (setMsgs l a v) x = if x = a then v else msgsOf l x := by
  unfold msgsOf
  rw [get_setMsgs]
  split
  · rw [h]; rfl
  · rfl

/-- Counting over all messages when one account changes. -/
theorem countP_setMsgs (P : Msg → Bool) {l : List (Acc × List Msg)} (hu : Uniq l) {a : Acc} {l0 : List Msg} (h : get l a = some l0) (v : List Msg) :
    (allMsgs (setMsgs l a v)).countP P + l0.countP P = (allMsgs l).countP P + v.countP P := by
  induction l with
  | nil => simp [Table.get] at h
  | cons e l ih =>
    have hu' : Uniq l := (List.nodup_cons.1 hu).2
    have hne : e.1 ∉ l.map (·.1) := (List.nodup_cons.1 hu).1
    by_cases he : e.1 = a
    · have hl0 : e.2 = l0 := by simpa [Table.get, he] using h
      have hsame : setMsgs l a v = l := by
        unfold setMsgs
        conv_rhs => rw [← List.map_id l]
        apply List.map_congr_left
        intro x hx
        rw [if_neg]
        · rfl
        · intro hxa; apply hne; rw [he, ← hxa]; exact List.mem_map_of_mem hx
      have : setMsgs (e :: l) a v = (a, v) :: l := by
        have h2 : setMsgs (e :: l) a v = (if e.1 = a then (a, v) else e) :: setMsgs l a v := rfl
        rw [h2, hsame, if_pos he]
      rw [this]
      simp only [allMsgs, List.flatMap_cons, List.countP_append, hl0]
      omega
    · have h' : get l a = some l0 := by simpa [Table.get, he] using h
      have h2 : setMsgs (e :: l) a v = e :: setMsgs l a v := by
        show (if e.1 = a then (a, v) else e) :: setMsgs l a v = _
        rw [if_neg he]
      have := ih hu' h'
      rw [h2]
      simp only [allMsgs, List.flatMap_cons, List.countP_append] at this ⊢
      omega

theorem countP_le_all (P : Msg → Bool) {l : List (Acc × List Msg)} {a : Acc} {l0 : List Msg} (h : get l a = some l0) :
    l0.countP P ≤ (allMsgs l).countP P := by
  have hm := mem_of_get _ _ _ h
  obtain ⟨s, t, rfl⟩ := List.append_of_mem hm
  simp [allMsgs, List.countP_append]
  omega

theorem int_ext_length (l : List Msg) : l.countP Msg.isInt + l.countP Msg.isExt = l.length := by
  rw [List.length_eq_countP_add_countP Msg.isInt]
  congr 2
  funext m
  cases h : m.isInt <;> simp [Msg.isExt, h]

theorem skips_ext {f : Filter} {m : Msg} (h : f.skips m = true) : m.isExt = true := by
  unfold Filter.skips at h
  unfold Msg.isExt Msg.isInt
  split at h
  · rename_i hk; rw [hk]; rfl
  · cases h

/-! ### Taking messages -/

theorem takeMsgs_spec (f : Filter) (n : Nat) (l : List Msg) : ∃ p, l = p ++ (takeMsgs f n l).2.1 ∧
    (takeMsgs f n l).1 = p.filter (keep f) ∧ (takeMsgs f n l).2.2 = p.countP f.skips ∧
    (takeMsgs f n l).1.length ≤ n ∧ ((takeMsgs f n l).1.length < n → (takeMsgs f n l).2.1 = []) := by
  induction l generalizing n with
  | nil => cases n <;> exact ⟨[], by simp [takeMsgs]⟩
  | cons m l ih =>
    cases n with
    | zero => exact ⟨[], by simp [takeMsgs]⟩
    | succ n =>
      by_cases hs : f.skips m = true
      · obtain ⟨p, h1, h2, h3, h4, h5⟩ := ih (n + 1)
        refine ⟨m :: p, ?_⟩
        unfold takeMsgs
        rw [if_pos hs]
        simp only
        refine ⟨by rw [List.cons_append, ← h1], ?_, ?_, h4, h5⟩
        · rw [h2, List.filter_cons_of_neg]; simp [keep, hs]
        · rw [h3, List.countP_cons_of_pos hs]
      · obtain ⟨p, h1, h2, h3, h4, h5⟩ := ih n
        refine ⟨m :: p, ?_⟩
        unfold takeMsgs
        rw [if_neg hs]
        simp only
        refine ⟨by rw [List.cons_append, ← h1], ?_, ?_, ?_, ?_⟩
        · rw [h2, List.filter_cons_of_pos]; simpa [keep] using hs
        · rw [h3, List.countP_cons_of_neg hs]
        · simp only [List.length_cons]; omega
        · intro hlt; apply h5; simp only [List.length_cons] at hlt; omega

/-! ### One account -/

theorem Moved.refl (f : Filter) (g b : List Msg) : Moved f g b g b := ⟨[], b, by simp, by simp, Or.inl rfl⟩

theorem Moved.trans {f : Filter} {g b g1 b1 g2 b2 : List Msg} (h1 : Moved f g b g1 b1) (h2 : Moved f g1 b1 g2 b2) : Moved f g b g2 b2 := by
  obtain ⟨p, r, rfl, rfl, hb⟩ := h1
  obtain ⟨p', r', hb', rfl, hb2⟩ := h2
  rcases hb with rfl | rfl
  · subst hb'
    exact ⟨p ++ p', r', by simp, by simp, hb2⟩
  · obtain ⟨q, s, rfl, rfl, rfl⟩ := List.filter_eq_append_iff.1 hb'
    refine ⟨p ++ q, s, by simp, by simp, Or.inr ?_⟩
    rcases hb2 with h | h
    · exact h
    · rw [h, List.filter_filter]; simp

theorem Moved.prefix {f : Filter} {g b g' b' : List Msg} (h : Moved f g b g' b') : ∃ t, g' = g ++ t := by
  obtain ⟨p, r, _, rfl, _⟩ := h
  exact ⟨_, rfl⟩

theorem Moved.nil {f : Filter} {g g' b' : List Msg} (h : Moved f g [] g' b') : g' = g ∧ b' = [] := by
  obtain ⟨p, r, hb, rfl, h⟩ := h
  obtain ⟨rfl, rfl⟩ := List.append_eq_nil_iff.1 hb.symm
  simpa using h

end Tycho.MsgBuffer
