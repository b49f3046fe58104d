import Verif.StateFile.File
import Mathlib.Tactic.ByContra
/-! What an accepted file stores. -/
namespace Tycho.StateFile
open Tycho.Bytes Tycho.Codec Tycho.Table

theorem rdMany_length {α : Type} {dec : Rd α} : ∀ (a : Nat) (s r1 : List Nat) (xs : List α), rdMany dec a s = some (xs, r1) → xs.length = a := by
  intro a
  induction a with
  | zero => intro s r1 xs h1; cases h1; rfl
  | succ a ih =>
    intro s r1 xs h1
    unfold rdMany at h1
    obtain ⟨x, t, h3, h4⟩ := Rd.bind_some.1 h1
    obtain ⟨xs', t', h5, h6⟩ := Rd.bind_some.1 h4
    cases h6
    simp [ih _ _ _ h5]

theorem parseCell_some {refSize count index : Nat} {bytes : List Nat} {b : Body} {refs : List Nat}
    (h : parseCell refSize count index bytes = some (b, refs)) : Fits b refs.length ∧ ∀ r ∈ refs, index < r ∧ r < count := by
  unfold parseCell at h
  simp only [Option.map_eq_some_iff] at h
  obtain ⟨⟨⟨b', refs'⟩, rest⟩, h1, h2⟩ := h
  injection h2 with h2 h3
  subst h2 h3
  obtain ⟨d, t, h3, h4⟩ := Rd.bind_some.1 h1
  rw [Rd.ite_run] at h4
  split at h4
  · rw [Rd.fail_run] at h4; cases h4
  · obtain ⟨data, t2, h5, h6⟩ := Rd.bind_some.1 h4
    obtain ⟨refs2, t3, h7, h8⟩ := Rd.bind_some.1 h6
    rw [Rd.ite_run] at h8
    split at h8
    · next hc =>
      rw [Rd.pure_run] at h8
      cases h8
      refine ⟨⟨(rdBytes_some h5).2, rdMany_length _ _ _ _ h7⟩, ?_⟩
      intro r hr
      have := List.all_eq_true.1 hc r hr
      simp only [Bool.and_eq_true, decide_eq_true_eq] at this
      exact this
    · rw [Rd.fail_run] at h8; cases h8

theorem childEntries_some {E : Type} {t : Table Nat E} {refs : List Nat} {es : List E} (h : childEntries t refs = some es) :
    List.Forall₂ (fun r e => get t r = some e) refs es := by
  induction refs generalizing es with
  | nil => cases h; exact .nil
  | cons r refs ih =>
    unfold childEntries at h
    split at h
    · next e es' h1 h2 => cases h; exact .cons h1 (ih h2)
    · cases h

theorem childEntries_of {E : Type} {t : Table Nat E} {refs : List Nat} {es : List E} (h : List.Forall₂ (fun r e => get t r = some e) refs es) :
    childEntries t refs = some es := by
  induction h with
  | nil => rfl
  | cons h1 _ ih => rw [childEntries, h1, ih]

variable {H : Hasher}

/-- A cell of the file: index, content, entries of the children, entry. -/
def IsCell (refSize : Nat) (cs : List (List Nat)) (s : FSt H) (i : Nat) (b : Body) (es : List H.Entry) (e : H.Entry) : Prop :=
  get s.entries i = some e ∧ H.build b es = some e ∧ ∃ bytes refs, cs[i]? = some bytes ∧ parseCell refSize cs.length i bytes = some (b, refs) ∧
    List.Forall₂ (fun r c => get s.entries r = some c) refs es

theorem IsCell.fits {refSize : Nat} {cs : List (List Nat)} {s : FSt H} {i : Nat} {b : Body} {es : List H.Entry} {e : H.Entry}
    (h : IsCell refSize cs s i b es e) : Fits b es.length := by
  obtain ⟨_, _, bytes, refs, _, h4, h5⟩ := h
  rw [← h5.length_eq]
  exact (parseCell_some h4).1

theorem IsCell.child {refSize : Nat} {cs : List (List Nat)} {s : FSt H} {i : Nat} {b : Body} {es : List H.Entry} {e : H.Entry}
    (h : IsCell refSize cs s i b es e) : ∀ c ∈ es, ∃ j, i < j ∧ get s.entries j = some c := by
  obtain ⟨_, _, bytes, refs, _, h4, h5⟩ := h
  intro c hcm
  obtain ⟨k, hk, hke⟩ := List.getElem_of_mem hcm
  have hk' : k < refs.length := by rw [h5.length_eq]; exact hk
  have h6 := (List.forall₂_iff_get.1 h5).2 k hk' hk
  simp only [List.get_eq_getElem] at h6
  rw [hke] at h6
  exact ⟨refs[k], ((parseCell_some h4).2 _ (List.getElem_mem hk')).1, h6⟩

/-- A cell with this hash is used by a cell before all cells with this hash. -/
def Used (refSize : Nat) (cs : List (List Nat)) (s : FSt H) (h : Nat) : Prop :=
  ∃ j b es e, IsCell refSize cs s j b es e ∧ h ∈ es.map H.repr ∧ ∀ i e', get s.entries i = some e' → H.repr e' = h → j < i

structure FInv (refSize : Nat) (cs : List (List Nat)) (s : FSt H) : Prop where
  cells : ∀ i e, get s.entries i = some e → s.index ≤ i ∧ i < cs.length ∧ ∃ b es, IsCell refSize cs s i b es e
  all : ∀ i, s.index ≤ i → i < cs.length → (get s.entries i).isSome
  rows : ∀ h row, get s.rows h = some row → ∃ i b es e, IsCell refSize cs s i b es e ∧ H.repr e = h ∧ row = rowBytes H b e (es.map H.repr)
  row : ∀ i e, get s.entries i = some e → (get s.rows (H.repr e)).isSome
  use : ∀ i e, get s.entries i = some e → (∃ v : Int, v < 0 ∧ get s.usages (H.repr e) = some v) ∨ Used refSize cs s (H.repr e)
  uniq : Uniq s.usages
  cur : s.cur = get s.entries s.index
  le : s.index ≤ cs.length

theorem get_addUse_foldl (hs : List Nat) (u : Table Nat Int) (h : Nat) (hn : h ∉ hs) : get (hs.foldl addUse u) h = get u h := by
  induction hs generalizing u with
  | nil => rfl
  | cons x hs ih =>
    rw [List.foldl_cons, ih _ (fun hm => hn (List.mem_cons_of_mem _ hm))]
    unfold addUse
    rw [get_put, if_neg (fun he => hn (by rw [he]; exact List.mem_cons_self))]

theorem uniq_addUse_foldl (hs : List Nat) (u : Table Nat Int) (hu : Uniq u) : Uniq (hs.foldl addUse u) := by
  induction hs generalizing u with
  | nil => exact hu
  | cons x hs ih => exact ih _ (uniq_put _ _ _ hu)

theorem finv_cell {refSize : Nat} {cs : List (List Nat)} {s s' : FSt H} {bytes : List Nat} (hi : FInv refSize cs s)
    (hcs : cs[s.index - 1]? = some bytes) (h : finalizeCell H refSize cs.length s bytes = some s') :
    FInv refSize cs s' ∧ s'.index + 1 = s.index := by
  unfold finalizeCell at h
  split at h
  · cases h
  · next h0 =>
    cases hp : parseCell refSize cs.length (s.index - 1) bytes with
    | none => rw [hp] at h; cases h
    | some br =>
      obtain ⟨b, refs⟩ := br
      rw [hp] at h
      simp only [] at h
      cases hc : childEntries s.entries refs with
      | none => rw [hc] at h; cases h
      | some es =>
        rw [hc] at h
        simp only [] at h
        cases hb : H.build b es with
        | none => rw [hb] at h; cases h
        | some e =>
          rw [hb] at h
          simp only [] at h
          injection h with h
          have hfa := childEntries_some hc
          obtain ⟨hfit, hrange⟩ := parseCell_some hp
          have hold : ∀ i e', get s.entries i = some e' → get s'.entries i = some e' := by
            intro i e' hg
            subst h
            have := (hi.cells i e' hg).1
            simp only [get_put]
            rw [if_neg (by omega)]
            exact hg
          have hnew : get s'.entries (s.index - 1) = some e := by subst h; simp [get_put]
          have hcases : ∀ i e', get s'.entries i = some e' → (i = s.index - 1 ∧ e' = e) ∨ get s.entries i = some e' := by
            intro i e' hg
            subst h
            simp only [get_put] at hg
            split at hg
            · next h1 => injection hg with hg; exact Or.inl ⟨h1, hg.symm⟩
            · exact Or.inr hg
          have hlift : ∀ i b' es' e', IsCell refSize cs s i b' es' e' → IsCell refSize cs s' i b' es' e' := by
            intro i b' es' e' ⟨h1, h2, by', rf, h3, h4, h5⟩
            exact ⟨hold i e' h1, h2, by', rf, h3, h4, h5.imp (fun r c hr => hold r c hr)⟩
          have hcell : IsCell refSize cs s' (s.index - 1) b es e := by
            exact ⟨hnew, hb, bytes, refs, hcs, hp, hfa.imp (fun r c hr => hold r c hr)⟩
          have hidx : s'.index = s.index - 1 := by subst h; rfl
          refine ⟨⟨?_, ?_, ?_, ?_, ?_, ?_, ?_, ?_⟩, by omega⟩
          · intro i e' hg
            rcases hcases i e' hg with ⟨h1, h2⟩ | h1
            · subst h1 h2
              have := hi.le
              exact ⟨by omega, by omega, b, es, hcell⟩
            · obtain ⟨h2, h3, b', es', h4⟩ := hi.cells i e' h1
              exact ⟨by omega, h3, b', es', hlift _ _ _ _ h4⟩
          · intro i h1 h2
            rcases Nat.eq_or_lt_of_le (show s.index - 1 ≤ i by omega) with h3 | h3
            · rw [← h3, hnew]; rfl
            · obtain ⟨e', he⟩ := Option.isSome_iff_exists.1 (hi.all i (by omega) h2)
              rw [hold i e' he]; rfl
          · intro h' row hg
            have hg2 : get (put s.rows (H.repr e) (rowBytes H b e (es.map H.repr))) h' = some row := by subst h; exact hg
            rw [get_put] at hg2
            split at hg2
            · next h1 =>
              injection hg2 with hg2
              exact ⟨_, b, es, e, hcell, h1.symm, hg2.symm⟩
            · obtain ⟨i, b', es', e', h1, h2, h3⟩ := hi.rows h' row hg2
              exact ⟨i, b', es', e', hlift _ _ _ _ h1, h2, h3⟩
          · intro i e' hg
            have : get s'.rows (H.repr e') = get (put s.rows (H.repr e) (rowBytes H b e (es.map H.repr))) (H.repr e') := by subst h; rfl
            rw [this, get_put]
            split
            · rfl
            · next hne =>
              rcases hcases i e' hg with ⟨h1, h2⟩ | h1
              · subst h2; exact absurd rfl hne
              · exact hi.row i e' h1
          · intro i e' hg
            have hu : s'.usages = put ((es.map H.repr).foldl addUse s.usages) (H.repr e) (-1) := by subst h; rfl
            by_cases he : H.repr e' = H.repr e
            · left; exact ⟨-1, by decide, by rw [hu, he, get_put, if_pos rfl]⟩
            · rcases hcases i e' hg with ⟨h1, h2⟩ | h1
              · subst h2; exact absurd rfl he
              · by_cases hm : H.repr e' ∈ es.map H.repr
                · right
                  refine ⟨s.index - 1, b, es, e, hcell, hm, ?_⟩
                  intro k ek hk hke
                  rcases hcases k ek hk with ⟨h5, h6⟩ | h5
                  · subst h6; exact absurd hke.symm he
                  · have := (hi.cells k ek h5).1
                    omega
                · rcases hi.use i e' h1 with ⟨v, hv, hg2⟩ | ⟨j, b', es', ej, h2, h3, h4⟩
                  · left
                    refine ⟨v, hv, ?_⟩
                    rw [hu, get_put, if_neg he, get_addUse_foldl _ _ _ hm]
                    exact hg2
                  · right
                    refine ⟨j, b', es', ej, hlift _ _ _ _ h2, h3, ?_⟩
                    intro k ek hk hke
                    rcases hcases k ek hk with ⟨h5, h6⟩ | h5
                    · subst h6; exact absurd hke.symm he
                    · exact h4 k ek h5 hke
          · have hu : s'.usages = put ((es.map H.repr).foldl addUse s.usages) (H.repr e) (-1) := by subst h; rfl
            rw [hu]
            exact uniq_put _ _ _ (uniq_addUse_foldl _ _ hi.uniq)
          · rw [hidx, hnew]; subst h; rfl
          · rw [hidx]; have := hi.le; omega

theorem get_retain (u : Table Nat Int) (hu : Uniq u) (h : Nat) (v : Int) : get (retainUnused u) h = some v ↔ get u h = some v ∧ v < 0 := by
  have hu2 : Uniq (retainUnused u) := by
    unfold Uniq retainUnused at *
    exact List.Nodup.sublist (List.Sublist.map _ List.filter_sublist) hu
  rw [← mem_iff_get _ hu2, ← mem_iff_get _ hu]
  unfold retainUnused
  simp [List.mem_filter]

theorem uniq_retain (u : Table Nat Int) (hu : Uniq u) : Uniq (retainUnused u) := by
  unfold Uniq retainUnused at *
  exact List.Nodup.sublist (List.Sublist.map _ List.filter_sublist) hu

theorem finv_batch {refSize : Nat} {cs : List (List Nat)} {s : FSt H} (hi : FInv refSize cs s) : FInv refSize cs (endBatch H s) := by
  refine ⟨hi.cells, hi.all, hi.rows, hi.row, ?_, uniq_retain _ hi.uniq, hi.cur, hi.le⟩
  intro i e hg
  rcases hi.use i e hg with ⟨v, h1, h2⟩ | h
  · left; exact ⟨v, h1, (get_retain _ hi.uniq _ _).2 ⟨h2, h1⟩⟩
  · exact Or.inr h

theorem finv_cells {refSize : Nat} {cs : List (List Nat)} : ∀ (l : List (List Nat)) (s s' : FSt H) (rest : List (List Nat)), FInv refSize cs s →
    (cs.take s.index).reverse = l ++ rest → finalizeCells H refSize cs.length l s = some s' →
    FInv refSize cs s' ∧ (cs.take s'.index).reverse = rest := by
  intro l
  induction l with
  | nil => intro s s' rest hi hr h; cases h; exact ⟨hi, hr⟩
  | cons c l ih =>
    intro s s' rest hi hr h
    unfold finalizeCells at h
    obtain ⟨s1, h1, h2⟩ := Option.bind_eq_some_iff.1 h
    have hle := hi.le
    have hpos : 0 < s.index := by
      rcases Nat.eq_zero_or_pos s.index with h0 | h0
      · rw [h0] at hr; simp at hr
      · exact h0
    have hsplit : cs.take s.index = cs.take (s.index - 1) ++ [cs[s.index - 1]] := by
      rw [List.take_append_getElem, Nat.sub_add_cancel hpos]
    rw [hsplit, List.reverse_append] at hr
    simp only [List.reverse_cons, List.reverse_nil, List.nil_append, List.cons_append, List.cons.injEq] at hr
    have hget : cs[s.index - 1]? = some c := by rw [List.getElem?_eq_getElem (by omega), hr.1]
    obtain ⟨h3, h4⟩ := finv_cell hi hget h1
    exact ih s1 s' rest h3 (by rw [show s1.index = s.index - 1 from by omega]; exact hr.2) h2

theorem finv_chunks {per refSize : Nat} {cs : List (List Nat)} : ∀ (chs : List (List (List Nat))) (s s' : FSt H), FInv refSize cs s →
    (cs.take s.index).reverse = chs.flatten → finalizeChunks H per refSize cs.length chs s = some s' → FInv refSize cs s' ∧ s'.index = 0 := by
  intro chs
  induction chs with
  | nil =>
    intro s s' hi hr h
    cases h
    refine ⟨hi, ?_⟩
    have h1 := congrArg List.length hr
    have h2 := hi.le
    simp only [List.length_reverse, List.length_take, List.flatten_nil, List.length_nil] at h1
    omega
  | cons ch chs ih =>
    intro s s' hi hr h
    unfold finalizeChunks at h
    cases h1 : finalizeCells H refSize cs.length ch s with
    | none => rw [h1] at h; cases h
    | some s2 =>
      rw [h1] at h
      simp only [] at h
      obtain ⟨h3, h4⟩ := finv_cells ch s s2 chs.flatten hi hr h1
      have hx : FInv refSize cs (if per < s2.batch then endBatch H s2 else s2) ∧ (if per < s2.batch then endBatch H s2 else s2).index = s2.index := by
        split
        · exact ⟨finv_batch h3, rfl⟩
        · exact ⟨h3, rfl⟩
      exact ih _ s' hx.1 (by rw [hx.2]; exact h4) h

theorem finv_start (refSize : Nat) (cs : List (List Nat)) : FInv refSize cs (⟨[], [], [], none, cs.length, 0⟩ : FSt H) := by
  refine ⟨?_, ?_, ?_, ?_, ?_, uniq_nil, rfl, Nat.le_refl _⟩
  · intro i e h; cases h
  · intro i h1 h2; simp only [] at h1; omega
  · intro h row hg; cases hg
  · intro i e h; cases h
  · intro i e h; cases h

end Tycho.StateFile
