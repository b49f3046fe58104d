import Verif.CellStore.Spec
import Verif.Counters.Lemmas
import Mathlib.Tactic.ByContra
import Mathlib.Data.Finset.Card
import Mathlib.Algebra.Order.BigOperators.Group.Finset

namespace Tycho.CellStore
open Tycho.Table

/-! ### Tables -/

theorem mem_keys {ν : Type} (t : Table Nat ν) (h : Nat) : h ∈ keys t ↔ (get t h).isSome := by
  unfold keys
  rw [List.mem_toFinset]
  induction t with
  | nil => simp [Table.get]
  | cons e t ih =>
    rw [List.map_cons, List.mem_cons, ih, Table.get]
    by_cases hk : e.1 = h
    · simp [hk]
    · simp [hk, Ne.symm hk]

theorem mem_of_get {ν : Type} {t : Table Nat ν} {h : Nat} {v : ν} (hg : get t h = some v) : (h, v) ∈ t := by
  induction t with
  | nil => simp [Table.get] at hg
  | cons x t ih =>
    unfold Table.get at hg
    split at hg
    · rename_i hx
      injection hg with hg
      subst hx; subst hg
      simp
    · exact List.mem_cons_of_mem _ (ih hg)

theorem get_of_mem {ν : Type} {t : Table Nat ν} (hu : Uniq t) {e : Nat × ν} (he : e ∈ t) : get t e.1 = some e.2 := by
  induction t with
  | nil => simp at he
  | cons x t ih =>
    simp only [Uniq, List.map_cons, List.nodup_cons] at hu
    rcases List.mem_cons.1 he with rfl | he
    · simp [Table.get]
    · have hne : x.1 ≠ e.1 := fun h => hu.1 (h ▸ List.mem_map_of_mem he)
      simp only [Table.get, hne, if_false]
      exact ih hu.2 he

theorem get_putAll_key {ν : Type} (t : Table Nat ν) (l : List (Nat × ν)) (k : Nat) (h : ∃ e ∈ l, e.1 = k) :
    ∃ v, (k, v) ∈ l ∧ get (putAll t l) k = some v := by
  induction l generalizing t with
  | nil => obtain ⟨e, he, _⟩ := h; simp at he
  | cons x l ih =>
    by_cases hl : ∃ e ∈ l, e.1 = k
    · obtain ⟨v, hv, hg⟩ := ih (put t x.1 x.2) hl
      exact ⟨v, List.mem_cons_of_mem _ hv, hg⟩
    · obtain ⟨e, he, hk⟩ := h
      have hx : x.1 = k := by
        rcases List.mem_cons.1 he with rfl | he
        · exact hk
        · exact absurd ⟨e, he, hk⟩ hl
      refine ⟨x.2, by rw [← hx]; simp, ?_⟩
      have := get_putAll_not (put t x.1 x.2) l k (fun e he hk => hl ⟨e, he, hk⟩)
      simp only [putAll, List.foldl_cons] at *
      rw [this, get_put, if_pos hx.symm]

theorem get_nil {ν : Type} (h : Nat) : get ([] : Table Nat ν) h = none := rfl

/-! ### Finite sums -/

theorem inDeg_empty (w : World) (x : Nat) : inDeg w ∅ x = 0 := by simp [inDeg]

theorem inDeg_insert (w : World) (L : Finset Nat) (h x : Nat) (hn : h ∉ L) :
    inDeg w (insert h L) x = (w.refs h).count x + inDeg w L x := Finset.sum_insert hn

theorem inDeg_union (w : World) (A B : Finset Nat) (x : Nat) (h : ∀ a ∈ A, a ∉ B) :
    inDeg w (A ∪ B) x = inDeg w A x + inDeg w B x :=
  Finset.sum_union (Finset.disjoint_left.2 h)

theorem inDeg_mono (w : World) {A B : Finset Nat} (x : Nat) (h : A ⊆ B) : inDeg w A x ≤ inDeg w B x :=
  Finset.sum_le_sum_of_subset h

theorem inDeg_sdiff (w : World) {A B : Finset Nat} (x : Nat) (h : A ⊆ B) :
    inDeg w (B \ A) x + inDeg w A x = inDeg w B x :=
  Finset.sum_sdiff h

theorem inDeg_pos (w : World) (L : Finset Nat) (x : Nat) : 0 < inDeg w L x ↔ ∃ c ∈ L, x ∈ w.refs c := by
  unfold inDeg
  constructor
  · intro h
    by_contra hc
    have : ∑ c ∈ L, (w.refs c).count x = 0 := by
      apply Finset.sum_eq_zero
      intro c hcL
      apply List.count_eq_zero.2
      intro hm; exact hc ⟨c, hcL, hm⟩
    omega
  · rintro ⟨c, hc, hx⟩
    have h1 : (w.refs c).count x ≤ ∑ c ∈ L, (w.refs c).count x :=
      Finset.single_le_sum (f := fun c => (w.refs c).count x) (fun _ _ => Nat.zero_le _) hc
    have h2 : 0 < (w.refs c).count x := List.count_pos_iff.2 hx
    omega

/-! ### The world -/

theorem size_lt (w : World) {c h : Nat} (hc : c ∈ w.refs h) : w.size c < w.size h := by
  have h1 := w.size_spec h
  have h2 : ∀ l : List Nat, c ∈ l → w.size c + 1 ≤ (l.map (fun c => w.size c + 1)).sum := by
    intro l
    induction l with
    | nil => simp
    | cons x l ih =>
      intro hm
      rw [List.map_cons, List.sum_cons]
      rcases List.mem_cons.1 hm with rfl | hm
      · omega
      · have := ih hm; omega
  have := h2 _ hc
  omega

theorem Reach.size_le {w : World} {r h : Nat} (hr : Reach w r h) : w.size h ≤ w.size r := by
  induction hr with
  | refl => exact Nat.le_refl _
  | step _ hm ih => have := size_lt w hm; omega

theorem Reach.trans {w : World} {a b c : Nat} (h1 : Reach w a b) (h2 : Reach w b c) : Reach w a c := by
  induction h2 with
  | refl => exact h1
  | step _ hm ih => exact .step ih hm

/-! ### The invariant -/

/-- The number of uses of a cell. -/
def uses (w : World) (s : Store) (roots : Nat → Nat) (h : Nat) : Nat := roots h + inDeg w (live s) h

structure Inv (w : World) (s : Store) (roots : Nat → Nat) (rcI : Counters.Rc) : Prop where
  uNur : Uniq s.nursery
  uCells : Uniq s.cells
  disj : ∀ h, (get s.nursery h).isSome → get (durable s) h = none
  fresh : ∀ b, s.batch = some b → ∀ e ∈ b.puts, get s.cells e.1 = none
  nData : ∀ h e, get s.nursery h = some e → e.refs = w.refs h
  cData : ∀ h r, get (durable s) h = some r → r.refs = w.refs h
  liveUses : ∀ h, h ∈ live s ↔ 0 < uses w s roots h
  inj : ∀ h h' i, rowIdx s h = some i → rowIdx s h' = some i → h = h'
  repr : Counters.Repr s.counters rcI
  rc : ∀ h i, rowIdx s h = some i → rcI i = uses w s roots h
  own : ∀ i, 0 < rcI i → ∃ h, rowIdx s h = some i
  filt : ∀ f, ((keys (durable s)).filter (fun h => w.fp h = f)).card ≤ s.filter.count f
  cache : ∀ h r, get s.cache h = some r → get (durable s) h = some r
  rounds : ∀ h e, get s.nursery h = some e → (e.born, h) ∈ s.byRound

theorem mem_live (s : Store) (h : Nat) : h ∈ live s ↔ (rowIdx s h).isSome := by
  unfold live rowIdx
  rw [Finset.mem_union, mem_keys, mem_keys]
  cases get s.nursery h <;> simp

theorem Inv.cached {w : World} {s : Store} {roots : Nat → Nat} {rcI : Counters.Rc} (I : Inv w s roots rcI) {h : Nat}
    {r : Row} (hc : get s.cache h = some r) : get s.nursery h = none := by
  cases hn : get s.nursery h with
  | none => rfl
  | some e =>
    have h1 := I.disj h (by simp [hn])
    rw [I.cache h r hc] at h1
    cases h1

theorem Inv.filterHas {w : World} {s : Store} {roots : Nat → Nat} {rcI : Counters.Rc} (I : Inv w s roots rcI) {h : Nat}
    (hd : (get (durable s) h).isSome) : filterContains w s h = true := by
  unfold filterContains
  rw [List.contains_iff_mem]
  have hf := I.filt (w.fp h)
  have : h ∈ (keys (durable s)).filter (fun x => w.fp x = w.fp h) := by
    rw [Finset.mem_filter, mem_keys]
    exact ⟨hd, rfl⟩
  have : 0 < ((keys (durable s)).filter (fun x => w.fp x = w.fp h)).card := Finset.card_pos.2 ⟨h, this⟩
  exact List.count_pos_iff.1 (by omega)

/-- Every look-up of `insert_cell` gives the row of the cell, whatever the depth. -/
theorem Inv.existing_eq {w : World} {s : Store} {roots : Nat → Nat} {rcI : Counters.Rc} (I : Inv w s roots rcI)
    (hb : s.batch = none) (h d : Nat) : existing w s h d = rowIdx s h := by
  have hd : durable s = s.cells := by unfold durable; rw [hb]
  unfold existing rowIdx
  cases hn : get s.nursery h with
  | some e => rfl
  | none =>
    simp only
    rw [hd]
    have hraw : rawIdxForInsert s h d = (get s.cells h).map (·.idx) := by
      unfold rawIdxForInsert
      split
      · cases hc : get s.cache h with
        | none => rfl
        | some r =>
          have := I.cache h r hc
          rw [hd] at this
          rw [this]; rfl
      · rfl
    cases hg : get s.cells h with
    | none =>
      split
      · rw [hraw, hg]
      · rfl
    | some r =>
      rw [if_pos (I.filterHas (by rw [hd, hg]; rfl)), hraw, hg]

theorem Inv.rowForDelete_eq {w : World} {s : Store} {roots : Nat → Nat} {rcI : Counters.Rc} (I : Inv w s roots rcI)
    (hb : s.batch = none) {h i : Nat} (hr : rowIdx s h = some i) :
    rowForDelete s h = some ((get s.nursery h).isSome, { idx := i, refs := w.refs h }) := by
  have hd : durable s = s.cells := by unfold durable; rw [hb]
  unfold rowIdx at hr
  unfold rowForDelete
  cases hn : get s.nursery h with
  | some e =>
    rw [hn] at hr
    simp only [Option.some.injEq] at hr
    have := I.nData h e hn
    simp [hr, this]
  | none =>
    rw [hn, hd] at hr
    simp only [Option.map_eq_some_iff] at hr
    obtain ⟨r, hg, rfl⟩ := hr
    have hr2 := I.cData h r (by rw [hd]; exact hg)
    cases hc : get s.cache h with
    | some r' =>
      have := I.cache h r' hc
      rw [hd, hg] at this
      obtain rfl := Option.some.inj this
      simp only [Option.isSome_none, Option.some.injEq, Prod.mk.injEq, true_and]
      rw [← hr2]
    | none =>
      simp only [hg, Option.map_some, Option.isSome_none, Option.some.injEq, Prod.mk.injEq, true_and]
      rw [← hr2]

theorem Inv.idx_lt {w : World} {s : Store} {roots : Nat → Nat} {rcI : Counters.Rc} (I : Inv w s roots rcI) {h i : Nat}
    (hr : rowIdx s h = some i) : i < s.counters.nextIdx ∧ 0 < rcI i ∧ Counters.get s.counters i = uses w s roots h := by
  have hl : 0 < uses w s roots h := (I.liveUses h).1 ((mem_live s h).2 (by rw [hr]; rfl))
  have hrc := I.rc h i hr
  refine ⟨?_, by omega, ?_⟩
  · by_contra hc
    have := I.repr.fresh i (by omega)
    omega
  · rw [I.repr.get i (by omega), hrc]

end Tycho.CellStore
