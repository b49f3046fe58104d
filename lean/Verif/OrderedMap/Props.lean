import Verif.OrderedMap.Lemmas
import Mathlib.Data.List.Perm.Subperm

namespace Tycho.OrderedMap
variable {K V : Type} [LinearOrder K] [LinearOrder V]

/-- The maps there are. -/
inductive Reach : Map K V → Prop
  | withMaxLen (n : Nat) : Reach (withMaxLen n)
  | fromIter (l : List (K × V)) : Reach (fromIter l)
  | upsert {m m' k v f r} : Reach m → upsert m k v f = some (m', r) → Reach m'
  | remove {m} (k : K) : Reach m → Reach (remove m k).1

/-- An entry is below another: by value, then by key. -/
def Below (a b : K × V) : Prop := a.2 < b.2 ∨ (a.2 = b.2 ∧ a.1 < b.1)

theorem below_iff {a b : K × V} : Below a b ↔ ord a < ord b := by
  unfold Below ord; rw [Prod.Lex.toLex_lt_toLex]

theorem get_none {m : Map K V} {k} : get m k = none ↔ k ∉ m.inner.map (·.1) := by
  unfold get
  simp only [Option.map_eq_none_iff, List.find?_eq_none, decide_eq_true_eq, List.mem_map, not_exists, not_and]

/-- A map is told by its entries. -/
theorem get_eq {m m' : Map K V} (h : Ok m) (h' : Ok m') {P : K × V → Prop} (hm : ∀ e, e ∈ m'.inner ↔ P e)
    (k : K) (o : Option V) (ho : ∀ v, o = some v ↔ P (k, v)) : get m' k = o := by
  cases o with
  | some v => rw [get_iff h', hm]; exact (ho v).mp rfl
  | none =>
    cases hg : get m' k with
    | none => rfl
    | some v =>
      have := (hm _).mp ((get_iff h').mp hg)
      have := (ho v).mpr this
      cases this

theorem key_of_get {m : Map K V} (h : Ok m) {k v} (hg : get m k = some v) :
    ∃ i, m.inner.findIdx? (fun e => decide (e.1 = k)) = some i ∧ m.inner[i]? = some (k, v) := by
  have hm := (get_iff h).mp hg
  cases hf : m.inner.findIdx? (fun e => decide (e.1 = k)) with
  | none =>
    rw [List.findIdx?_eq_none_iff] at hf
    have := hf _ hm; simp at this
  | some i =>
    refine ⟨i, rfl, ?_⟩
    rw [List.findIdx?_eq_some_iff_getElem] at hf
    obtain ⟨h1, h2, _⟩ := hf
    have h2' : (m.inner[i]).1 = k := by simpa using h2
    rw [List.getElem?_eq_getElem h1]
    have h3 : get m k = some (m.inner[i]).2 := by
      rw [get_iff h, ← h2']; exact List.getElem_mem h1
    rw [hg] at h3
    rw [Option.some.inj h3, ← h2']

theorem find_none {m : Map K V} {k} (hg : get m k = none) : m.inner.findIdx? (fun e => decide (e.1 = k)) = none := by
  rw [List.findIdx?_eq_none_iff]
  intro x hx
  have := get_none.mp hg
  simp only [decide_eq_false_iff_not]
  exact fun h => this (h ▸ List.mem_map_of_mem hx)

/-- What `upsert` does, and that it does not panic. -/
theorem upsert_ok {m : Map K V} (h : Ok m) (k : K) (v : V) (f : V → V → Bool) :
    ∃ m' r, upsert m k v f = some (m', r) ∧ Ok m' ∧ m'.maxLen = m.maxLen ∧
      (∀ old, get m k = some old → f v old = false → r = .rejected ∧ m' = m) ∧
      (∀ old, get m k = some old → f v old = true → r = .updated old ∧
        ∀ j, get m' j = if j = k then some v else get m j) ∧
      (get m k = none → m.inner.length < m.maxLen → r = .inserted ∧
        ∀ j, get m' j = if j = k then some v else get m j) ∧
      (get m k = none → m.inner.length = m.maxLen → (∀ j w, get m j = some w → Below (k, v) (j, w)) →
        r = .tooLow ∧ m' = m) ∧
      (get m k = none → m.inner.length = m.maxLen → (∃ j w, get m j = some w ∧ Below (j, w) (k, v)) →
        ∃ j w, r = .evicted j w ∧ get m j = some w ∧
          (∀ i x, get m i = some x → i = j ∨ Below (j, w) (i, x)) ∧
          ∀ i, get m' i = if i = k then some v else if i = j then none else get m i) := by
  cases hg : get m k with
  | some old =>
    obtain ⟨i, h1, h2⟩ := key_of_get h hg
    by_cases hf : f v old = false
    · refine ⟨m, .rejected, ?_, h, rfl, ?_⟩
      · unfold upsert
        simp only [h1, h2, hf, Bool.not_false, if_true]
      · simp [hf]
    · have hf' : f v old = true := by simpa using hf
      obtain ⟨t, l', k1, k2, k3, k4, k5, k6⟩ := move_spec h.sorted h.nodup (v := v) h2 rfl
      have hOk : Ok { m with inner := l' } := ⟨k3, k4, by rw [k5]; exact h.len⟩
      refine ⟨{ m with inner := l' }, .updated old, ?_, hOk, rfl, ?_⟩
      · unfold upsert
        simp only [h1, h2, hf', Bool.not_true, Bool.false_eq_true, if_false, k1, Option.bind_some, k2, Option.map_some]
      · simp only [Option.some.injEq, reduceCtorEq, false_implies, and_true]
        refine ⟨fun o ho hn => ?_, fun o ho _ => ?_⟩
        · rw [← ho, hf'] at hn; cases hn
        · refine ⟨by rw [ho], fun j => get_eq h hOk k6 j _ (fun x => ?_)⟩
          by_cases hj : j = k
          · subst hj; simp [eq_comm]
          · rw [if_neg hj, get_iff h]; simp [hj]
  | none =>
    have hF := find_none hg
    have hk := get_none.mp hg
    obtain ⟨a, b, e1, e2, e3, e4⟩ := pos_split m.inner h.sorted (k, v)
    simp only [reduceCtorEq, false_implies, implies_true, true_and, true_implies]
    by_cases hfull : m.maxLen ≤ m.inner.length
    · have hl := Nat.le_antisymm h.len hfull
      cases a with
      | nil =>
        refine ⟨m, .tooLow, ?_, h, rfl, fun hn => absurd hn (by omega), fun _ _ => ⟨rfl, rfl⟩, fun _ ⟨j, w, hj, hb⟩ => ?_⟩
        · unfold upsert
          simp only [hF, e2, hfull, decide_true, List.length_nil, beq_self_eq_true, Bool.and_self, if_true]
        · have := e4 (j, w) (by have q := (get_iff h).mp hj; rw [e1] at q; simpa using q)
          rw [below_iff] at hb
          exact absurd hb (not_lt.mpr this)
      | cons o a =>
        have hs' : Sorted (a ++ b) := by
          have := h.sorted; rw [e1] at this; exact (List.pairwise_cons.mp this).2
        have hn' : ((a ++ b).map (·.1)).Nodup := by
          have := h.nodup; rw [e1] at this; exact (List.nodup_cons.mp this).2
        have hk' : k ∉ (a ++ b).map (·.1) := by
          rw [e1] at hk; exact fun hm => hk (List.mem_cons_of_mem _ hm)
        obtain ⟨p1, p2, p3, p4⟩ := place_spec hs' hn' hk' rfl (fun x hx => e3 x (by simp [hx])) e4
        have hlen : m.inner.length = (a ++ b).length + 1 := by rw [e1]; simp
        have hOk : Ok { m with inner := a ++ (k, v) :: b } := ⟨p1, p2, by show _ ≤ m.maxLen; rw [p3]; omega⟩
        have hoin : o ∈ m.inner := by rw [e1]; simp
        have hoget : get m o.1 = some o.2 := (get_iff h).mpr hoin
        refine ⟨{ m with inner := a ++ (k, v) :: b }, .evicted o.1 o.2, ?_, hOk, rfl, fun hn => absurd hn (by omega), ?_, ?_⟩
        · unfold upsert
          simp only [hF, e2, hfull, decide_true, List.length_cons, Bool.true_and, beq_iff_eq, Nat.add_one_ne_zero, if_false, if_true]
          rw [e1]
          simp only [List.cons_append, sub1, Nat.add_one_ne_zero, if_false, Nat.add_sub_cancel,
            Option.bind_some, moveIndex, List.eraseIdx_zero, List.tail_cons, insert_mid]
          rw [if_pos (by simp; omega)]
          simp
        · intro _ hall
          have := hall o.1 o.2 hoget
          rw [below_iff] at this
          exact absurd this (not_lt.mpr (le_of_lt (e3 o (by simp))))
        · intro _ _
          refine ⟨o.1, o.2, rfl, hoget, ?_, ?_⟩
          · intro i x hi
            have hm := (get_iff h).mp hi
            have hsl := h.sorted
            rw [e1] at hm hsl
            rcases List.mem_cons.mp hm with heq | hm
            · left; rw [← heq]
            · right; rw [below_iff]
              exact (List.pairwise_cons.mp hsl).1 _ hm
          · intro i
            refine get_eq h hOk p4 i _ (fun x => ?_)
            have hmem : ∀ e, e ∈ a ++ b ↔ e ∈ m.inner ∧ e.1 ≠ o.1 := by
              intro e
              have hnd := h.nodup
              rw [e1] at hnd
              have := erase_mem (a := []) (b := a ++ b) (x := o) (by simpa using hnd) e
              rw [e1]; simpa using this
            by_cases hi : i = k
            · subst hi
              rw [if_pos rfl]
              simp only [Prod.mk.injEq, true_and, Option.some.injEq]
              constructor
              · intro hx; exact .inl hx.symm
              · rintro (hx | hx)
                · exact hx.symm
                · exact absurd (List.mem_map_of_mem (f := (·.1)) hx) hk'
            · rw [if_neg hi, hmem]
              by_cases hio : i = o.1
              · simp [hio]; intro hx; exact absurd hx (fun q => hi (hio.trans q))
              · rw [if_neg hio, get_iff h]; simp [hi, hio]
    · have hlt : m.inner.length < m.maxLen := by omega
      obtain ⟨p1, p2, p3, p4⟩ := place_spec h.sorted h.nodup hk e1 e3 e4
      have hOk : Ok { m with inner := a ++ (k, v) :: b } := ⟨p1, p2, by show _ ≤ m.maxLen; rw [p3]; omega⟩
      refine ⟨{ m with inner := a ++ (k, v) :: b }, .inserted, ?_, hOk, rfl, fun _ => ⟨rfl, fun j => ?_⟩,
        fun hn => absurd hn (by omega), fun hn => absurd hn (by omega)⟩
      · unfold upsert
        simp only [hF, e2, hfull, decide_false, Bool.false_and, Bool.false_eq_true, if_false]
        unfold insertAt
        rw [if_pos (by rw [e1]; simp), e1, insert_mid]
        rfl
      · refine get_eq h hOk p4 j _ (fun x => ?_)
        by_cases hj : j = k
        · subst hj
          rw [if_pos rfl]
          simp only [Prod.mk.injEq, true_and, Option.some.injEq]
          constructor
          · intro hx; exact .inl hx.symm
          · rintro (hx | hx)
            · exact hx.symm
            · exact absurd (List.mem_map_of_mem (f := (·.1)) hx) hk
        · rw [if_neg hj, get_iff h]; simp [hj]

theorem remove_ok {m : Map K V} (h : Ok m) (k : K) : Ok (remove m k).1 ∧ (remove m k).2 = get m k ∧
    ∀ j, get (remove m k).1 j = if j = k then none else get m j := by
  have hsub : (m.inner.eraseP fun e => decide (e.1 = k)).Sublist m.inner := List.eraseP_sublist
  have hOk : Ok (remove m k).1 :=
    ⟨h.sorted.sublist hsub, h.nodup.sublist (hsub.map _), le_trans hsub.length_le h.len⟩
  refine ⟨hOk, rfl, fun j => ?_⟩
  have hmem : ∀ e, e ∈ (remove m k).1.inner ↔ e ∈ m.inner ∧ e.1 ≠ k := by
    intro e
    show e ∈ m.inner.eraseP _ ↔ _
    constructor
    · intro he
      refine ⟨List.mem_of_mem_eraseP he, fun hk => ?_⟩
      obtain ⟨a, x, b, h1, h2, h3⟩ : ∃ a x b, m.inner = a ++ x :: b ∧ x.1 = k ∧
          (m.inner.eraseP fun e => decide (e.1 = k)) = a ++ b := by
        obtain ⟨y, l1, l2, h1, h2, h3, h4⟩ := List.exists_of_eraseP (p := fun e : K × V => decide (e.1 = k)) (List.mem_of_mem_eraseP he) (by simpa using hk)
        exact ⟨l1, y, l2, h3, by simpa using h2, h4⟩
      rw [h3] at he
      have hnd := h.nodup
      rw [h1] at hnd
      exact ((erase_mem hnd e).mp he).2 (hk.trans h2.symm)
    · rintro ⟨he, hk⟩
      exact (List.mem_eraseP_of_neg (by simpa using hk)).mpr he
  refine get_eq h hOk hmem j _ (fun x => ?_)
  by_cases hj : j = k
  · simp [hj]
  · rw [if_neg hj, get_iff h]; simp [hj]

/-- The last entry of each key. -/
theorem collect_spec (l : List (K × V)) : ((collect l).map (·.1)).Nodup ∧
    ∀ e, e ∈ collect l ↔ l.reverse.find? (fun x => decide (x.1 = e.1)) = some e := by
  rcases List.eq_nil_or_concat l with rfl | ⟨l', y, rfl⟩
  · simp [collect]
  · obtain ⟨h1, h2⟩ := collect_spec l'
    have hstep : collect (l' ++ [y]) = if (collect l').any (fun x => decide (x.1 = y.1)) then
        (collect l').map (fun x => if x.1 = y.1 then y else x) else collect l' ++ [y] := by
      unfold collect; rw [List.foldl_append]; rfl
    rw [List.concat_eq_append, hstep]
    by_cases hy : (collect l').any (fun x => decide (x.1 = y.1)) = true
    · rw [if_pos hy]
      constructor
      · have : ((collect l').map (fun x => if x.1 = y.1 then y else x)).map (·.1) = (collect l').map (·.1) := by
          rw [List.map_map]
          refine List.map_congr_left (fun x _ => ?_)
          simp only [Function.comp]
          by_cases hx : x.1 = y.1
          · rw [if_pos hx, hx]
          · rw [if_neg hx]
        rw [this]; exact h1
      · intro e
        simp only [List.reverse_append, List.reverse_cons, List.reverse_nil, List.nil_append, List.cons_append, List.find?_cons]
        by_cases he : y.1 = e.1
        · simp only [he, decide_true, Option.some.injEq]
          constructor
          · intro hm
            obtain ⟨x, hx, hxe⟩ := List.mem_map.mp hm
            by_cases hxy : x.1 = y.1
            · rw [if_pos (by rw [← he]; exact hxy)] at hxe; exact hxe
            · rw [if_neg (by rw [← he]; exact hxy)] at hxe; subst hxe; exact absurd he.symm hxy
          · rintro rfl
            rw [List.any_eq_true] at hy
            obtain ⟨x, hx, hxy⟩ := hy
            exact List.mem_map.mpr ⟨x, hx, by rw [if_pos (by simpa using hxy)]⟩
        · simp only [he, decide_false]
          rw [← h2]
          constructor
          · intro hm
            obtain ⟨x, hx, hxe⟩ := List.mem_map.mp hm
            by_cases hxy : x.1 = y.1
            · rw [if_pos hxy] at hxe; subst hxe; exact absurd rfl he
            · rw [if_neg hxy] at hxe; subst hxe; exact hx
          · intro hm
            exact List.mem_map.mpr ⟨e, hm, by rw [if_neg (Ne.symm he)]⟩
    · rw [if_neg hy]
      have hno : ∀ x ∈ collect l', x.1 ≠ y.1 := by
        intro x hx hxy
        exact hy (List.any_eq_true.mpr ⟨x, hx, by simpa using hxy⟩)
      constructor
      · rw [List.map_append, List.nodup_append]
        refine ⟨h1, by simp, fun a ha b hb hab => ?_⟩
        obtain ⟨x, hx, rfl⟩ := List.mem_map.mp ha
        simp only [List.map_cons, List.map_nil, List.mem_singleton] at hb
        exact hno x hx (hab.trans hb)
      · intro e
        simp only [List.reverse_append, List.reverse_cons, List.reverse_nil, List.nil_append, List.cons_append, List.find?_cons,
          List.mem_append, List.mem_singleton]
        by_cases he : y.1 = e.1
        · simp only [he, decide_true, Option.some.injEq]
          constructor
          · rintro (hm | rfl)
            · exact absurd he.symm (hno e hm)
            · rfl
          · intro h; exact .inr h.symm
        · simp only [he, decide_false]
          rw [← h2]
          constructor
          · rintro (hm | rfl)
            · exact hm
            · exact absurd rfl he
          · exact .inl
termination_by l.length
decreasing_by simp_all

theorem fromIter_ok (l : List (K × V)) : Ok (fromIter l) := by
  have hp : (fromIter l).inner.Perm (collect l) := List.perm_insertionSort _ _
  have hnd : ((fromIter l).inner.map (·.1)).Nodup := (hp.map _).nodup_iff.mpr (collect_spec l).1
  refine ⟨?_, hnd, Nat.le_refl _⟩
  have hle : (fromIter l).inner.Pairwise fun a b => ord a ≤ ord b := by
    have : IsTrans (K × V) fun a b => ord a ≤ ord b := ⟨fun _ _ _ => le_trans⟩
    have : Std.Total fun a b : K × V => ord a ≤ ord b := ⟨fun a b => le_total (ord a) (ord b)⟩
    exact List.pairwise_insertionSort _ _
  have hne : (fromIter l).inner.Pairwise fun a b => a ≠ b := hnd.of_map
  exact (hle.and hne).imp fun ⟨h1, h2⟩ => lt_of_le_of_ne h1 fun h => h2 (ord_inj h)

theorem reach_ok {m : Map K V} (h : Reach m) : Ok m := by
  induction h with
  | withMaxLen n => exact ⟨List.Pairwise.nil, by simp [withMaxLen], by simp [withMaxLen]⟩
  | fromIter l => exact fromIter_ok l
  | upsert _ hu ih =>
    obtain ⟨m', r, h1, h2, _⟩ := upsert_ok ih _ _ _
    rw [hu] at h1; cases h1; exact h2
  | remove k _ ih => exact (remove_ok ih k).1

/-! ## C171 -/

/-- An `upsert` never panics; it replaces the value of a present key just if the caller's test says so,
inserts a new key while there is room, and with no room refuses it just if it is below everything kept, else
drops the least entry for it. All other keys keep their values. -/
theorem upsert_spec {m : Map K V} (h : Reach m) (k : K) (v : V) (f : V → V → Bool) :
    ∃ m' r, upsert m k v f = some (m', r) ∧ m'.maxLen = m.maxLen ∧
      (∀ old, get m k = some old → f v old = false → r = .rejected ∧ m' = m) ∧
      (∀ old, get m k = some old → f v old = true → r = .updated old ∧
        ∀ j, get m' j = if j = k then some v else get m j) ∧
      (get m k = none → m.inner.length < m.maxLen → r = .inserted ∧
        ∀ j, get m' j = if j = k then some v else get m j) ∧
      (get m k = none → m.inner.length = m.maxLen → (∀ j w, get m j = some w → Below (k, v) (j, w)) →
        r = .tooLow ∧ m' = m) ∧
      (get m k = none → m.inner.length = m.maxLen → (∃ j w, get m j = some w ∧ Below (j, w) (k, v)) →
        ∃ j w, r = .evicted j w ∧ get m j = some w ∧
          (∀ i x, get m i = some x → i = j ∨ Below (j, w) (i, x)) ∧
          ∀ i, get m' i = if i = k then some v else if i = j then none else get m i) := by
  obtain ⟨m', r, h1, _, h2⟩ := upsert_ok (reach_ok h) k v f
  exact ⟨m', r, h1, h2⟩

/-- The map never holds more than its bound, each key once, and the entries are what `get` tells. -/
theorem bounded {m : Map K V} (h : Reach m) : m.inner.length ≤ m.maxLen ∧ (m.inner.map (·.1)).Nodup ∧
    ∀ k v, get m k = some v ↔ (k, v) ∈ m.inner :=
  ⟨(reach_ok h).len, (reach_ok h).nodup, fun _ _ => get_iff (reach_ok h)⟩

/-- `max` is the greatest entry, if any. -/
theorem max_spec {m : Map K V} (h : Reach m) :
    (max m = none ↔ ∀ k, get m k = none) ∧
    ∀ k v, max m = some (k, v) ↔ get m k = some v ∧ ∀ j w, get m j = some w → j = k ∨ Below (j, w) (k, v) := by
  have hO := reach_ok h
  have last : ∀ e, max m = some e → e ∈ m.inner ∧ ∀ x ∈ m.inner, x = e ∨ ord x < ord e := by
    intro e he
    unfold max at he
    obtain ⟨l, hl⟩ := List.getLast?_eq_some_iff.mp he
    refine ⟨by rw [hl]; simp, fun x hx => ?_⟩
    rw [hl] at hx
    rcases List.mem_append.mp hx with hx | hx
    · have hs := hO.sorted
      unfold Sorted at hs
      rw [hl, List.pairwise_append] at hs
      exact .inr (hs.2.2 x hx e (by simp))
    · exact .inl (by simpa using hx)
  constructor
  · unfold max
    rw [List.getLast?_eq_none_iff]
    constructor
    · intro hn k; rw [get_none, hn]; simp
    · intro hn
      cases hi : m.inner with
      | nil => rfl
      | cons e l =>
        have := get_none.mp (hn e.1)
        rw [hi] at this; simp at this
  · intro k v
    constructor
    · intro hm
      obtain ⟨h1, h2⟩ := last _ hm
      refine ⟨(get_iff hO).mpr h1, fun j w hj => ?_⟩
      rcases h2 _ ((get_iff hO).mp hj) with h | h
      · cases h; exact .inl rfl
      · exact .inr (below_iff.mpr h)
    · rintro ⟨h1, h2⟩
      have hm := (get_iff hO).mp h1
      cases he : max m with
      | none =>
        unfold max at he
        rw [List.getLast?_eq_none_iff] at he
        rw [he] at hm; cases hm
      | some e =>
        obtain ⟨h3, h4⟩ := last _ he
        rcases h4 _ hm with h | h
        · rw [h]
        · rcases h2 e.1 e.2 ((get_iff hO).mpr h3) with h5 | h5
          · have : get m k = some e.2 := by rw [← h5]; exact (get_iff hO).mpr h3
            rw [h1] at this
            rw [Option.some.inj this, ← h5]
          · rw [below_iff] at h5
            exact absurd h5 (not_lt.mpr (le_of_lt h))

theorem remove_spec {m : Map K V} (h : Reach m) (k : K) : (remove m k).2 = get m k ∧
    ∀ j, get (remove m k).1 j = if j = k then none else get m j := (remove_ok (reach_ok h) k).2

/-- A collected map has the last value of each key, and no room for another. -/
theorem fromIter_spec (l : List (K × V)) :
    (∀ k v, get (fromIter l) k = some v ↔ l.reverse.find? (fun x => decide (x.1 = k)) = some (k, v)) ∧
    (fromIter l).maxLen = (fromIter l).inner.length := by
  refine ⟨fun k v => ?_, rfl⟩
  rw [get_iff (fromIter_ok l)]
  have hp : (fromIter l).inner.Perm (collect l) := List.perm_insertionSort _ _
  rw [hp.mem_iff, (collect_spec l).2]

/-- Offering entries one after another. -/
def offer (f : V → V → Bool) : Map K V → List (K × V) → Option (Map K V)
  | m, [] => some m
  | m, e :: l => (upsert m e.1 e.2 f).bind fun r => offer f r.1 l

theorem offer_inv (f : V → V → Bool) : ∀ (l seen : List (K × V)) (m : Map K V), Reach m →
    ((seen ++ l).map (·.1)).Nodup → m.inner.length = min m.maxLen seen.length →
    (∀ e ∈ m.inner, e ∈ seen) → (∀ e ∈ seen, e ∈ m.inner ∨ ∀ x ∈ m.inner, ord e < ord x) →
    ∃ m', offer f m l = some m' ∧ Reach m' ∧ m'.maxLen = m.maxLen ∧
      m'.inner.length = min m.maxLen (seen ++ l).length ∧ (∀ e ∈ m'.inner, e ∈ seen ++ l) ∧
      ∀ e ∈ seen ++ l, e ∈ m'.inner ∨ ∀ x ∈ m'.inner, ord e < ord x := by
  intro l
  induction l with
  | nil => intro seen m h hn hl h1 h2; exact ⟨m, rfl, h, rfl, by simpa using hl, by simpa using h1, by simpa using h2⟩
  | cons e l ih =>
    intro seen m h hn hl h1 h2
    have hO := reach_ok h
    have hk : get m e.1 = none := by
      rw [get_none]
      intro hm
      obtain ⟨x, hx, hxe⟩ := List.mem_map.mp hm
      rw [List.map_append, List.nodup_append] at hn
      exact hn.2.2 x.1 (List.mem_map_of_mem (h1 x hx)) e.1 (by simp) hxe
    obtain ⟨m', r, k1, k2, k3, k4, k5, k6, k7, k8⟩ := upsert_ok hO e.1 e.2 f
    have hR' : Reach m' := .upsert h k1
    have hn' : (((seen ++ [e]) ++ l).map (·.1)).Nodup := by simpa using hn
    have mem_of : ∀ x : K × V, x ∈ m'.inner ↔ get m' x.1 = some x.2 := fun x => (get_iff k2).symm
    have mem_m : ∀ x : K × V, x ∈ m.inner ↔ get m x.1 = some x.2 := fun x => (get_iff hO).symm
    have key : m'.inner.length = min m'.maxLen (seen ++ [e]).length ∧ (∀ x ∈ m'.inner, x ∈ seen ++ [e]) ∧
        ∀ x ∈ seen ++ [e], x ∈ m'.inner ∨ ∀ y ∈ m'.inner, ord x < ord y := by
      by_cases hfull : m.inner.length < m.maxLen
      · obtain ⟨_, g⟩ := k6 hk hfull
        have hmem : ∀ x, x ∈ m'.inner ↔ x = e ∨ x ∈ m.inner := by
          intro x
          rw [mem_of, g, mem_m]
          by_cases hx : x.1 = e.1
          · rw [if_pos hx, hx, hk]
            simp only [Option.some.injEq, reduceCtorEq, or_false]
            exact ⟨fun q => Prod.ext hx q.symm, fun q => by rw [q]⟩
          · rw [if_neg hx]
            exact ⟨.inr, fun q => q.elim (fun q => absurd (by rw [q]) hx) id⟩
        have hall : ∀ x ∈ seen, x ∈ m.inner := by
          -- everything seen is kept while there is room
          have hs : m.inner.length = seen.length := by omega
          intro x hx
          have hsub : m.inner.Subperm seen :=
            List.subperm_of_subset (List.Nodup.of_map _ hO.nodup) (fun y hy => h1 y hy)
          have := hsub.perm_of_length_le (by omega)
          exact this.mem_iff.mpr hx
        have hs : m.inner.length = seen.length := by omega
        have hperm : m'.inner.Perm (e :: m.inner) := by
          refine (List.perm_ext_iff_of_nodup (List.Nodup.of_map _ k2.nodup) ?_).mpr (fun x => by rw [hmem]; simp)
          refine List.nodup_cons.mpr ⟨fun hm => ?_, List.Nodup.of_map _ hO.nodup⟩
          rw [mem_m, hk] at hm; cases hm
        refine ⟨?_, ?_, ?_⟩
        · rw [hperm.length_eq, k3]; simp; omega
        · intro x hx
          rcases (hmem x).mp hx with rfl | hx
          · simp
          · simp [h1 x hx]
        · intro x hx
          rcases List.mem_append.mp hx with hx | hx
          · exact .inl ((hmem x).mpr (.inr (hall x hx)))
          · rw [List.mem_singleton] at hx; subst hx; exact .inl ((hmem x).mpr (.inl rfl))
      · have hl' : m.inner.length = m.maxLen := Nat.le_antisymm hO.len (by omega)
        by_cases hall : ∀ j w, get m j = some w → Below (e.1, e.2) (j, w)
        · obtain ⟨_, rfl⟩ := k7 hk hl' hall
          refine ⟨by simp; omega, fun x hx => by simp [h1 x hx], fun x hx => ?_⟩
          rcases List.mem_append.mp hx with hx | hx
          · exact h2 x hx
          · rw [List.mem_singleton] at hx; subst hx
            exact .inr fun y hy => below_iff.mp (hall y.1 y.2 ((mem_m y).mp hy))
        · have hex : ∃ j w, get m j = some w ∧ Below (j, w) (e.1, e.2) := by
            simp only [not_forall] at hall
            obtain ⟨j, w, hj, hb⟩ := hall
            refine ⟨j, w, hj, ?_⟩
            rw [below_iff] at hb ⊢
            refine lt_of_le_of_ne (not_lt.mp hb) (fun q => ?_)
            have := ord_inj q
            rw [show j = e.1 from congrArg Prod.fst this, hk] at hj; cases hj
          obtain ⟨j, w, _, g1, g2, g3⟩ := k8 hk hl' hex
          have hjk : j ≠ e.1 := by rintro rfl; rw [hk] at g1; cases g1
          have hmem : ∀ x, x ∈ m'.inner ↔ x = e ∨ (x ∈ m.inner ∧ x ≠ (j, w)) := by
            intro x
            rw [mem_of, g3, mem_m]
            by_cases hx : x.1 = e.1
            · rw [if_pos hx, hx, hk]
              simp only [Option.some.injEq, reduceCtorEq, false_and, or_false]
              exact ⟨fun q => Prod.ext hx q.symm, fun q => by rw [q]⟩
            · rw [if_neg hx]
              have hxe : x ≠ e := fun q => hx (by rw [q])
              by_cases hxj : x.1 = j
              · rw [if_pos hxj]
                simp only [reduceCtorEq, hxe, false_or, false_iff, not_and, not_not]
                intro q
                rw [hxj, g1] at q
                exact Prod.ext hxj (Option.some.inj q).symm
              · rw [if_neg hxj]
                simp only [hxe, false_or]
                exact ⟨fun q => ⟨q, fun q' => hxj (by rw [q'])⟩, fun q => q.1⟩
          obtain ⟨j', w', hj', hb'⟩ := hex
          have hje : ord (j, w) < ord e := by
            rcases g2 j' w' hj' with rfl | hb
            · rw [g1] at hj'; cases hj'; exact below_iff.mp hb'
            · exact lt_trans (below_iff.mp hb) (below_iff.mp hb')
          have hjm : (j, w) ∈ m.inner := (mem_m _).mpr g1
          have hlow : ∀ y ∈ m.inner, y ≠ (j, w) → ord (j, w) < ord y := by
            intro y hy hne
            rcases g2 y.1 y.2 ((mem_m y).mp hy) with h | h
            · refine absurd ?_ hne
              have := (mem_m y).mp hy
              rw [h, g1] at this
              exact Prod.ext h (Option.some.inj this).symm
            · exact below_iff.mp h
          refine ⟨?_, ?_, ?_⟩
          · have hperm : m'.inner.Perm (e :: m.inner.erase (j, w)) := by
              have hnd := List.Nodup.of_map _ hO.nodup
              refine (List.perm_ext_iff_of_nodup (List.Nodup.of_map _ k2.nodup) ?_).mpr (fun x => ?_)
              · refine List.nodup_cons.mpr ⟨fun hm => ?_, hnd.erase _⟩
                have := (mem_m e).mp (List.mem_of_mem_erase hm)
                rw [hk] at this; cases this
              · rw [hmem, List.mem_cons, hnd.mem_erase_iff, and_comm]
            rw [hperm.length_eq, k3, List.length_cons, List.length_erase_of_mem hjm]
            have := List.length_pos_of_mem hjm
            simp; omega
          · intro x hx
            rcases (hmem x).mp hx with rfl | ⟨hx, _⟩
            · simp
            · simp [h1 x hx]
          · intro x hx
            rcases List.mem_append.mp hx with hx | hx
            · by_cases hxj : x = (j, w)
              · subst hxj
                right; intro y hy
                rcases (hmem y).mp hy with rfl | ⟨hy, hne⟩
                · exact hje
                · exact hlow y hy hne
              · rcases h2 x hx with h | h
                · exact .inl ((hmem x).mpr (.inr ⟨h, hxj⟩))
                · right; intro y hy
                  rcases (hmem y).mp hy with rfl | ⟨hy, _⟩
                  · exact lt_trans (h _ hjm) hje
                  · exact h y hy
            · rw [List.mem_singleton] at hx; subst hx; exact .inl ((hmem x).mpr (.inl rfl))
    obtain ⟨c1, c2, c3⟩ := key
    obtain ⟨m'', d1, d2, d3, d4, d5, d6⟩ := ih (seen ++ [e]) m' hR' hn' c1 c2 c3
    refine ⟨m'', ?_, d2, d3.trans k3, ?_, by simpa using d5, by simpa using d6⟩
    · unfold offer; rw [k1]; exact d1
    · rw [d4, k3]; simp

/-- Of entries with different keys the map keeps the greatest, as many as it may. -/
theorem keeps_greatest (n : Nat) (f : V → V → Bool) (l : List (K × V)) (hl : (l.map (·.1)).Nodup) :
    ∃ m, offer f (withMaxLen n) l = some m ∧ m.inner.length = min n l.length ∧
      (∀ k v, get m k = some v → (k, v) ∈ l) ∧
      ∀ k v, (k, v) ∈ l → get m k = some v ∨ ∀ j w, get m j = some w → Below (k, v) (j, w) := by
  obtain ⟨m, h1, h2, _, h3, h4, h5⟩ := offer_inv f l [] (withMaxLen n) (.withMaxLen n) (by simpa using hl) (by simp [withMaxLen])
    (by simp [withMaxLen]) (by simp)
  refine ⟨m, h1, by simpa [withMaxLen] using h3, fun k v hg => ?_, fun k v hm => ?_⟩
  · simpa using h4 _ ((get_iff (reach_ok h2)).mp hg)
  · rcases h5 (k, v) (by simpa using hm) with h | h
    · exact .inl ((get_iff (reach_ok h2)).mpr h)
    · exact .inr fun j w hj => below_iff.mpr (h _ ((get_iff (reach_ok h2)).mp hj))

end Tycho.OrderedMap
