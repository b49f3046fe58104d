import Verif.Slicer.Groups

/-!
# What a slicer of memory promises (C184, C185)
-/

namespace Tycho.Slicer

/-- Constraints as the constructors make them, with sums that fit in `u64`. -/
structure Valid (cs : List Constraint) : Prop where
  each : ∀ c ∈ cs, c.min ≤ c.max ∧ c.max ≤ umax ∧ 1 ≤ c.ratio
  mins : (cs.map (·.min)).sum ≤ umax
  ratios : (cs.map (·.ratio)).sum ≤ umax

/-- The sizes keep to the constraints, one for each and in their order. -/
def Fits (cs : List Constraint) (out : List Nat) : Prop :=
  List.Forall₂ (fun c x => c.min ≤ x ∧ x ≤ c.max) cs out

/-- A constraint that did not get its maximum has left nothing, up to rounding, to
those of a lower priority (a greater number): `left` is what remains of `total` when
those of its priority and above have their sizes and the others their minimum only. -/
def ByPriority (total : Nat) (cs : List Constraint) (out : List Nat) : Prop :=
  ∀ (i : Nat) (c : Constraint) (x : Nat), cs[i]? = some c → out[i]? = some x → x < c.max →
    ∃ left,
      left + (List.zipWith (fun c' x' => if c'.priority ≤ c.priority then x' else c'.min)
        cs out).sum = total ∧
      left * 65536 < (cs.filter (fun c' => c'.priority = c.priority)).length * 65536
        + ((cs.filter (fun c' => c'.priority = c.priority)).map (·.ratio)).sum

/-- The constraints of one priority are served by one measure: there is an amount
`unit` per unit of ratio, in 65536ths of a byte, such that each of them has its minimum
and its share of it, cut at its maximum (and at `u64`). -/
def ByRatio (cs : List Constraint) (out : List Nat) : Prop :=
  ∀ p : Nat, ∃ unit : Nat, ∀ (i : Nat) (c : Constraint) (x : Nat), cs[i]? = some c →
    out[i]? = some x → c.priority = p →
    x = c.min + min (c.max - c.min) (min (unit * c.ratio) (2 ^ 64 - 1) / 65536)

theorem minRequired_aux (cs : List Constraint) : ∀ a, a + (cs.map (·.min)).sum ≤ umax →
    cs.foldl (fun acc c => satAdd acc c.min) a = a + (cs.map (·.min)).sum := by
  induction cs with
  | nil => intro a _; simp
  | cons c cs ih =>
    intro a h
    simp only [List.map_cons, List.sum_cons] at h
    have e : satAdd a c.min = a + c.min := Nat.min_eq_left (by omega)
    simp only [List.foldl_cons, e, List.map_cons, List.sum_cons]
    rw [ih _ (by omega)]; omega

theorem minRequired_eq {cs : List Constraint} (h : (cs.map (·.min)).sum ≤ umax) :
    minRequired cs = (cs.map (·.min)).sum := by
  have := minRequired_aux cs 0 (by omega)
  simpa [minRequired] using this

theorem sum_range_map (f : Nat → Nat) (n : Nat) :
    ((List.range n).map f).sum = ∑ j ∈ Finset.range n, f j := by
  induction n with
  | zero => simp
  | succ n ih => rw [List.range_succ, Finset.sum_range_succ]; simp [ih]

theorem map_minAt (cs : List Constraint) :
    (List.range cs.length).map (minAt cs) = cs.map (·.min) := by
  apply List.ext_getElem
  · simp
  · intro i h1 h2
    have : i < cs.length := by simpa using h1
    simp [minAt, this]

theorem gw_nil : GW [] [] where
  sorted := by simp
  nodup := by simp [allIdx]
  lt := by simp [allIdx]
  total := by simp
  items := by simp
  all := by simp
  ratios := by simp
  counts := by simp

theorem key_inj {G : List (Nat × Group)} (h : G.Pairwise fun a b => a.1 < b.1)
    {x y : Nat × Group} (hx : x ∈ G) (hy : y ∈ G) (e : x.1 = y.1) : x = y := by
  induction G with
  | nil => simp at hx
  | cons a l ih =>
    have ⟨h1, h2⟩ := List.pairwise_cons.1 h
    rcases List.mem_cons.1 hx with hx' | hx' <;> rcases List.mem_cons.1 hy with hy' | hy'
    · rw [hx', hy']
    · have := h1 y hy'; rw [hx'] at e; omega
    · have := h1 x hx'; rw [hy'] at e; omega
    · exact ih h2 hx' hy'

/-- **C184.** The solver of constraints. -/
theorem solve_spec {cs : List Constraint} (hv : Valid cs) {total : Nat} (ht : total ≤ umax) :
    ∃ out, solve total cs = some (decide ((cs.map (·.min)).sum ≤ total), out) ∧
      ((cs.map (·.min)).sum ≤ total →
        Fits cs out ∧ ByRatio cs out ∧ out.sum ≤ total ∧
          (total < 2 ^ 48 → ByPriority total cs out)) ∧
      (total < (cs.map (·.min)).sum → out = cs.map (·.min)) := by
  obtain ⟨G, hg, gw⟩ := group_spec cs [] [] gw_nil (fun c hc => (hv.each c hc).1)
    (by simpa using hv.ratios)
  simp only [List.nil_append, List.length_nil] at hg gw
  have hmin := minRequired_eq hv.mins
  obtain ⟨T', res', o1, o2, o3, o4, o5, o6⟩ := overGroups_spec cs.length G
    (total - minRequired cs) (minAt cs) gw.sorted gw.nodup gw.lt
    (by
      intro x hx it hit
      obtain ⟨c, h1, _, _, h4, h5⟩ := gw.items x hx it hit
      have := (hv.each c (List.mem_of_getElem? h1)).2.1
      have e : minAt cs it.idx = c.min := by simp [minAt, h1]
      rw [e, h4]; omega)
    (by
      intro x hx it hit
      obtain ⟨c, h1, _, h3, _⟩ := gw.items x hx it hit
      exact ⟨c.ratio, h3, (hv.each c (List.mem_of_getElem? h1)).2.2⟩)
    gw.total
  have hS : (∑ j ∈ Finset.range cs.length, minAt cs j) = (cs.map (·.min)).sum := by
    rw [← sum_range_map, map_minAt]
  have hsolve : solve total cs = some (decide ((cs.map (·.min)).sum ≤ total),
      (List.range cs.length).map res') := by
    rw [hmin] at o1
    simp only [solve, hg, hmin, o1]
  -- the size of one constraint
  have hone : ∀ i c, cs[i]? = some c → c.min ≤ res' i ∧ res' i ≤ c.max := by
    intro i c hc
    have hle := (hv.each c (List.mem_of_getElem? hc)).1
    have e : minAt cs i = c.min := by simp [minAt, hc]
    by_cases hi : i ∈ allIdx G
    · obtain ⟨x, hx, hi⟩ := List.mem_flatMap.1 hi
      obtain ⟨it, hit, rfl⟩ := List.mem_map.1 hi
      obtain ⟨c', h1, _, _, h4, _⟩ := gw.items x hx it hit
      rw [hc] at h1; simp only [Option.some.injEq] at h1; subst h1
      have := o4 x hx it hit
      omega
    · rw [o3 i hi]; omega
  refine ⟨_, hsolve, ?_, ?_⟩
  · intro hok
    refine ⟨?_, ?_, ?_, ?_⟩
    · unfold Fits
      rw [List.forall₂_iff_get]
      refine ⟨by simp, ?_⟩
      intro i h1 h2
      have := hone i cs[i] (List.getElem?_eq_getElem h1)
      simpa using this
    · intro p
      have hget : ∀ i x, i < cs.length → ((List.range cs.length).map res')[i]? = some x →
          x = res' i := by
        intro i x hi hx
        have : ((List.range cs.length).map res')[i]? = some (res' i) := by simp [hi]
        rw [this] at hx; simpa using hx.symm
      by_cases hp : ∃ g ∈ G, g.1 = p
      · obtain ⟨g, hgG, rfl⟩ := hp
        obtain ⟨chunk, hch⟩ := o6 g hgG
        refine ⟨chunk, ?_⟩
        intro i c x hc hx hcp
        have hic := (List.getElem?_eq_some_iff.1 hc).1
        rw [hget i x hic hx]
        by_cases hr : c.min < c.max
        · obtain ⟨g', hg', hi⟩ := List.mem_flatMap.1 (gw.all i c hc hr)
          obtain ⟨it, hit, rfl⟩ := List.mem_map.1 hi
          obtain ⟨c', h1, h2, h3, h4, _⟩ := gw.items g' hg' it hit
          rw [hc] at h1; simp only [Option.some.injEq] at h1; subst h1
          have hgg : g' = g := key_inj gw.sorted hg' hgG (by omega)
          subst hgg
          have := hch it hit c.ratio h3
          have e : minAt cs it.idx = c.min := by simp [minAt, hc]
          rw [e, h4] at this
          exact this
        · have := hone i c hc
          have hle := (hv.each c (List.mem_of_getElem? hc)).1
          have e : c.max - c.min = 0 := by omega
          rw [e, Nat.zero_min]; omega
      · refine ⟨0, ?_⟩
        intro i c x hc hx hcp
        have hic := (List.getElem?_eq_some_iff.1 hc).1
        rw [hget i x hic hx]
        have hr : ¬ c.min < c.max := by
          intro hr
          obtain ⟨g', hg', hi⟩ := List.mem_flatMap.1 (gw.all i c hc hr)
          obtain ⟨it, hit, rfl⟩ := List.mem_map.1 hi
          obtain ⟨c', h1, h2, _⟩ := gw.items g' hg' it hit
          rw [hc] at h1; simp only [Option.some.injEq] at h1; subst h1
          exact hp ⟨g', hg', by omega⟩
        have := hone i c hc
        have hle := (hv.each c (List.mem_of_getElem? hc)).1
        have e : c.max - c.min = 0 := by omega
        rw [e, Nat.zero_min]; omega
    · rw [sum_range_map]; omega
    · intro hT i c x hc hx hlt
      have hic := (List.getElem?_eq_some_iff.1 hc).1
      have hxe : x = res' i := by
        have : ((List.range cs.length).map res')[i]? = some (res' i) := by simp [hic]
        rw [this] at hx; simpa using hx.symm
      subst hxe
      have hci := hone i c hc
      have hig : i ∈ allIdx G := gw.all i c hc (by omega)
      obtain ⟨g, hg', hi⟩ := List.mem_flatMap.1 hig
      obtain ⟨it, hit, rfl⟩ := List.mem_map.1 hi
      obtain ⟨c', h1, h2, _, h4, _⟩ := gw.items g hg' it hit
      rw [hc] at h1; simp only [Option.some.injEq] at h1; subst h1
      have e : minAt cs it.idx = c.min := by simp [minAt, hc]
      obtain ⟨Tp, mid, m1, m2, m3⟩ := o5 (by omega) g hg' it hit (by omega)
      refine ⟨Tp, ?_, ?_⟩
      · have hz : List.zipWith (fun c' x' => if c'.priority ≤ c.priority then x' else c'.min)
            cs ((List.range cs.length).map res') = (List.range cs.length).map mid := by
          apply List.ext_getElem
          · simp
          · intro j j1 j2
            have hj : j < cs.length := by simpa using j2
            simp only [List.getElem_zipWith, List.getElem_map, List.getElem_range]
            rw [m3 j]
            have ej : minAt cs j = cs[j].min := by simp [minAt, hj]
            by_cases hlow : ∃ y ∈ G, g.1 < y.1 ∧ j ∈ idxs y.2.items
            · rw [if_pos hlow]
              obtain ⟨y, hy, hgy, hjy⟩ := hlow
              obtain ⟨a, ha, rfl⟩ := List.mem_map.1 hjy
              obtain ⟨c'', k1, k2, _⟩ := gw.items y hy a ha
              have : cs[a.idx] = c'' := by
                rw [List.getElem?_eq_getElem hj] at k1; simpa using k1
              rw [if_neg (by rw [this]; omega), ← ej]
            · rw [if_neg hlow]
              by_cases hp : cs[j].priority ≤ c.priority
              · rw [if_pos hp]
              · rw [if_neg hp, o3, ej]
                intro hjc
                obtain ⟨y, hy, hjy⟩ := List.mem_flatMap.1 hjc
                apply hlow
                obtain ⟨a, ha, rfl⟩ := List.mem_map.1 hjy
                obtain ⟨c'', k1, k2, _⟩ := gw.items y hy a ha
                have : cs[a.idx] = c'' := by
                  rw [List.getElem?_eq_getElem hj] at k1; simpa using k1
                exact ⟨y, hy, by rw [← k2, ← h2, ← this]; omega, hjy⟩
        rw [hz, sum_range_map]; omega
      · have hr := gw.ratios g hg'
        have hn := gw.counts g hg'
        rw [← h2] at hr hn
        unfold ofPrio at hr hn
        have hsc : scale = 65536 := by decide
        rw [hsc] at m2
        exact lt_of_lt_of_le m2 (Nat.add_le_add (Nat.mul_le_mul_right 65536 hn) hr)
  · intro hno
    have h0 : total - minRequired cs = 0 := by omega
    have hres : ∀ j < cs.length, res' j = minAt cs j := by
      have hle : ∀ j ∈ Finset.range cs.length, minAt cs j ≤ res' j := by
        intro j hj
        have hj' : j < cs.length := by simpa using hj
        have := (hone j cs[j] (List.getElem?_eq_getElem hj')).1
        simpa [minAt, hj'] using this
      have heq : (∑ j ∈ Finset.range cs.length, minAt cs j)
          = ∑ j ∈ Finset.range cs.length, res' j := by
        have := Finset.sum_le_sum hle
        omega
      intro j hj
      exact ((Finset.sum_eq_sum_iff_of_le hle).1 heq j (by simpa using hj)).symm
    rw [← map_minAt]
    apply List.map_congr_left
    intro j hj
    exact hres j (by simpa using hj)

end Tycho.Slicer
