import Verif.Slicer.Lemmas

/-!
# The groups of the solver
-/

namespace Tycho.Slicer

/-- The indices of all groups. -/
def allIdx (G : List (Nat × Group)) : List Nat := G.flatMap fun x => idxs x.2.items

/-- Adding an item to the groups. -/
theorem addItem_spec (p r : Nat) (it : Item) : ∀ (G : List (Nat × Group)),
    G.Pairwise (fun a b => a.1 < b.1) → r ≤ umax →
    (∀ x ∈ G, x.1 = p → x.2.totalRatio + r ≤ umax) →
    ∃ A B g0, (G = A ++ (p, g0) :: B ∨ (G = A ++ B ∧ g0 = ⟨0, []⟩)) ∧
      addItem p r it G = some (A ++ (p, ⟨g0.totalRatio + r, g0.items ++ [it]⟩) :: B) ∧
      (∀ a ∈ A, a.1 < p) ∧ (∀ b ∈ B, p < b.1) := by
  intro G
  induction G with
  | nil =>
    intro _ hr _
    exact ⟨[], [], ⟨0, []⟩, Or.inr (by simp), by simp [addItem, addU, hr], by simp, by simp⟩
  | cons x rest ih =>
    intro hp hr hx
    obtain ⟨q, g⟩ := x
    have ⟨hq, hp'⟩ := List.pairwise_cons.1 hp
    by_cases h1 : p < q
    · refine ⟨[], (q, g) :: rest, ⟨0, []⟩, Or.inr (by simp), by simp [addItem, addU, hr, h1],
        by simp, ?_⟩
      intro b hb
      rcases List.mem_cons.1 hb with rfl | hb
      · exact h1
      · have := hq b hb; simp only at this; omega
    · by_cases h2 : p = q
      · subst h2
        have := hx (p, g) (by simp) rfl
        exact ⟨[], rest, g, Or.inl (by simp), by simp [addItem, addU, this], by simp, hq⟩
      · have ⟨A, B, g0, e1, e2, e3, e4⟩ := ih hp' hr (fun x hm => hx x (by simp [hm]))
        refine ⟨(q, g) :: A, B, g0, ?_, by simp [addItem, h1, h2, e2], ?_, e4⟩
        · rcases e1 with e1 | e1
          · left; simp [e1]
          · right; simp [e1]
        · intro a ha
          rcases List.mem_cons.1 ha with rfl | ha
          · simp only; omega
          · exact e3 a ha

/-- The constraints of a priority. -/
def ofPrio (cs : List Constraint) (p : Nat) : List Constraint :=
  cs.filter fun c => c.priority = p

/-- The groups are those of the constraints `cs`. -/
structure GW (cs : List Constraint) (G : List (Nat × Group)) : Prop where
  sorted : G.Pairwise fun a b => a.1 < b.1
  nodup : (allIdx G).Nodup
  lt : ∀ i ∈ allIdx G, i < cs.length
  total : ∀ x ∈ G, x.2.totalRatio = asum id x.2.items
  items : ∀ x ∈ G, ∀ it ∈ x.2.items, ∃ c, cs[it.idx]? = some c ∧ c.priority = x.1 ∧
    it.ratio = some c.ratio ∧ it.max = c.max - c.min ∧ c.min < c.max
  all : ∀ i c, cs[i]? = some c → c.min < c.max → i ∈ allIdx G
  ratios : ∀ x ∈ G, asum id x.2.items ≤ ((ofPrio cs x.1).map (·.ratio)).sum
  counts : ∀ x ∈ G, active x.2.items ≤ (ofPrio cs x.1).length

theorem asum_append (f : Nat → Nat) (a b : List Item) :
    asum f (a ++ b) = asum f a + asum f b := by
  induction a with
  | nil => simp [asum]
  | cons x a ih => simp only [List.cons_append, asum, ih]; omega

theorem ofPrio_append (cs : List Constraint) (c : Constraint) (p : Nat) :
    ofPrio (cs ++ [c]) p = if c.priority = p then ofPrio cs p ++ [c] else ofPrio cs p := by
  unfold ofPrio
  by_cases h : c.priority = p <;> simp [List.filter_append, h]

theorem ofPrio_mono (cs : List Constraint) (c : Constraint) (p : Nat) :
    ((ofPrio cs p).map (·.ratio)).sum ≤ ((ofPrio (cs ++ [c]) p).map (·.ratio)).sum ∧
    (ofPrio cs p).length ≤ (ofPrio (cs ++ [c]) p).length := by
  rw [ofPrio_append]; split <;> simp

theorem get_append {cs : List Constraint} {c c' : Constraint} {i : Nat}
    (h : cs[i]? = some c') : (cs ++ [c])[i]? = some c' := by
  have := (List.getElem?_eq_some_iff.1 h).1
  rw [List.getElem?_append_left this]; exact h

theorem ofPrio_sum_le (cs : List Constraint) (p : Nat) :
    ((ofPrio cs p).map (·.ratio)).sum ≤ (cs.map (·.ratio)).sum := by
  induction cs with
  | nil => simp [ofPrio]
  | cons c cs ih =>
    unfold ofPrio at *
    by_cases h : c.priority = p <;> simp [h] <;> omega

/-- A constraint without a range changes no group. -/
theorem GW.skip {cs : List Constraint} {G : List (Nat × Group)} (h : GW cs G) {c : Constraint}
    (hc : ¬ c.min < c.max) : GW (cs ++ [c]) G where
  sorted := h.sorted
  nodup := h.nodup
  lt := fun i hi => by have := h.lt i hi; simp; omega
  total := h.total
  items := fun x hx it hit => by
    obtain ⟨c', h1, h2⟩ := h.items x hx it hit
    exact ⟨c', get_append h1, h2⟩
  all := fun i c' h1 h2 => by
    by_cases hi : i < cs.length
    · rw [List.getElem?_append_left hi] at h1
      exact h.all i c' h1 h2
    · rw [List.getElem?_append_right (by omega)] at h1
      have : c = c' := by
        rcases hk : i - cs.length with _ | k
        · rw [hk] at h1; simpa using h1
        · rw [hk] at h1; simp at h1
      subst this; exact absurd h2 hc
  ratios := fun x hx => le_trans (h.ratios x hx) (ofPrio_mono cs c x.1).1
  counts := fun x hx => le_trans (h.counts x hx) (ofPrio_mono cs c x.1).2

/-- A constraint with a range goes to the group of its priority. -/
theorem GW.add {cs : List Constraint} {A B : List (Nat × Group)} {g0 : Group} {c : Constraint}
    {m : Nat} {G : List (Nat × Group)} (h : GW cs G)
    (hG : G = A ++ (c.priority, g0) :: B ∨ (G = A ++ B ∧ g0 = ⟨0, []⟩))
    (hA : ∀ a ∈ A, a.1 < c.priority) (hB : ∀ b ∈ B, c.priority < b.1)
    (hm : c.max - c.min = m + 1) :
    GW (cs ++ [c]) (A ++ (c.priority, ⟨g0.totalRatio + c.ratio,
      g0.items ++ [⟨cs.length, some c.ratio, m + 1⟩]⟩) :: B) := by
  have hAB : ∀ x, x ∈ A ∨ x ∈ B → x ∈ G := by
    intro x hx
    rcases hG with hG | hG
    · rw [hG]; simp; tauto
    · rw [hG.1]; simpa using hx
  have hidx : (allIdx (A ++ (c.priority, ⟨g0.totalRatio + c.ratio,
      g0.items ++ [⟨cs.length, some c.ratio, m + 1⟩]⟩) :: B)).Perm (cs.length :: allIdx G) := by
    have e : allIdx G = allIdx A ++ (idxs g0.items ++ allIdx B) := by
      rcases hG with hG | hG
      · rw [hG]; simp [allIdx]
      · rw [hG.1, hG.2]; simp [allIdx, idxs]
    rw [e]
    simp only [allIdx, idxs, List.flatMap_append, List.flatMap_cons, List.map_append,
      List.map_cons, List.map_nil, List.append_assoc]
    have := List.perm_middle (a := cs.length)
      (l₁ := (A.flatMap fun x => x.2.items.map (·.idx)) ++ g0.items.map (·.idx))
      (l₂ := B.flatMap fun x => x.2.items.map (·.idx))
    simpa using this
  have hg0 : g0.totalRatio = asum id g0.items ∧
      asum id g0.items ≤ ((ofPrio cs c.priority).map (·.ratio)).sum ∧
      active g0.items ≤ (ofPrio cs c.priority).length ∧
      (∀ it ∈ g0.items, ∃ c', cs[it.idx]? = some c' ∧ c'.priority = c.priority ∧
        it.ratio = some c'.ratio ∧ it.max = c'.max - c'.min ∧ c'.min < c'.max) := by
    rcases hG with hG | hG
    · have hmem : (c.priority, g0) ∈ G := by rw [hG]; simp
      exact ⟨h.total _ hmem, h.ratios _ hmem, h.counts _ hmem, h.items _ hmem⟩
    · rw [hG.2]; simp [asum, active]
  refine ⟨?_, ?_, ?_, ?_, ?_, ?_, ?_, ?_⟩
  · rw [List.pairwise_append, List.pairwise_cons]
    have hs := h.sorted
    have hA' : A.Pairwise (fun a b => a.1 < b.1) ∧ B.Pairwise (fun a b => a.1 < b.1) := by
      rcases hG with hG | hG
      · rw [hG, List.pairwise_append, List.pairwise_cons] at hs; exact ⟨hs.1, hs.2.1.2⟩
      · rw [hG.1, List.pairwise_append] at hs; exact ⟨hs.1, hs.2.1⟩
    refine ⟨hA'.1, ⟨hB, hA'.2⟩, ?_⟩
    intro a ha b hb
    rcases List.mem_cons.1 hb with rfl | hb
    · exact hA a ha
    · have := hA a ha; have := hB b hb; omega
  · rw [hidx.nodup_iff, List.nodup_cons]
    exact ⟨fun hc => by have := h.lt _ hc; omega, h.nodup⟩
  · intro i hi
    rw [hidx.mem_iff] at hi
    rcases List.mem_cons.1 hi with rfl | hi
    · simp
    · have := h.lt i hi; simp; omega
  · intro x hx
    rcases List.mem_append.1 hx with hx | hx
    · exact h.total x (hAB x (Or.inl hx))
    · rcases List.mem_cons.1 hx with rfl | hx
      · simp only [asum_append, asum, id_eq, hg0.1]; omega
      · exact h.total x (hAB x (Or.inr hx))
  · have hold : ∀ x, x ∈ A ∨ x ∈ B → ∀ it ∈ x.2.items, ∃ c', (cs ++ [c])[it.idx]? = some c' ∧
        c'.priority = x.1 ∧ it.ratio = some c'.ratio ∧ it.max = c'.max - c'.min ∧
        c'.min < c'.max := by
      intro x hx it hit
      obtain ⟨c', h1, h2⟩ := h.items x (hAB x hx) it hit
      exact ⟨c', get_append h1, h2⟩
    intro x hx it hit
    rcases List.mem_append.1 hx with hx | hx
    · exact hold x (Or.inl hx) it hit
    · rcases List.mem_cons.1 hx with rfl | hx
      · rcases List.mem_append.1 hit with hit | hit
        · obtain ⟨c', h1, h2⟩ := hg0.2.2.2 it hit
          exact ⟨c', get_append h1, h2⟩
        · rw [List.mem_singleton] at hit
          subst hit
          exact ⟨c, by simp, rfl, rfl, hm.symm, by omega⟩
      · exact hold x (Or.inr hx) it hit
  · intro i c' h1 h2
    rw [hidx.mem_iff, List.mem_cons]
    by_cases hi : i < cs.length
    · rw [List.getElem?_append_left hi] at h1
      exact Or.inr (h.all i c' h1 h2)
    · have := (List.getElem?_eq_some_iff.1 h1).1
      simp at this; left; omega
  · intro x hx
    rcases List.mem_append.1 hx with hx | hx
    · exact le_trans (h.ratios x (hAB x (Or.inl hx))) (ofPrio_mono cs c x.1).1
    · rcases List.mem_cons.1 hx with rfl | hx
      · simp only [asum_append, asum, id_eq, ofPrio_append, if_true, List.map_append,
          List.sum_append, List.map_cons, List.map_nil, List.sum_cons, List.sum_nil]
        have := hg0.2.1; omega
      · exact le_trans (h.ratios x (hAB x (Or.inr hx))) (ofPrio_mono cs c x.1).1
  · intro x hx
    rcases List.mem_append.1 hx with hx | hx
    · exact le_trans (h.counts x (hAB x (Or.inl hx))) (ofPrio_mono cs c x.1).2
    · rcases List.mem_cons.1 hx with rfl | hx
      · have := hg0.2.2.1
        unfold active at *
        simp only [asum_append, asum, ofPrio_append, if_true, List.length_append,
          List.length_cons, List.length_nil]
        omega
      · exact le_trans (h.counts x (hAB x (Or.inr hx))) (ofPrio_mono cs c x.1).2

/-- The groups are made. -/
theorem group_spec : ∀ (rest pre : List Constraint) (G : List (Nat × Group)),
    GW pre G → (∀ c ∈ rest, c.min ≤ c.max) →
    ((pre ++ rest).map (·.ratio)).sum ≤ umax →
    ∃ G', group pre.length rest G = some G' ∧ GW (pre ++ rest) G' := by
  intro rest
  induction rest with
  | nil => intro pre G h _ _; exact ⟨G, rfl, by simpa using h⟩
  | cons c rest ih =>
    intro pre G h hc hr
    have hle := hc c (by simp)
    have hlen : pre.length + 1 = (pre ++ [c]).length := by simp
    have happ : pre ++ c :: rest = pre ++ [c] ++ rest := by simp
    have hr' := hr
    rw [happ] at hr
    rcases hm : c.max - c.min with _ | m
    · have ⟨G', e1, e2⟩ := ih (pre ++ [c]) G (h.skip (by omega))
        (fun c hm => hc c (by simp [hm])) hr
      refine ⟨G', ?_, by rw [happ]; exact e2⟩
      simp only [group, subU_some hle, hm]
      rw [hlen]; exact e1
    · have hb : ∀ x ∈ G, x.1 = c.priority → x.2.totalRatio + c.ratio ≤ umax := by
        intro x hx _
        have h1 := h.total x hx
        have h2 := h.ratios x hx
        have h3 := ofPrio_sum_le pre x.1
        simp only [List.map_append, List.sum_append, List.map_cons, List.sum_cons] at hr'
        omega
      have hrc : c.ratio ≤ umax := by
        simp only [List.map_append, List.sum_append, List.map_cons, List.sum_cons] at hr'
        omega
      obtain ⟨A, B, g0, f1, f2, f3, f4⟩ := addItem_spec c.priority c.ratio
        ⟨pre.length, some c.ratio, m + 1⟩ G h.sorted hrc hb
      have ⟨G', e1, e2⟩ := ih (pre ++ [c]) _ (h.add f1 f3 f4 hm)
        (fun c hm => hc c (by simp [hm])) hr
      refine ⟨G', ?_, by rw [happ]; exact e2⟩
      simp only [group, subU_some hle, hm, f2]
      rw [hlen]; exact e1

theorem active_le_length (l : List Item) : active l ≤ l.length := by
  induction l with
  | nil => simp [active, asum]
  | cons a rest ih =>
    unfold active at *
    simp only [asum, List.length_cons]
    split <;> omega

/-- What the loop over the groups does. -/
theorem overGroups_spec (n : Nat) : ∀ (G : List (Nat × Group)) (T : Nat) (res : Nat → Nat),
    G.Pairwise (fun a b => a.1 < b.1) → (allIdx G).Nodup → (∀ i ∈ allIdx G, i < n) →
    (∀ x ∈ G, ∀ it ∈ x.2.items, res it.idx + it.max ≤ umax) →
    (∀ x ∈ G, ∀ it ∈ x.2.items, ∃ r, it.ratio = some r ∧ 1 ≤ r) →
    (∀ x ∈ G, x.2.totalRatio = asum id x.2.items) →
    ∃ T' res', overGroups G T res = some res' ∧
      T' + (∑ j ∈ Finset.range n, res' j) = T + (∑ j ∈ Finset.range n, res j) ∧
      (∀ j, j ∉ allIdx G → res' j = res j) ∧
      (∀ x ∈ G, ∀ it ∈ x.2.items, res it.idx ≤ res' it.idx ∧
        res' it.idx ≤ res it.idx + it.max) ∧
      (T < 2 ^ 48 → ∀ x ∈ G, ∀ it ∈ x.2.items, res' it.idx < res it.idx + it.max →
        ∃ (Tp : Nat) (mid : Nat → Nat), Tp + (∑ j ∈ Finset.range n, mid j) = T + (∑ j ∈ Finset.range n, res j) ∧
          Tp * scale < active x.2.items * scale + asum id x.2.items ∧
          ∀ j, mid j = if (∃ y ∈ G, x.1 < y.1 ∧ j ∈ idxs y.2.items) then res j else res' j) ∧
      (∀ x ∈ G, ∃ chunk, ∀ it ∈ x.2.items, ∀ r, it.ratio = some r →
        res' it.idx = res it.idx + min it.max (share chunk r)) := by
  intro G
  induction G with
  | nil =>
    intro T res _ _ _ _ _ _
    exact ⟨T, res, rfl, rfl, fun _ _ => rfl, by simp, by simp, by simp⟩
  | cons x rest ih =>
    intro T res hp hnd hn hm hr ht
    have ⟨hq, hp'⟩ := List.pairwise_cons.1 hp
    have hsplit : allIdx (x :: rest) = idxs x.2.items ++ allIdx rest := by simp [allIdx]
    rw [hsplit] at hnd hn
    have ⟨hnd1, hnd2, hdis⟩ := List.nodup_append'.1 hnd
    have hmemr : ∀ y ∈ rest, ∀ j ∈ idxs y.2.items, j ∈ allIdx rest := by
      intro y hy j hj
      exact List.mem_flatMap.2 ⟨y, hy, hj⟩
    have hdis1 : ∀ j, j ∈ idxs x.2.items → j ∉ allIdx rest := fun j h1 h2 => hdis h1 h2
    obtain ⟨s1, g1, g2, g3, g4, g5, g6⟩ := groupLoop_spec n (x.2.items.length + 1) x.2.items
      ⟨T, x.2.totalRatio, res⟩ (by have := active_le_length x.2.items; omega) hnd1
      (fun it hit => hn _ (by simp; left; exact List.mem_map_of_mem hit))
      (fun it hit _ => hm x (by simp) it hit)
      (fun it hit r h => by
        obtain ⟨r', e1, e2⟩ := hr x (by simp) it hit
        rw [h] at e1; simp only [Option.some.injEq] at e1; omega)
      (ht x (by simp))
    simp only at g2 g3 g4 g5 g6
    have hout : ∀ y ∈ rest, ∀ it ∈ y.2.items, s1.res it.idx = res it.idx := by
      intro y hy it hit
      apply g3
      intro hc
      exact hdis1 _ hc (hmemr y hy _ (List.mem_map_of_mem hit))
    obtain ⟨T', res', o1, o2, o3, o4, o5, o6⟩ := ih s1.total s1.res hp' hnd2
      (fun i hi => hn i (by simp [hi]))
      (fun y hy it hit => by rw [hout y hy it hit]; exact hm y (by simp [hy]) it hit)
      (fun y hy => hr y (by simp [hy])) (fun y hy => ht y (by simp [hy]))
    have hx' : ∀ it ∈ x.2.items, res' it.idx = s1.res it.idx := fun it hit =>
      o3 _ (hdis1 _ (List.mem_map_of_mem hit))
    have hne : ∀ it ∈ x.2.items, it.ratio ≠ none := by
      intro it hit
      obtain ⟨r, e, _⟩ := hr x (by simp) it hit
      simp [e]
    refine ⟨T', res', ?_, by omega, ?_, ?_, ?_, ?_⟩
    · obtain ⟨p, g⟩ := x
      simp only at g1
      simp [overGroups, g1, o1]
    · intro j hj
      rw [hsplit] at hj
      simp only [List.mem_append, not_or] at hj
      rw [o3 j hj.2, g3 j hj.1]
    · intro y hy it hit
      rcases List.mem_cons.1 hy with rfl | hy
      · have := g4 it hit
        rw [hx' it hit]
        exact ⟨this.1, this.2.1 (hne it hit)⟩
      · have := o4 y hy it hit
        rw [hout y hy it hit] at this
        exact this
    · intro hT y hy it hit hlt
      rcases List.mem_cons.1 hy with rfl | hy
      · refine ⟨s1.total, s1.res, g2, ?_, ?_⟩
        · rcases g5 with g5 | g5
          · have := g5 it hit (hne it hit)
            rw [hx' it hit] at hlt; omega
          · exact g5 hT
        · intro j
          by_cases hj : ∃ z ∈ rest, j ∈ idxs z.2.items
          · obtain ⟨z, hz, hj⟩ := hj
            rw [if_pos ⟨z, by simp [hz], hq z hz, hj⟩]
            apply g3
            intro hc
            exact hdis1 _ hc (hmemr z hz _ hj)
          · rw [if_neg]
            · rw [o3]
              intro hc
              obtain ⟨z, hz, hz'⟩ := List.mem_flatMap.1 hc
              exact hj ⟨z, hz, hz'⟩
            · rintro ⟨z, hz, h1, h2⟩
              rcases List.mem_cons.1 hz with rfl | hz
              · omega
              · exact hj ⟨z, hz, h2⟩
      · have hT1 : s1.total < 2 ^ 48 := by
          have : (∑ j ∈ Finset.range n, res j) ≤ ∑ j ∈ Finset.range n, s1.res j := by
            apply Finset.sum_le_sum
            intro j _
            by_cases hj : j ∈ idxs x.2.items
            · obtain ⟨a, ha, rfl⟩ := List.mem_map.1 hj
              exact (g4 a ha).1
            · rw [g3 j hj]
          omega
        obtain ⟨Tp, mid, m1, m2, m3⟩ := o5 hT1 y hy it hit (by rw [hout y hy it hit]; exact hlt)
        refine ⟨Tp, mid, by omega, m2, ?_⟩
        intro j
        rw [m3 j]
        have hxy := hq y hy
        by_cases hj : ∃ z ∈ rest, y.1 < z.1 ∧ j ∈ idxs z.2.items
        · rw [if_pos hj]
          obtain ⟨z, hz, h1, h2⟩ := hj
          rw [if_pos ⟨z, by simp [hz], h1, h2⟩]
          apply g3
          intro hc
          exact hdis1 _ hc (hmemr z hz _ h2)
        · rw [if_neg hj, if_neg]
          rintro ⟨z, hz, h1, h2⟩
          rcases List.mem_cons.1 hz with rfl | hz
          · omega
          · exact hj ⟨z, hz, h1, h2⟩
    · intro y hy
      rcases List.mem_cons.1 hy with rfl | hy
      · obtain ⟨chunk, _, h⟩ := g6 0 (by omega)
        refine ⟨chunk, ?_⟩
        intro it hit r hr'
        rw [hx' it hit]; exact h it hit r hr'
      · obtain ⟨chunk, h⟩ := o6 y hy
        refine ⟨chunk, ?_⟩
        intro it hit r hr'
        rw [← hout y hy it hit]; exact h it hit r hr'

end Tycho.Slicer
