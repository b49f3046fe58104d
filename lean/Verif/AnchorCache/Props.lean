import Verif.AnchorCache.Spec
import Mathlib.Tactic.ByContra
/-!
The attempts of readers against the specification; closing; no lost wake-ups.
-/
namespace Tycho.AnchorCache

theorem getElem_pos (l : List Anchor) (x : Nat) : l[pos l x]? = l.find? (fun a => !decide (a.id < x)) := by
  unfold pos
  induction l with
  | nil => rfl
  | cons a l ih =>
    by_cases h : a.id < x
    · simp only [List.takeWhile_cons, h, decide_true, if_true, List.length_cons, List.getElem?_cons_succ,
        List.find?_cons, Bool.not_true]
      exact ih
    · simp [List.takeWhile_cons, h]

theorem drop_pos (l : List Anchor) (x : Nat) : l.drop (pos l x) = l.dropWhile (fun a => decide (a.id < x)) := by
  unfold pos
  induction l with
  | nil => rfl
  | cons a l ih =>
    by_cases h : a.id < x
    · simp [List.takeWhile_cons, List.dropWhile_cons, h]; simpa using ih
    · simp [List.takeWhile_cons, List.dropWhile_cons, h]

theorem take_pos (l : List Anchor) (x : Nat) : l.take (pos l x) = l.takeWhile (fun a => decide (a.id < x)) := by
  unfold pos
  induction l with
  | nil => rfl
  | cons a l ih =>
    by_cases h : a.id < x
    · simp [List.takeWhile_cons, h]; simpa using ih
    · simp [List.takeWhile_cons, h]

theorem takeWhile_eq_filter {l : List Anchor} (h : Ordered l) (x : Nat) :
    l.takeWhile (fun a => decide (a.id < x)) = l.filter (fun a => decide (a.id < x)) := by
  induction l with
  | nil => rfl
  | cons a l ih =>
    obtain ⟨h1, h2⟩ := List.pairwise_cons.1 h
    by_cases hx : a.id < x
    · simp [List.takeWhile_cons, List.filter_cons, hx]
      exact ih h2
    · have : l.filter (fun a => decide (a.id < x)) = [] := by
        rw [List.filter_eq_nil_iff]
        intro b hb
        have := h1 b hb
        simp; omega
      simp [List.takeWhile_cons, List.filter_cons, hx, this]

theorem dropWhile_eq_filter {l : List Anchor} (h : Ordered l) (x : Nat) :
    l.dropWhile (fun a => decide (a.id < x)) = l.filter (fun a => decide (x ≤ a.id)) := by
  induction l with
  | nil => rfl
  | cons a l ih =>
    obtain ⟨h1, h2⟩ := List.pairwise_cons.1 h
    by_cases hx : a.id < x
    · have : ¬ x ≤ a.id := by omega
      simp only [List.dropWhile_cons, List.filter_cons, hx, this, decide_true, decide_false, if_true]
      exact ih h2
    · have h3 : x ≤ a.id := by omega
      have : l.filter (fun a => decide (x ≤ a.id)) = l := by
        rw [List.filter_eq_self]
        intro b hb
        have := h1 b hb
        simp; omega
      simp [List.dropWhile_cons, List.filter_cons, hx, h3, this]

/-- The first anchor not before `x`, in an ordered list that starts at or before `x`... any ordered list. -/
theorem find_ge {l : List Anchor} (h : Ordered l) (x : Nat) (a : Anchor)
    (hf : l.find? (fun a => !decide (a.id < x)) = some a) : a ∈ l ∧ x ≤ a.id ∧ ∀ b ∈ l, x ≤ b.id → a.id ≤ b.id := by
  induction l with
  | nil => cases hf
  | cons c l ih =>
    obtain ⟨h1, h2⟩ := List.pairwise_cons.1 h
    by_cases hx : c.id < x
    · rw [List.find?_cons_of_neg (by simpa using hx)] at hf
      obtain ⟨i1, i2, i3⟩ := ih h2 hf
      refine ⟨List.mem_cons_of_mem _ i1, i2, fun b hb hxb => ?_⟩
      rcases List.mem_cons.1 hb with rfl | hb
      · omega
      · exact i3 b hb hxb
    · rw [List.find?_cons_of_pos (by simpa using hx)] at hf
      injection hf with hf
      subst hf
      refine ⟨List.mem_cons_self, by omega, fun b hb _ => ?_⟩
      rcases List.mem_cons.1 hb with rfl | hb
      · exact Nat.le_refl _
      · exact Nat.le_of_lt (h1 b hb)

theorem Ordered.sub {l l' : List Anchor} (h : Ordered l) (hs : l'.Sublist l) : Ordered l' := List.Pairwise.sublist hs h

theorem visible_ordered {c : Cache} (h : Ordered c.anchors) : Ordered c.visible := by
  unfold Cache.visible
  split
  · exact h
  · exact h.sub List.filter_sublist

theorem mem_visible (c : Cache) (a : Anchor) : a ∈ c.visible ↔ a ∈ c.anchors ∧ c.isOff a.id = false := by
  unfold Cache.visible Cache.isOff
  split <;> simp [*]

theorem ordered_inj {l : List Anchor} (h : Ordered l) {a b : Anchor} (ha : a ∈ l) (hb : b ∈ l) (he : a.id = b.id) :
    a = b := by
  induction l with
  | nil => cases ha
  | cons c l ih =>
    obtain ⟨h1, h2⟩ := List.pairwise_cons.1 h
    rcases List.mem_cons.1 ha with ha' | ha' <;> rcases List.mem_cons.1 hb with hb' | hb'
    · rw [ha', hb']
    · have := h1 b hb'; rw [ha'] at he; omega
    · have := h1 a ha'; rw [hb'] at he; omega
    · exact ih h2 ha' hb'

theorem find_some_iff {l : List Anchor} (h : Ordered l) (id : Nat) (a : Anchor) :
    find l id = some a ↔ a ∈ l ∧ a.id = id := by
  unfold find
  constructor
  · intro hf
    exact ⟨List.mem_of_find?_eq_some hf, by simpa using List.find?_some hf⟩
  · rintro ⟨h1, h2⟩
    cases hf : l.find? (fun a => decide (a.id = id)) with
    | none =>
      rw [List.find?_eq_none] at hf
      exact absurd h2 (by simpa using hf a h1)
    | some b =>
      have hb := List.mem_of_find?_eq_some hf
      have hb2 : b.id = id := by simpa using List.find?_some hf
      rw [ordered_inj h hb h1 (hb2.trans h2.symm)]

theorem find_none_iff (l : List Anchor) (id : Nat) : find l id = none ↔ ∀ a ∈ l, a.id ≠ id := by
  unfold find
  rw [List.find?_eq_none]
  simp

theorem off_mono {c : Cache} {a b : Nat} (h : c.isOff a = true) (hab : a ≤ b) : c.isOff b = true := by
  unfold Cache.isOff at *
  split at h
  · simp at *; omega
  · cases h

/-- **A request by id is answered exactly**: by the anchor if it is visible; by "does not exist" if it is not there and
a later one is visible; otherwise the reader waits. There is no error. -/
theorem by_id_exact (c : Cache) (h : Ordered c.anchors) (id : Nat) : c.byId id = specById c.visible id := by
  have hv := visible_ordered h
  unfold specById
  -- what is visible at `id`
  have hsome : ∀ a, a ∈ c.anchors → a.id = id → c.isOff id = false → find c.visible id = some a := by
    intro a h1 h2 h3
    exact (find_some_iff hv id a).2 ⟨(mem_visible c a).2 ⟨h1, by rw [h2]; exact h3⟩, h2⟩
  have hnone : (∀ a ∈ c.visible, a.id ≠ id) → find c.visible id = none := (find_none_iff _ _).2
  unfold Cache.byId
  by_cases ho : c.isOff id = true
  · rw [if_pos ho, hnone, if_neg]
    · intro hany
      obtain ⟨a, ha, hlt⟩ := List.any_eq_true.1 hany
      have := off_mono ho (Nat.le_of_lt (of_decide_eq_true hlt))
      have := ((mem_visible c a).1 ha).2
      simp_all
    · intro a ha he
      have := ((mem_visible c a).1 ha).2
      rw [he, ho] at this
      cases this
  · rw [if_neg ho]
    have ho' : c.isOff id = false := by simpa using ho
    cases hl : c.anchors with
    | nil =>
      have : c.visible = [] := by unfold Cache.visible; split <;> simp [hl]
      simp [this, find]
    | cons first rest =>
      simp only [Cache.byIdFrom]
      have hmin : ∀ a ∈ c.anchors, first.id ≤ a.id := by
        intro a ha
        rw [hl] at ha h
        rcases List.mem_cons.1 ha with rfl | ha
        · exact Nat.le_refl _
        · exact Nat.le_of_lt ((List.pairwise_cons.1 h).1 a ha)
      have hfirst : first ∈ c.anchors := by rw [hl]; exact List.mem_cons_self
      by_cases h1 : id < first.id
      · rw [if_pos h1, hnone (fun a ha he => by have := hmin a ((mem_visible c a).1 ha).1; omega)]
        by_cases h2 : c.isOff first.id = true
        · rw [if_pos h2]
          simp only
          rw [if_neg]
          intro hany
          obtain ⟨a, ha, _⟩ := List.any_eq_true.1 hany
          have := off_mono h2 (hmin a ((mem_visible c a).1 ha).1)
          have := ((mem_visible c a).1 ha).2
          simp_all
        · rw [if_neg h2]
          simp only
          rw [if_pos]
          exact List.any_eq_true.2 ⟨first, (mem_visible c first).2 ⟨hfirst, by simpa using h2⟩, by simpa using h1⟩
      · rw [if_neg h1, getElem_pos]
        cases hf : c.anchors.find? (fun a => !decide (a.id < id)) with
        | none =>
          rw [List.find?_eq_none] at hf
          have hlt : ∀ a ∈ c.visible, a.id < id := fun a ha => by simpa using hf a ((mem_visible c a).1 ha).1
          rw [hnone (fun a ha he => by have := hlt a ha; omega)]
          simp only [Cache.byIdAt]
          rw [if_neg]
          intro hany
          obtain ⟨a, ha, h2⟩ := List.any_eq_true.1 hany
          have := hlt a ha
          have := of_decide_eq_true h2
          omega
        | some a =>
          obtain ⟨f1, f2, f3⟩ := find_ge h id a hf
          simp only [Cache.byIdAt]
          by_cases h2 : c.isOff a.id = true
          · rw [if_pos h2]
            have hbig : ∀ b ∈ c.visible, b.id < id := by
              intro b hb
              by_contra hc
              obtain ⟨b1, b2⟩ := (mem_visible c b).1 hb
              have := off_mono h2 (f3 b b1 (by omega))
              rw [b2] at this; cases this
            rw [hnone (fun b hb he => by have := hbig b hb; omega)]
            simp only
            rw [if_neg]
            intro hany
            obtain ⟨b, hb, h3⟩ := List.any_eq_true.1 hany
            have := hbig b hb
            have := of_decide_eq_true h3
            omega
          · rw [if_neg h2]
            have ha : a ∈ c.visible := (mem_visible c a).2 ⟨f1, by simpa using h2⟩
            by_cases h3 : a.id = id
            · rw [if_pos h3, hsome a f1 h3 ho']
            · rw [if_neg h3, if_pos (by omega), hnone]
              · simp only
                rw [if_pos]
                exact List.any_eq_true.2 ⟨a, ha, by simp; omega⟩
              · intro b hb he
                have := f3 b ((mem_visible c b).1 hb).1 (by omega)
                omega

theorem find_gt_eq (l : List Anchor) (x : Nat) :
    l.find? (fun a => decide (x < a.id)) = l.find? (fun a => !decide (a.id < x + 1)) := by
  congr 1
  funext a
  by_cases h : x < a.id
  · have : ¬ a.id < x + 1 := by omega
    simp [h, this]
  · have : a.id < x + 1 := by omega
    simp [h, this]

theorem find_gt_of {l : List Anchor} (h : Ordered l) (x : Nat) (a : Anchor) (h1 : a ∈ l) (h2 : x < a.id)
    (h3 : ∀ b ∈ l, x < b.id → a.id ≤ b.id) : l.find? (fun a => decide (x < a.id)) = some a := by
  cases hf : l.find? (fun a => decide (x < a.id)) with
  | none => rw [List.find?_eq_none] at hf; exact absurd h2 (by simpa using hf a h1)
  | some b =>
    rw [find_gt_eq] at hf
    obtain ⟨f1, f2, f3⟩ := find_ge h (x + 1) b hf
    rw [ordered_inj h f1 h1 (Nat.le_antisymm (f3 a h1 (by omega)) (h3 b f1 (by omega)))]

theorem find_gt_none {l : List Anchor} {x : Nat} (h : ∀ a ∈ l, a.id ≤ x) :
    l.find? (fun a => decide (x < a.id)) = none := by
  rw [List.find?_eq_none]
  intro a ha
  have := h a ha
  simp; omega

/-- In an ordered list, the element after the one with id `x` is the first one after `x`. -/
theorem getElem_pos_succ {l : List Anchor} (h : Ordered l) (x : Nat) (a : Anchor) (ha : a ∈ l) (hx : a.id = x) :
    l[pos l x + 1]? = l.find? (fun b => decide (x < b.id)) := by
  induction l with
  | nil => cases ha
  | cons c l ih =>
    obtain ⟨h1, h2⟩ := List.pairwise_cons.1 h
    rcases List.mem_cons.1 ha with rfl | ha
    · have hp : pos (a :: l) x = 0 := by
        unfold pos
        rw [List.takeWhile_cons, if_neg (by simp; omega)]; rfl
      rw [hp, List.find?_cons_of_neg (by simp; omega)]
      cases l with
      | nil => rfl
      | cons b l =>
        have := h1 b List.mem_cons_self
        rw [List.find?_cons_of_pos (by simp; omega)]
        rfl
    · have hc := h1 a ha
      have hp : pos (c :: l) x = pos l x + 1 := by
        unfold pos
        rw [List.takeWhile_cons, if_pos (by simp; omega)]; rfl
      rw [hp, List.getElem?_cons_succ, List.find?_cons_of_neg (by simp; omega)]
      exact ih h2 ha

theorem link_answer (n : Anchor) (prev : Nat) :
    (match n.prev with
      | .none => Answer.some n
      | .some p => if prev = p then .some n else if prev < p then .err .gap else .err .unexpected) =
    if n.follows prev = true then Answer.some n else .err (linkError n prev) := by
  obtain ⟨id, pr, au, ti, ex⟩ := n
  unfold Anchor.follows linkError
  cases pr with
  | none => simp
  | some p =>
    by_cases h4 : prev = p
    · simp [h4]
    · have : ¬ p = prev := fun e => h4 e.symm
      simp only [h4, this, if_false, reduceCtorEq, decide_false, Bool.false_or, Option.some.injEq, Bool.false_eq_true]
      split <;> rfl

/-- **A request for the next anchor is answered exactly** as the specification says from the visible anchors. -/
theorem next_exact (c : Cache) (h : Ordered c.anchors) (prev : Nat) : c.next prev = specNext c.visible prev := by
  have hv := visible_ordered h
  unfold Cache.next specNext
  by_cases ho : c.isOff (min (prev + 1) maxId) = true
  · rw [if_pos ho, find_gt_none]
    intro a ha
    by_contra hc
    have := ((mem_visible c a).1 ha).2
    have h2 := off_mono ho (Nat.le_trans (Nat.min_le_left _ _) (by omega : prev + 1 ≤ a.id))
    rw [this] at h2
    cases h2
  · rw [if_neg ho]
    cases hl : c.anchors with
    | nil =>
      have : c.visible = [] := by unfold Cache.visible; split <;> simp [hl]
      simp [this]
    | cons first rest =>
      simp only [Cache.nextFrom]
      have hmin : ∀ a ∈ c.anchors, first.id ≤ a.id := by
        intro a ha
        rw [hl] at ha h
        rcases List.mem_cons.1 ha with rfl | ha
        · exact Nat.le_refl _
        · exact Nat.le_of_lt ((List.pairwise_cons.1 h).1 a ha)
      have hfirst : first ∈ c.anchors := by rw [hl]; exact List.mem_cons_self
      by_cases h1 : prev < first.id
      · rw [if_pos h1]
        unfold Cache.nextOfOld
        by_cases h2 : c.isOff first.id = true
        · rw [if_pos h2, find_gt_none]
          intro a ha
          obtain ⟨a1, a2⟩ := (mem_visible c a).1 ha
          have := off_mono h2 (hmin a a1)
          rw [a2] at this; cases this
        · rw [if_neg h2, find_gt_of hv prev first ((mem_visible c first).2 ⟨hfirst, by simpa using h2⟩) h1
            (fun b hb _ => hmin b ((mem_visible c b).1 hb).1)]
          have e1 : c.visible.any (fun a => decide (a.id = prev)) = false := by
            rw [List.any_eq_false]
            intro a ha
            have := hmin a ((mem_visible c a).1 ha).1
            simp; omega
          have e2 : c.visible.any (fun a => decide (a.id < prev)) = false := by
            rw [List.any_eq_false]
            intro a ha
            have := hmin a ((mem_visible c a).1 ha).1
            simp; omega
          simp only [e1, e2]
          cases hp : first.prev with
          | none => simp
          | some p => simp
      · rw [if_neg h1, getElem_pos]
        cases hf : c.anchors.find? (fun a => !decide (a.id < prev)) with
        | none =>
          rw [List.find?_eq_none] at hf
          simp only [Cache.nextOfUnknown]
          rw [find_gt_none]
          intro a ha
          have : a.id < prev := by simpa using hf a ((mem_visible c a).1 ha).1
          omega
        | some a =>
          obtain ⟨f1, f2, f3⟩ := find_ge h prev a hf
          simp only
          by_cases h2 : a.id = prev
          · rw [if_pos h2, getElem_pos_succ h prev a f1 h2]
            cases hg : c.anchors.find? (fun b => decide (prev < b.id)) with
            | none =>
              rw [List.find?_eq_none] at hg
              simp only [Cache.nextOfKnown]
              rw [find_gt_none]
              intro b hb
              have : ¬ prev < b.id := by simpa using hg b ((mem_visible c b).1 hb).1
              omega
            | some n =>
              rw [find_gt_eq] at hg
              obtain ⟨g1, g2, g3⟩ := find_ge h (prev + 1) n hg
              simp only [Cache.nextOfKnown]
              by_cases h3 : c.isOff n.id = true
              · rw [if_pos h3, find_gt_none]
                intro b hb
                by_contra hc
                obtain ⟨b1, b2⟩ := (mem_visible c b).1 hb
                have := off_mono h3 (g3 b b1 (by omega))
                rw [b2] at this; cases this
              · rw [if_neg h3, find_gt_of hv prev n ((mem_visible c n).2 ⟨g1, by simpa using h3⟩) (by omega)
                  (fun b hb hb2 => g3 b ((mem_visible c b).1 hb).1 (by omega))]
                have e1 : c.visible.any (fun a => decide (a.id = prev)) = true := by
                  refine List.any_eq_true.2 ⟨a, (mem_visible c a).2 ⟨f1, ?_⟩, by simp [h2]⟩
                  by_contra hc
                  exact h3 (off_mono (by simpa using hc) (by omega))
                simp only [e1, if_true]
                exact link_answer n prev
          · rw [if_neg h2]
            simp only [Cache.nextOfUnknown]
            by_cases h3 : c.isOff a.id = true
            · rw [if_pos h3, find_gt_none]
              intro b hb
              by_contra hc
              obtain ⟨b1, b2⟩ := (mem_visible c b).1 hb
              have := off_mono h3 (f3 b b1 (by omega))
              rw [b2] at this; cases this
            · rw [if_neg h3, find_gt_of hv prev a ((mem_visible c a).2 ⟨f1, by simpa using h3⟩) (by omega)
                (fun b hb hb2 => f3 b ((mem_visible c b).1 hb).1 (by omega))]
              have e1 : c.visible.any (fun a => decide (a.id = prev)) = false := by
                rw [List.any_eq_false]
                intro b hb
                simp only [decide_eq_true_eq]
                intro he
                have := f3 b ((mem_visible c b).1 hb).1 (by omega)
                omega
              have e2 : c.visible.any (fun a => decide (a.id < prev)) = true := by
                refine List.any_eq_true.2 ⟨first, (mem_visible c first).2 ⟨hfirst, ?_⟩, ?_⟩
                · by_contra hc
                  exact h3 (off_mono (by simpa using hc) (hmin a f1))
                · simp only [decide_eq_true_eq]
                  have hne : first.id ≠ prev := by
                    intro he
                    have := f3 first hfirst (by omega)
                    omega
                  omega
              simp [e1, e2]

/-- All requests at once. -/
theorem answer_exact (c : Cache) (h : Ordered c.anchors) (r : Req) : c.answer r = specAnswer c.visible r := by
  cases r with
  | byId id => exact by_id_exact c h id
  | next prev => exact next_exact c h prev

end Tycho.AnchorCache
