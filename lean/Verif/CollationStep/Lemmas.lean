import Mathlib.Data.List.Induction
import Verif.CollationStep.Spec

namespace Tycho.CollationStep
open Tycho.Table

/-! ## Facts -/

theorem factOf_snoc (isMc mcCt a b l e) :
    factOf isMc mcCt a b (l ++ [e]) = factStep isMc mcCt a b (factOf isMc mcCt a b l) e := by
  simp [factOf]

theorem first_eq (isMc mcCt a b) (l : List Ev) :
    (factOf isMc mcCt a b l).first = l.head?.map (·.ct) := by
  induction l using List.reverseRecOn with
  | nil => rfl
  | append_singleton l e ih =>
    rw [factOf_snoc]
    simp only [factStep, ih]
    cases l <;> simp

theorem forced_iff (isMc mcCt a b) (l : List Ev) :
    (factOf isMc mcCt a b l).forced.isSome = true ↔ ∃ e ∈ l, e.forced = true := by
  induction l using List.reverseRecOn with
  | nil => simp [factOf]
  | append_singleton l e ih =>
    rw [factOf_snoc]
    simp only [factStep]
    cases h : (factOf isMc mcCt a b l).forced with
    | none =>
      rw [h] at ih
      have ih' : ¬ ∃ e ∈ l, e.forced = true := by simpa using ih.not
      cases he : e.forced <;> simp_all
    | some t =>
      rw [h] at ih
      have ih' : ∃ e ∈ l, e.forced = true := by simpa using ih
      obtain ⟨x, hx, hf⟩ := ih'
      simp only [Option.isNone_some, Bool.and_false]
      constructor
      · intro _; exact ⟨x, by simp [hx], hf⟩
      · intro _; simp

theorem forced_mem (isMc mcCt a b) (l : List Ev) {t} (h : (factOf isMc mcCt a b l).forced = some t) :
    ∃ e ∈ l, e.forced = true ∧ e.ct = t := by
  induction l using List.reverseRecOn with
  | nil => simp [factOf] at h
  | append_singleton l e ih =>
    rw [factOf_snoc] at h
    simp only [factStep] at h
    split at h
    · rename_i c
      simp only [Bool.and_eq_true] at c
      simp only [Option.some.injEq] at h
      exact ⟨e, by simp, c.1, h⟩
    · obtain ⟨x, hx, hy⟩ := ih h
      exact ⟨x, by simp [hx], hy⟩

theorem max_mem (isMc mcCt a b) (l : List Ev) {t} (h : (factOf isMc mcCt a b l).max = some t) :
    ∃ e ∈ l, e.ct = t ∧ b ≤ t - mcCt := by
  induction l using List.reverseRecOn with
  | nil => simp [factOf] at h
  | append_singleton l e ih =>
    rw [factOf_snoc] at h
    simp only [factStep] at h
    split at h
    · rename_i c
      simp only [Bool.and_eq_true, decide_eq_true_eq] at c
      simp only [Option.some.injEq] at h
      exact ⟨e, by simp, h, h ▸ c.2⟩
    · obtain ⟨x, hx, hy⟩ := ih h
      exact ⟨x, by simp [hx], hy⟩

theorem min_mem (isMc mcCt a b) (l : List Ev) {t} (h : (factOf isMc mcCt a b l).min = some t) :
    ∃ e ∈ l, e.ct = t ∧ a ≤ t - mcCt := by
  induction l using List.reverseRecOn with
  | nil => simp [factOf] at h
  | append_singleton l e ih =>
    rw [factOf_snoc] at h
    simp only [factStep] at h
    split at h
    · rename_i c
      simp only [Bool.and_eq_true, decide_eq_true_eq] at c
      simp only [Option.some.injEq] at h
      exact ⟨e, by simp, h, h ▸ c.2⟩
    · obtain ⟨x, hx, hy⟩ := ih h
      exact ⟨x, by simp [hx], hy⟩

theorem max_iff (isMc mcCt a b) (l : List Ev) :
    (factOf isMc mcCt a b l).max.isSome = true ↔ ∃ e ∈ l, b ≤ e.ct - mcCt := by
  constructor
  · intro h
    obtain ⟨t, ht⟩ := Option.isSome_iff_exists.mp h
    obtain ⟨e, he, rfl, h'⟩ := max_mem _ _ _ _ _ ht
    exact ⟨e, he, h'⟩
  · rintro ⟨x, hx, hb⟩
    induction l using List.reverseRecOn with
    | nil => cases hx
    | append_singleton l e ih =>
      rw [factOf_snoc]
      simp only [factStep]
      split
      · rfl
      · rename_i c
        rcases List.mem_append.mp hx with hx | hx
        · exact ih hx
        · simp only [List.mem_singleton] at hx
          subst hx
          by_contra hn
          simp_all

theorem min_iff (isMc mcCt a b) (l : List Ev) :
    (factOf isMc mcCt a b l).min.isSome = true ↔ ∃ e ∈ l, a ≤ e.ct - mcCt := by
  constructor
  · intro h
    obtain ⟨t, ht⟩ := Option.isSome_iff_exists.mp h
    obtain ⟨e, he, rfl, h'⟩ := min_mem _ _ _ _ _ ht
    exact ⟨e, he, h'⟩
  · rintro ⟨x, hx, hb⟩
    induction l using List.reverseRecOn with
    | nil => cases hx
    | append_singleton l e ih =>
      rw [factOf_snoc]
      simp only [factStep]
      split
      · rfl
      · rename_i c
        rcases List.mem_append.mp hx with hx | hx
        · exact ih hx
        · simp only [List.mem_singleton] at hx
          subst hx
          by_contra hn
          simp_all

theorem ext_mc (mcCt a b) (l : List Ev) : (factOf true mcCt a b l).ext = false := by
  induction l using List.reverseRecOn with
  | nil => rfl
  | append_singleton l e ih =>
    rw [factOf_snoc]
    simp only [factStep, extStep]
    split
    · exact ih
    · simpa using ih

theorem ext_inv (mcCt a B) (l : List Ev) (ho : Ordered l) :
    (∀ x, (factOf false mcCt a B l).lastBlk = some x → (∃ e ∈ l, e.block = some x) ∧
      ∀ e' ∈ l, ∀ y, e'.block = some y → y.prevMc ≤ x.prevMc) ∧
    ((factOf false mcCt a B l).lastBlk = none → ∀ e ∈ l, e.block = none) ∧
    ((factOf false mcCt a B l).ext = true ↔ HasExt l) := by
  induction l using List.reverseRecOn with
  | nil => simp [factOf, HasExt]
  | append_singleton l e ih =>
    have hol : Ordered l := (List.pairwise_append.mp ho).1
    have hoe : ∀ p ∈ l, ∀ x y, p.block = some x → e.block = some y → x.prevMc ≤ y.prevMc :=
      fun p hp => (List.pairwise_append.mp ho).2.2 p hp e (by simp)
    obtain ⟨i1, i2, i3⟩ := ih hol
    rw [factOf_snoc]
    generalize factOf false mcCt a B l = f at i1 i2 i3
    cases he : e.block with
    | none =>
      have hx : HasExt (l ++ [e]) ↔ HasExt l := by
        constructor
        · rintro ⟨p, hp, x, hx, hxe, hm⟩
          rcases List.mem_append.mp hp with hp | hp
          · exact ⟨p, hp, x, hx, hxe, fun q hq => hm q (by simp [hq])⟩
          · simp only [List.mem_singleton] at hp; subst hp; rw [he] at hx; cases hx
        · rintro ⟨p, hp, x, hx, hxe, hm⟩
          refine ⟨p, by simp [hp], x, hx, hxe, fun q hq y hy => ?_⟩
          rcases List.mem_append.mp hq with hq | hq
          · exact hm q hq y hy
          · simp only [List.mem_singleton] at hq; subst hq; rw [he] at hy; cases hy
      refine ⟨?_, ?_, ?_⟩
      · intro x hl
        simp only [factStep, he] at hl
        obtain ⟨⟨p, hp, hpx⟩, hm⟩ := i1 x hl
        refine ⟨⟨p, by simp [hp], hpx⟩, fun q hq y hy => ?_⟩
        rcases List.mem_append.mp hq with hq | hq
        · exact hm q hq y hy
        · simp only [List.mem_singleton] at hq; subst hq; rw [he] at hy; cases hy
      · intro hl
        simp only [factStep, he] at hl
        intro q hq
        rcases List.mem_append.mp hq with hq | hq
        · exact i2 hl q hq
        · simp only [List.mem_singleton] at hq; subst hq; exact he
      · rw [hx, ← i3]; simp [factStep, extStep, he]
    | some b =>
      refine ⟨?_, ?_, ?_⟩
      · intro x hl
        simp only [factStep, he, Option.some.injEq] at hl
        subst hl
        refine ⟨⟨e, by simp, he⟩, fun q hq y hy => ?_⟩
        rcases List.mem_append.mp hq with hq | hq
        · exact hoe q hq y b hy he
        · simp only [List.mem_singleton] at hq; subst hq; rw [he] at hy; cases hy; exact Nat.le_refl _
      · intro hl; simp [factStep, he] at hl
      · -- the new value
        have hval : (factStep false mcCt a B f e).ext = true ↔
            b.ext = true ∨ (firstAfterMaster f.lastBlk b = false ∧ f.ext = true) := by
          simp only [factStep, extStep, he]
          cases b.ext <;> cases firstAfterMaster f.lastBlk b <;> cases f.ext <;> simp
        rw [hval]
        constructor
        · rintro (hb | ⟨hf, hx⟩)
          · refine ⟨e, by simp, b, he, hb, fun q hq y hy => ?_⟩
            rcases List.mem_append.mp hq with hq | hq
            · exact hoe q hq y b hy he
            · simp only [List.mem_singleton] at hq; subst hq; rw [he] at hy; cases hy; exact Nat.le_refl _
          · obtain ⟨p, hp, x, hpx, hxe, hm⟩ := i3.mp hx
            refine ⟨p, by simp [hp], x, hpx, hxe, fun q hq y hy => ?_⟩
            rcases List.mem_append.mp hq with hq | hq
            · exact hm q hq y hy
            · simp only [List.mem_singleton] at hq; subst hq; rw [he] at hy; cases hy
              cases hl : f.lastBlk with
              | none => have := i2 hl p hp; rw [hpx] at this; cases this
              | some lb =>
                obtain ⟨⟨r, hr, hrb⟩, _⟩ := i1 lb hl
                have h1 := hm r hr lb hrb
                simp only [firstAfterMaster, hl, decide_eq_false_iff_not] at hf
                omega
        · rintro ⟨p, hp, x, hpx, hxe, hm⟩
          rcases List.mem_append.mp hp with hp | hp
          · have h1 := hm e (by simp) b he
            cases hl : f.lastBlk with
            | none => have := i2 hl p hp; rw [hpx] at this; cases this
            | some lb =>
              obtain ⟨_, hmax⟩ := i1 lb hl
              have h2 := hmax p hp x hpx
              right
              refine ⟨by simp only [firstAfterMaster, decide_eq_false_iff_not]; omega, i3.mpr ?_⟩
              exact ⟨p, hp, x, hpx, hxe, fun q hq => hm q (by simp [hq])⟩
          · simp only [List.mem_singleton] at hp; subst hp
            rw [he] at hpx; cases hpx
            exact .inl hxe

/-- Every shard's reports are ordered. -/
def AllOrdered (s : Sync) : Prop := ∀ sid, Ordered (stateOf s sid).events

theorem anyExt_iff {s active a b} (ho : AllOrdered s) :
    anyExt s active a b = true ↔ SomeExt s active := by
  simp only [anyExt, SomeExt, List.any_eq_true, facts]
  constructor
  · rintro ⟨sid, h1, h2⟩
    by_cases h : sid = mc
    · subst h; simp [ext_mc] at h2
    · refine ⟨sid, h1, h, (ext_inv s.latest a b _ (ho sid)).2.2.mp ?_⟩
      have hb : (sid == mc) = false := by simpa using h
      rw [hb] at h2
      exact h2
  · rintro ⟨sid, h1, h, h2⟩
    refine ⟨sid, h1, ?_⟩
    have hb : (sid == mc) = false := by simpa using h
    rw [hb]
    exact (ext_inv s.latest a b _ (ho sid)).2.2.mpr h2

/-! ## Candidates -/

theorem choose_isSome {cur st f np any hard} :
    (choose cur st f np any hard).isSome = true ↔
      f.forced.isSome = true ∨ (hard = true ∧ f.first.isSome = true) ∨
      ((any = true ∨ np ≠ none) ∧ (cur = true ∨ st ≠ .attempts) ∧ f.min.isSome = true) ∨
      (any = false ∧ np = none ∧ f.max.isSome = true) := by
  unfold choose
  cases f.forced <;> cases f.first <;> cases f.min <;> cases f.max <;> cases np <;> cases any <;>
    cases hard <;> cases cur <;> cases st <;> simp

theorem candidate_isSome {s active a b cur sid} (ho : AllOrdered s) :
    (candidate s active a b cur sid).isSome = true ↔ Agrees s (SomeExt s active) a b cur sid := by
  have hany := anyExt_iff (s := s) (active := active) (a := a) (b := b) ho
  have hany' : anyExt s active a b = false ↔ ¬ SomeExt s active := by
    rw [← hany]; simp
  unfold candidate Agrees
  rw [choose_isSome, hany, hany']
  simp only [facts, forced_iff, min_iff, max_iff, first_eq]
  simp only [Option.isSome_map, List.isSome_head?, beq_iff_eq]

/-! ## States of shards -/

theorem get_map_states (t : Tycho.Table.Table Sid CState) (f : Sid → CState → CState) (k : Sid) :
    Tycho.Table.get (t.map (fun e => (e.1, f e.1 e.2))) k = (Tycho.Table.get t k).map (f k) := by
  induction t with
  | nil => rfl
  | cons e t ih =>
    obtain ⟨j, v⟩ := e
    simp only [List.map_cons, Tycho.Table.get]
    by_cases h : j = k
    · subst h; simp
    · simp [h, ih]

theorem stateOf_map (s : Sync) (f) (hf : ∀ k, f k {} = {}) (k : Sid) :
    stateOf (mapStates s f) k = f k (stateOf s k) := by
  unfold stateOf mapStates
  simp only [get_map_states]
  cases get s.states k <;> simp [hf]

theorem stateOf_put (s : Sync) (sid : Sid) (v : CState) (k : Sid) (l h n) :
    stateOf { latest := l, hard := h, noPending := n, states := put s.states sid v } k =
      if k = sid then v else stateOf s k := by
  unfold stateOf
  simp only [get_put]
  by_cases e : k = sid
  · simp [e]
  · have e' : ¬ sid = k := fun x => e x.symm
    simp [e]

theorem stateOf_push (s sid c k) : stateOf (push s sid c) k =
    if k = sid then { stateOf s sid with
      events := (stateOf s sid).events ++ [⟨c.ct, c.force.isForced, c.block⟩] } else stateOf s k := by
  unfold push; exact stateOf_put _ _ _ _ _ _ _

theorem stateOf_setStatus (s sid st k) : stateOf (setStatus s sid st) k =
    if k = sid then { stateOf s sid with status := st } else stateOf s k := by
  unfold setStatus; exact stateOf_put _ _ _ _ _ _ _

theorem stateOf_renew (s t k) : stateOf (renew s t) k =
    { stateOf s k with events := (stateOf s k).events.filter (fun e => t < e.ct) } := by
  unfold renew
  rw [stateOf_map]
  · rfl
  · intro k; rfl

theorem stateOf_collateAt (s t k) : stateOf (collateAt s t) k =
    { status := .attempts,
      events := if k = mc then [] else (stateOf s k).events.filter (fun e => t < e.ct) } := by
  unfold collateAt
  dsimp only
  have : ∀ (x : Sync) (n : Option Nat) (h : Bool), stateOf { x with hard := h, noPending := n } k = stateOf x k :=
    fun _ _ _ => rfl
  rw [this, stateOf_renew, stateOf_map]
  · by_cases h : k = mc
    · simp [h]
    · simp [h]
  · intro k; by_cases h : k = mc <;> simp [h]

theorem stateOf_resync (s t k) : stateOf (resync s t) k =
    { status := .attempts,
      events := match t with
        | some t => (stateOf s k).events.filter (fun e => t < e.ct)
        | none => (stateOf s k).events } := by
  unfold resync
  dsimp only
  rw [stateOf_map _ _ (by intro k; rfl)]
  cases t with
  | none => rfl
  | some t => simp only [stateOf_renew]

theorem stateOf_goOn (s sid bc me k) : stateOf (goOn s sid bc me).1 k =
    let st := newStatus bc me (sid == mc) (othersReady s sid)
    let v := if k = sid then { stateOf s sid with status := st } else stateOf s k
    if wakes sid v.status then { v with status := .attempts } else v := by
  unfold goOn
  dsimp only
  rw [stateOf_map _ _ (by intro k; cases sid <;> simp [wakes]), stateOf_setStatus]

theorem newStatus_not_woken (sid bc me o) : wakes sid (newStatus bc me (sid == mc) o) = true →
    sid = mc → me = false := by
  intro h e
  subst e
  cases bc <;> cases me <;> cases o <;> simp_all [newStatus, wakes]

end Tycho.CollationStep
