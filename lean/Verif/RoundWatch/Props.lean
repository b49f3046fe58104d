import Verif.RoundWatch.Model
import Mathlib.Order.Lattice
import Mathlib.Order.Defs.LinearOrder

/-!
# What a watch of rounds promises (C186)
-/

namespace Tycho.RoundWatch

/-- The greatest round set. -/
def top (l : List Nat) : Nat := l.foldr max 0

/-- What a receiver last knew from `next`, or from its creation. -/
def Rx.last (r : Rx) : Nat := r.got.headD r.base

/-- What holds of a receiver. -/
structure RInv (w : W) (r : Rx) : Prop where
  seen : r.seen ≤ w.version
  same : r.seen = w.version → r.mid = false → r.last = w.value
  less : (r.seen ≠ w.version ∨ r.mid = true) → r.last < w.value
  up : (r.got ++ [r.base]).Pairwise (· > ·)
  of : ∀ x ∈ r.got, x ∈ w.sets

/-- What holds of a watch. -/
structure Inv (w : W) : Prop where
  value : w.value = top w.sets
  isSet : w.value = 0 ∨ w.value ∈ w.sets
  rxs : ∀ r ∈ w.rxs, RInv w r

theorem last_ge {r : Rx} (h : (r.got ++ [r.base]).Pairwise (· > ·)) :
    ∀ x ∈ r.got ++ [r.base], x ≤ r.last := by
  unfold Rx.last
  cases hg : r.got with
  | nil => simp
  | cons a l =>
    rw [hg] at h
    intro x hx
    simp only [List.cons_append, List.pairwise_cons] at h
    rcases List.mem_cons.1 hx with rfl | hx
    · simp
    · have := h.1 x hx; simp; omega

theorem inv_step {w w' : W} (h : Inv w) (hs : Step w w') : Inv w' := by
  cases hs with
  | setMax v hc =>
    unfold setMax
    have hv := h.value
    split
    · next hlt =>
      refine ⟨by simp only [top, List.foldr_cons] at *; omega, Or.inr (by simp), ?_⟩
      intro r hr
      have k := h.rxs r hr
      have : r.last ≤ w.value := by
        by_cases e : r.seen = w.version ∧ r.mid = false
        · exact le_of_eq (k.same e.1 e.2)
        · apply le_of_lt; apply k.less
          by_cases e1 : r.seen = w.version
          · right; cases hm : r.mid <;> simp_all
          · exact Or.inl e1
      have hse := k.seen
      refine ⟨by simp only; omega, ?_, ?_, k.up, ?_⟩
      · intro e; simp only at e; omega
      · intro _; simp only; omega
      · intro x hx; exact List.mem_cons_of_mem _ (k.of x hx)
    · next hlt =>
      refine ⟨by simp only [top, List.foldr_cons] at *; omega, ?_, ?_⟩
      · rcases h.isSet with e | e
        · exact Or.inl e
        · exact Or.inr (List.mem_cons_of_mem _ e)
      · intro r hr
        have k := h.rxs r hr
        exact ⟨k.seen, k.same, k.less, k.up, fun x hx => List.mem_cons_of_mem _ (k.of x hx)⟩
  | receiver hc =>
    refine ⟨h.value, h.isSet, ?_⟩
    intro r hr
    simp only [receiver, List.mem_append, List.mem_singleton] at hr
    rcases hr with hr | rfl
    · have k := h.rxs r hr
      exact ⟨k.seen, k.same, k.less, k.up, k.of⟩
    · exact ⟨le_refl _, fun _ _ => rfl, by simp [receiver], by simp, by simp⟩
  | changed i r _ hr hm hch =>
    unfold changed at hch
    split at hch
    · next hne =>
      simp only [Polled.ready.injEq] at hch
      subst hch
      have k := h.rxs r (List.mem_of_getElem? hr)
      refine ⟨h.value, h.isSet, ?_⟩
      intro r' hr'
      rcases List.mem_or_eq_of_mem_set hr' with hr' | rfl
      · have k := h.rxs r' hr'
        exact ⟨k.seen, k.same, k.less, k.up, k.of⟩
      · exact ⟨le_refl _, by simp, fun _ => k.less (Or.inl hne), k.up, k.of⟩
    · split at hch <;> simp at hch
  | update i r hr hm =>
    have k := h.rxs r (List.mem_of_getElem? hr)
    have hl := k.less (Or.inr hm)
    refine ⟨h.value, h.isSet, ?_⟩
    intro r' hr'
    rcases List.mem_or_eq_of_mem_set hr' with hr' | rfl
    · have k := h.rxs r' hr'
      exact ⟨k.seen, k.same, k.less, k.up, k.of⟩
    · refine ⟨le_refl _, fun _ _ => rfl, by simp [update], ?_, ?_⟩
      · simp only [List.cons_append, List.pairwise_cons]
        refine ⟨?_, k.up⟩
        intro x hx
        have := last_ge k.up x hx
        omega
      · intro x hx
        rcases List.mem_cons.1 hx with rfl | hx
        · rcases h.isSet with e | e
          · omega
          · exact e
        · exact k.of x hx
  | close =>
    refine ⟨h.value, h.isSet, ?_⟩
    intro r hr
    have k := h.rxs r hr
    exact ⟨k.seen, k.same, k.less, k.up, k.of⟩

theorem inv {w : W} (h : Reach w) : Inv w := by
  induction h with
  | init => exact ⟨rfl, Or.inl rfl, by simp [init]⟩
  | step w w' _ hs ih => exact inv_step ih hs

theorem top_spec (l : List Nat) : (∀ x ∈ l, x ≤ top l) ∧ (top l = 0 ∨ top l ∈ l) := by
  induction l with
  | nil => simp [top]
  | cons a l ih =>
    simp only [top, List.foldr_cons] at *
    refine ⟨?_, ?_⟩
    · intro x hx
      rcases List.mem_cons.1 hx with rfl | hx
      · exact le_max_left _ _
      · exact le_trans (ih.1 x hx) (le_max_right _ _)
    · rcases le_total a (l.foldr max 0) with e | e
      · rw [max_eq_right e]
        rcases ih.2 with h | h
        · exact Or.inl h
        · exact Or.inr (List.mem_cons_of_mem _ h)
      · rw [max_eq_left e]; right; simp

/-- **C186.** The value is the greatest of all rounds set, or zero. -/
theorem get_greatest {w : W} (h : Reach w) :
    (∀ x ∈ w.sets, x ≤ get w) ∧ (get w = 0 ∨ get w ∈ w.sets) := by
  have := (inv h).value
  unfold get; rw [this]; exact top_spec w.sets

/-- **C186.** `set_max` returns true exactly when the round is greater than all set
before, and then `get` returns it. -/
theorem setMax_true {w : W} (h : Reach w) (v : Nat) :
    ((setMax w v).2 = true ↔ (∀ x ∈ w.sets, x < v) ∧ 0 < v) ∧
      get (setMax w v).1 = max v (get w) := by
  have ⟨h1, h2⟩ := get_greatest h
  unfold get at *
  unfold setMax
  split
  · next hlt =>
    refine ⟨?_, by simp only; omega⟩
    simp only [true_iff]
    exact ⟨fun x hx => by have := h1 x hx; omega, by omega⟩
  · next hlt =>
    refine ⟨?_, by simp only; omega⟩
    simp only [Bool.false_eq_true, false_iff, not_and]
    intro ha
    rcases h2 with e | e
    · omega
    · have := ha _ e; omega

/-- **C186.** What `next` returns to one receiver always grows, is greater than the
value when the receiver was made, and is a round that was set. -/
theorem next_grows {w : W} (h : Reach w) {r : Rx} (hr : r ∈ w.rxs) :
    r.got.Pairwise (· > ·) ∧ (∀ x ∈ r.got, r.base < x) ∧ ∀ x ∈ r.got, x ∈ w.sets := by
  have k := (inv h).rxs r hr
  have u := List.pairwise_append.1 k.up
  exact ⟨u.1, fun x hx => u.2.2 x hx r.base (by simp), k.of⟩

/-- **C186.** `next` returns the greatest round set so far, all of what was set when it
returns. -/
theorem next_newest {w : W} (h : Reach w) (i : Nat) (r : Rx) (hr : w.rxs[i]? = some r) :
    ∃ r', (update w i r).rxs[i]? = some r' ∧ r'.got = top w.sets :: r.got := by
  have hi := (List.getElem?_eq_some_iff.1 hr).1
  refine ⟨{ r with seen := w.version, mid := false, got := w.value :: r.got },
    by simp only [update, List.getElem?_set_self hi], ?_⟩
  simp [(inv h).value]

/-- **C186.** No update is missed: `next` returns at once if a round greater than what
the receiver knew was set, and sleeps or fails only if there is none; it fails only if
all senders are gone. -/
theorem next_misses_none {w : W} (h : Reach w) (i : Nat) (r : Rx) (hr : w.rxs[i]? = some r)
    (hm : r.mid = false) :
    ((∃ x ∈ w.sets, r.last < x) ↔ ∃ w', changed w i r = .ready w') ∧
    (changed w i r = .failed ↔ w.closed = true ∧ ∀ x ∈ w.sets, x ≤ r.last) := by
  have hi := inv h
  have k := hi.rxs r (List.mem_of_getElem? hr)
  have ⟨h1, h2⟩ := get_greatest h
  unfold get at h1 h2
  by_cases e : r.seen = w.version
  · have el := k.same e hm
    have hno : ∀ x ∈ w.sets, x ≤ r.last := fun x hx => by have := h1 x hx; omega
    refine ⟨⟨?_, ?_⟩, ?_⟩
    · rintro ⟨x, hx, hlt⟩; have := hno x hx; omega
    · rintro ⟨w', hw⟩
      unfold changed at hw
      rw [if_neg (by simp [e])] at hw
      split at hw <;> simp at hw
    · unfold changed
      rw [if_neg (by simp [e])]
      cases w.closed <;> simp
      exact hno
  · have hl := k.less (Or.inl e)
    have hmem : w.value ∈ w.sets := by
      rcases h2 with h2 | h2
      · omega
      · exact h2
    refine ⟨⟨fun _ => ⟨_, by unfold changed; rw [if_pos e]⟩, fun _ => ⟨_, hmem, hl⟩⟩, ?_⟩
    constructor
    · intro hf; unfold changed at hf; rw [if_pos e] at hf; simp at hf
    · rintro ⟨_, hno⟩; have := hno _ hmem; omega

/-- A case: two rounds are set while a receiver is about to read; it gets the second
only, and then sleeps. -/
def exW : W := ⟨7, 2, false, [⟨2, false, 0, [7]⟩], [7, 5]⟩

example : Reach exW := by
  have h0 : Reach (receiver init) := Reach.step _ _ Reach.init (Step.receiver _ rfl)
  have h1 : Reach (setMax (receiver init) 5).1 := Reach.step _ _ h0 (Step.setMax _ 5 rfl)
  have h2 : Reach ⟨5, 1, false, [⟨1, true, 0, []⟩], [5]⟩ :=
    Reach.step _ _ h1 (Step.changed _ 0 ⟨0, false, 0, []⟩ _ rfl rfl rfl)
  have h3 : Reach ⟨7, 2, false, [⟨1, true, 0, []⟩], [7, 5]⟩ :=
    Reach.step _ _ h2 (Step.setMax _ 7 rfl)
  exact Reach.step _ _ h3 (Step.update _ 0 ⟨1, true, 0, []⟩ rfl rfl)

example : changed exW 0 ⟨2, false, 0, [7]⟩ = .pending := rfl

end Tycho.RoundWatch
