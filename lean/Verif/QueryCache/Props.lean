import Verif.QueryCache.Model

/-! C182. -/
namespace Tycho.QueryCache

structure Inv (s : S) : Prop where
  held : ∀ k f, (k, f) ∈ s.held → s.cache k = some f
  fresh : ∀ k f, s.cache k = some f → f < s.next
  inj : ∀ k k' f, s.cache k = some f → s.cache k' = some f → k = k'

theorem live_iff {s : S} {f : Nat} : s.live f = true ↔ ∃ k, (k, f) ∈ s.held := by
  unfold S.live
  rw [List.any_eq_true]
  constructor
  · rintro ⟨⟨k, g⟩, hm, hg⟩
    simp only [beq_iff_eq] at hg
    exact ⟨k, hg ▸ hm⟩
  · rintro ⟨k, hm⟩; exact ⟨(k, f), hm, by simp⟩

theorem new_inv {s : S} (h : Inv s) {k : Nat} (hk : ∀ f, (k, f) ∉ s.held) :
    Inv { s with next := s.next + 1, cache := fun q => if q = k then some s.next else s.cache q, held := (k, s.next) :: s.held } := by
  obtain ⟨h1, h2, h3⟩ := h
  refine ⟨?_, ?_, ?_⟩ <;> dsimp only
  · intro a f hm
    rcases List.mem_cons.mp hm with hx | hx
    · simp only [Prod.mk.injEq] at hx
      rw [if_pos hx.1, hx.2]
    · rw [if_neg (by rintro rfl; exact hk f hx)]
      exact h1 a f hx
  · intro a f ha
    split at ha
    · simp only [Option.some.injEq] at ha; omega
    · have := h2 a f ha; omega
  · intro a b f ha hb
    split at ha <;> split at hb
    · simp_all
    · simp only [Option.some.injEq] at ha
      have := h2 b f hb; omega
    · simp only [Option.some.injEq] at hb
      have := h2 a f ha; omega
    · exact h3 a b f ha hb

/-- What `enter` does: the future of the calls there are for the key, or a new one. -/
theorem enter_spec {s : S} (h : Inv s) (k : Nat) :
    ((∃ f, (k, f) ∈ s.held) → (k, (s.enter k).2) ∈ s.held ∧ (s.enter k).1 = { s with held := (k, (s.enter k).2) :: s.held }) ∧
    ((∀ f, (k, f) ∉ s.held) → s.enter k =
      ({ s with
          next := s.next + 1
          cache := fun q => if q = k then some s.next else s.cache q
          held := (k, s.next) :: s.held }, s.next)) := by
  constructor
  · rintro ⟨f, hf⟩
    have hc := h.held k f hf
    have hl : s.live f = true := live_iff.mpr ⟨k, hf⟩
    have : s.enter k = ({ s with held := (k, f) :: s.held }, f) := by
      unfold S.enter
      rw [hc]
      simp only [hl, if_true]
    rw [this]
    exact ⟨hf, rfl⟩
  · intro hno
    unfold S.enter
    cases hc : s.cache k with
    | none => rfl
    | some f =>
      have hl : s.live f = false := by
        cases hl : s.live f with
        | false => rfl
        | true =>
          obtain ⟨k', hk'⟩ := live_iff.mp hl
          have := h.inj k k' f hc (h.held k' f hk')
          exact absurd (this ▸ hk') (hno f)
      simp [hl]

theorem inv_step {s t : S} (h : Inv s) {e : Ev} (hst : s.step e = some t) : Inv t := by
  cases e with
  | enter k =>
    simp only [S.step, Option.some.injEq] at hst
    subst hst
    obtain ⟨h1, h2⟩ := enter_spec h k
    by_cases hex : ∃ f, (k, f) ∈ s.held
    · obtain ⟨h3, h4⟩ := h1 hex
      rw [h4]
      refine ⟨fun a f hm => ?_, h.fresh, h.inj⟩
      dsimp only at hm ⊢
      rcases List.mem_cons.mp hm with hm | hm
      · simp only [Prod.mk.injEq] at hm
        rw [hm.1, hm.2]; exact h.held _ _ h3
      · exact h.held a f hm
    · have hno : ∀ f, (k, f) ∉ s.held := fun f hf => hex ⟨f, hf⟩
      rw [h2 hno]
      exact new_inv h hno
  | leave a last =>
    simp only [S.step, S.leave] at hst
    have key : ∀ r, Inv { s with held := s.held.erase a, removing := r } := fun r =>
      ⟨fun k f hm => h.held k f (List.mem_of_mem_erase hm), h.fresh, h.inj⟩
    split at hst
    · split at hst
      · split at hst
        · simp at hst
        · simp only [Option.some.injEq] at hst; subst hst; exact key _
      · simp only [Option.some.injEq] at hst; subst hst; exact key _
    · simp at hst
  | remove k =>
    simp only [S.step, S.remove] at hst
    split at hst
    · split at hst
      · simp only [Option.some.injEq] at hst; subst hst; exact ⟨h.held, h.fresh, h.inj⟩
      · rename_i f hc
        split at hst
        · simp only [Option.some.injEq] at hst; subst hst; exact ⟨h.held, h.fresh, h.inj⟩
        · rename_i hl
          simp only [Option.some.injEq] at hst
          subst hst
          refine ⟨?_, ?_, ?_⟩ <;> dsimp only
          · intro a g hm
            rw [if_neg]
            · exact h.held a g hm
            · rintro rfl
              have := h.held a g hm
              rw [hc] at this
              simp only [Option.some.injEq] at this
              exact hl (live_iff.mpr ⟨a, this ▸ hm⟩)
          · intro a g ha; split at ha
            · simp at ha
            · exact h.fresh a g ha
          · intro a b g ha hb
            split at ha
            · simp at ha
            · split at hb
              · simp at hb
              · exact h.inj a b g ha hb
    · simp at hst

theorem inv {s : S} {h : List Ev} (hr : Reach s h) : Inv s := by
  induction hr with
  | start => exact ⟨by simp, by simp, by simp⟩
  | step _ hst ih => exact inv_step ih hst

/-- **C182**: all calls for one key that have not let go have the same future, those for different keys different ones. -/
theorem one_in_flight {s : S} {h : List Ev} (hr : Reach s h) {k k' f f' : Nat} (h1 : (k, f) ∈ s.held) (h2 : (k', f') ∈ s.held) :
    k = k' ↔ f = f' := by
  have hi := inv hr
  have c1 := hi.held k f h1
  have c2 := hi.held k' f' h2
  constructor
  · rintro rfl; rw [c1] at c2; simpa using c2
  · rintro rfl; exact hi.inj k k' f c1 c2

/-- **C182**: a call for a key that others wait for gets their future and starts nothing; a call for a key that nobody waits for
starts one new future, that nobody had before. -/
theorem call {s : S} {h : List Ev} (hr : Reach s h) (k : Nat) :
    ((∃ f, (k, f) ∈ s.held) → (k, (s.enter k).2) ∈ s.held ∧ (s.enter k).1.next = s.next) ∧
    ((∀ f, (k, f) ∉ s.held) → (s.enter k).2 = s.next ∧ (s.enter k).1.next = s.next + 1 ∧ ∀ k' f, (k', f) ∈ s.held → f < s.next) := by
  have hi := inv hr
  obtain ⟨h1, h2⟩ := enter_spec hi k
  refine ⟨fun hex => ⟨(h1 hex).1, by rw [(h1 hex).2]⟩, fun hno => ?_⟩
  rw [h2 hno]
  exact ⟨rfl, rfl, fun k' f hm => hi.fresh k' f (hi.held k' f hm)⟩

/-- **C182**: the entry of a future that someone waits for is never removed or replaced. -/
theorem entry_kept {s : S} {h : List Ev} (hr : Reach s h) {k f : Nat} (hm : (k, f) ∈ s.held) : s.cache k = some f :=
  (inv hr).held k f hm

/-- The last was told so each time. -/
def ToldRight : S → Ev → Prop
  | s, .leave h last => last = !(({ s with held := s.held.erase h } : S).live h.2)
  | _, _ => True

/-- The histories in which the last was always told so. -/
inductive ReachTold : S → List Ev → Prop
  | start : ReachTold {} []
  | step {s t h e} : ReachTold s h → ToldRight s e → s.step e = some t → ReachTold t (e :: h)

theorem ReachTold.reach {s : S} {h : List Ev} (hr : ReachTold s h) : Reach s h := by
  induction hr with
  | start => exact .start
  | step _ _ hst ih => exact .step ih hst

theorem told_entries {s : S} {h : List Ev} (hr : ReachTold s h) (k f : Nat) (hc : s.cache k = some f) :
    (k, f) ∈ s.held ∨ k ∈ s.removing := by
  induction hr generalizing k f with
  | start => simp at hc
  | @step s t h e hr ht hst ih =>
    have hi := inv hr.reach
    cases e with
    | enter k0 =>
      simp only [S.step, Option.some.injEq] at hst
      subst hst
      obtain ⟨h1, h2⟩ := enter_spec hi k0
      by_cases hex : ∃ g, (k0, g) ∈ s.held
      · obtain ⟨h3, h4⟩ := h1 hex
        rw [h4] at hc ⊢
        dsimp only at hc ⊢
        rcases ih k f hc with hx | hx
        · exact .inl (List.mem_cons_of_mem _ hx)
        · exact .inr hx
      · rw [h2 (fun g hg => hex ⟨g, hg⟩)] at hc ⊢
        dsimp only at hc ⊢
        split at hc
        · rename_i hk
          simp only [Option.some.injEq] at hc
          left; rw [hk, hc]; exact List.mem_cons_self ..
        · rcases ih k f hc with hx | hx
          · exact .inl (List.mem_cons_of_mem _ hx)
          · exact .inr hx
    | leave a last =>
      simp only [S.step, S.leave] at hst
      simp only [ToldRight] at ht
      split at hst
      · rename_i ha
        have hcs : t.cache = s.cache ∧ t.held = s.held.erase a ∧ (∀ q, q ∈ s.removing → q ∈ t.removing) ∧
            (last = true → a.1 ∈ t.removing) := by
          split at hst
          · split at hst
            · simp at hst
            · simp only [Option.some.injEq] at hst; subst hst
              exact ⟨rfl, rfl, fun q hq => List.mem_cons_of_mem _ hq, fun _ => List.mem_cons_self ..⟩
          · rename_i hl
            simp only [Option.some.injEq] at hst; subst hst
            exact ⟨rfl, rfl, fun q hq => hq, fun h => absurd h hl⟩
        obtain ⟨e1, e2, e3, e4⟩ := hcs
        rw [e1] at hc
        rw [e2]
        rcases ih k f hc with hx | hx
        · by_cases hm : (k, f) ∈ s.held.erase a
          · exact .inl hm
          · right
            have hka : (k, f) = a := Classical.byContradiction fun hne => hm ((List.mem_erase_of_ne hne).mpr hx)
            subst hka
            refine e4 ?_
            rw [ht]
            cases hl : ({ s with held := s.held.erase (k, f) } : S).live f with
            | false => simp
            | true =>
              obtain ⟨k', hk'⟩ := live_iff.mp hl
              dsimp only at hk'
              have := hi.inj k' k f (hi.held k' f (List.mem_of_mem_erase hk')) hc
              exact absurd (this ▸ hk') hm
        · exact .inr (e3 k hx)
      · simp at hst
    | remove k0 =>
      simp only [S.step, S.remove] at hst
      split at hst
      · split at hst
        · rename_i hn
          simp only [Option.some.injEq] at hst; subst hst
          dsimp only at hc ⊢
          rcases ih k f hc with hx | hx
          · exact .inl hx
          · right
            refine (List.mem_erase_of_ne ?_).mpr hx
            rintro rfl; rw [hn] at hc; simp at hc
        · rename_i g hg
          split at hst
          · rename_i hl
            simp only [Option.some.injEq] at hst; subst hst
            dsimp only at hc ⊢
            by_cases hk : k = k0
            · subst hk
              rw [hg] at hc
              simp only [Option.some.injEq] at hc
              subst hc
              obtain ⟨k', hk'⟩ := live_iff.mp hl
              have := hi.inj k' k g (hi.held k' g hk') hg
              exact .inl (this ▸ hk')
            · rcases ih k f hc with hx | hx
              · exact .inl hx
              · exact .inr ((List.mem_erase_of_ne hk).mpr hx)
          · simp only [Option.some.injEq] at hst; subst hst
            dsimp only at hc ⊢
            split at hc
            · simp at hc
            · rename_i hk
              rcases ih k f hc with hx | hx
              · exact .inl hx
              · exact .inr ((List.mem_erase_of_ne hk).mpr hx)
      · simp at hst

/-- **C182**: if the last caller of a future is always told so, then the cache has entries only for keys someone waits for or whose
entry is being removed; so it is empty when all calls have ended, returned or cancelled. -/
theorem no_leak {s : S} {h : List Ev} (hr : ReachTold s h) (h1 : s.held = []) (h2 : s.removing = []) (k : Nat) : s.cache k = none := by
  cases hc : s.cache k with
  | none => rfl
  | some f =>
    rcases told_entries hr k f hc with hx | hx
    · rw [h1] at hx; simp at hx
    · rw [h2] at hx; simp at hx

/-! ## Concrete cases -/

def S.runs (s : S) : List Ev → Option S
  | [] => some s
  | e :: es => (s.step e).bind fun t => t.runs es

theorem reach_runs {s t : S} {h : List Ev} (hr : Reach s h) (es : List Ev) (ht : s.runs es = some t) : Reach t (es.reverse ++ h) := by
  induction es generalizing s h with
  | nil => simp only [S.runs, Option.some.injEq] at ht; simpa [ht] using hr
  | cons e es ih =>
    unfold S.runs at ht
    cases hs : s.step e with
    | none => rw [hs] at ht; simp at ht
    | some u => rw [hs, Option.bind_some] at ht; simpa using ih (.step hr hs) ht

/-- Two calls for 5 share a future, 6 has another; the entry of 5 is removed by the last, but not if a new call came before. -/
example : (S.runs {} [.enter 5, .enter 6, .enter 5]).map (fun s => (s.held, s.next)) = some ([(5, 0), (6, 1), (5, 0)], 2) := by decide
example : (S.runs {} [.enter 5, .enter 5, .leave (5, 0) false, .leave (5, 0) true, .remove 5]).map (fun s => s.cache 5) = some none := by
  decide
example : (S.runs {} [.enter 5, .leave (5, 0) true, .enter 5, .remove 5]).map (fun s => (s.cache 5, s.held)) = some (some 1, [(5, 1)]) := by
  decide
example : (S.runs {} [.enter 5, .enter 5, .leave (5, 0) true]).isNone = true := by decide

/-- **An entry stays** if two let go at the same time and neither is told that it is the last (`SharedFut.nobody_last`); the next
call for the key starts a new future. -/
theorem entry_stays : ∃ s h, Reach s h ∧ s.held = [] ∧ s.removing = [] ∧ s.cache 5 = some 0 ∧ (s.enter 5).2 = 1 := by
  have h1 : (S.runs {} [.enter 5, .enter 5, .leave (5, 0) false, .leave (5, 0) false]).map
      (fun s => decide (s.held = [] ∧ s.removing = [] ∧ s.cache 5 = some 0 ∧ (s.enter 5).2 = 1)) = some true := by decide
  cases hs : S.runs {} [.enter 5, .enter 5, .leave (5, 0) false, .leave (5, 0) false] with
  | none => rw [hs] at h1; simp at h1
  | some s =>
    rw [hs] at h1
    exact ⟨s, _, reach_runs .start _ hs, by simpa using h1⟩

end Tycho.QueryCache
