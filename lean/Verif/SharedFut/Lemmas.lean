import Verif.SharedFut.Model

namespace Tycho.SharedFut

/-- The permit is the handle's. -/
def own (res : Nat → Res) (p : Nat) : Prop := res p = .granted ∨ res p = .permit

/-- The semaphore. -/
structure Sem (res : Nat → Res) (queue : List Nat) (free : Bool) : Prop where
  nodup : queue.Nodup
  mem : ∀ p, p ∈ queue ↔ res p = .queued
  uniq : ∀ p q, own res p → own res q → p = q
  free1 : free = true → ∀ p, ¬ own res p
  free2 : free = false → ∃ p, own res p
  idle : free = true → queue = []

structure Inv (s : S) : Prop where
  sem : Sem s.res s.queue s.free
  dom : ∀ p, p ∉ s.ids → s.pc p = .gone
  gone : ∀ p, s.pc p = .gone → s.res p = .no
  loc : ∀ p, s.pc p = .chk ∨ s.pc p = .run ∨ s.pc p = .wrote → s.res p = .permit
  run : ∀ p, s.pc p = .run → s.state = .polling ∧ s.output = none
  wrote : ∀ p, s.pc p = .wrote → s.state = .polling ∧ s.output ≠ none
  comp : s.state = .complete → s.output ≠ none
  pois : s.state = .poisoned → s.output = none
  poll : s.state = .polling → s.output ≠ none → ∃ p, s.pc p = .wrote
  took : ∀ p, s.pc p = .take ∨ s.pc p = .clone → s.state = .complete
  hold : ∀ p, s.pc p = .out → s.res p = .permit → s.state = .polling ∧ s.output = none ∧ (s.woken p = true ∨ s.waker = some p)
  fresh : ∀ p, s.pc p = .out → s.res p = .no ∨ s.res p = .granted → s.woken p = true
  given : ∀ p v l, (p, v, l) ∈ s.given → s.state = .complete ∧ s.output = some v ∧ (s.pc p = .done ∨ s.pc p = .gone) ∧ p ∈ s.ids
  gnodup : (s.given.map Prod.fst).Nodup
  last : ∀ p v, (p, v, true) ∈ s.given → ∀ q, (s.pc q).hasArc = false
  lasts : (s.given.filter fun g => g.2.2).length ≤ 1
  doneg : ∀ p, s.pc p = .done → p ∈ s.given.map Prod.fst

theorem hasArc_false {pc : Pc} : pc.hasArc = false ↔ pc = .done ∨ pc = .gone := by cases pc <;> simp [Pc.hasArc]
theorem hasArc_true {pc : Pc} : pc.hasArc = true ↔ pc ≠ .done ∧ pc ≠ .gone := by cases pc <;> simp [Pc.hasArc]

/-- What `release` changes. -/
theorem release_spec {s : S} (h : Sem s.res s.queue s.free) (p : Nat) :
    Sem (s.release p).res (s.release p).queue (s.release p).free ∧ (s.release p).res p = .no ∧
    (∀ q, q ≠ p → ((s.release p).res q = s.res q ∧ (s.release p).woken q = s.woken q) ∨
      (s.res q = .queued ∧ (s.release p).res q = .granted ∧ (s.release p).woken q = true)) ∧
    (s.release p).pc = s.pc ∧ (s.release p).state = s.state ∧ (s.release p).output = s.output ∧
    (s.release p).waker = s.waker ∧ (s.release p).given = s.given ∧ (s.release p).ids = s.ids := by
  obtain ⟨h1, h2, h3, h4, h5, h6⟩ := h
  unfold S.release
  cases hr : s.res p with
  | no =>
    exact ⟨⟨h1, h2, h3, h4, h5, h6⟩, hr, fun q _ => .inl ⟨rfl, rfl⟩, rfl, rfl, rfl, rfl, rfl, rfl⟩
  | queued =>
    dsimp only
    refine ⟨⟨h1.erase p, ?_, ?_, ?_, ?_, ?_⟩, by simp [upd], fun q hq => .inl ⟨by simp [upd, hq], rfl⟩, rfl, rfl, rfl, rfl, rfl, rfl⟩
    · intro q
      rw [h1.mem_erase_iff, h2]
      unfold upd
      split <;> simp_all
    · intro a b ha hb
      refine h3 a b ?_ ?_
      · unfold own upd at *; grind
      · unfold own upd at *; grind
    · intro hf q hq
      refine h4 hf q ?_
      unfold own upd at *; grind
    · intro hf
      obtain ⟨q, hq⟩ := h5 hf
      refine ⟨q, ?_⟩
      unfold own upd at *; grind
    · intro hf
      rw [h6 hf]; rfl
  | granted | permit =>
    have ho : own s.res p := by unfold own; simp [hr]
    have hf : s.free = false := by
      cases hf : s.free with
      | false => rfl
      | true => exact absurd ho (h4 hf p)
    dsimp only
    cases hq : s.queue with
    | nil =>
      dsimp only
      refine ⟨⟨by simp, ?_, ?_, ?_, by simp, fun _ => rfl⟩, by simp [upd], fun q hq => .inl ⟨by simp [upd, hq], rfl⟩,
        rfl, rfl, rfl, rfl, rfl, rfl⟩
      · intro q
        rw [hq] at h2
        rw [h2]
        unfold upd
        split <;> simp_all
      · intro a b ha hb
        unfold own upd at *; grind
      · intro _ q hq'
        have := h3 p q ho
        unfold own upd at *; grind
    | cons q qs =>
      dsimp only
      have hqq : s.res q = .queued := (h2 q).mp (by simp [hq])
      have hqp : q ≠ p := by rintro rfl; simp [hr] at hqq
      rw [hq] at h1 h2
      obtain ⟨h7, h8⟩ := List.nodup_cons.mp h1
      refine ⟨⟨h8, ?_, ?_, ?_, ?_, ?_⟩, by simp [upd, hqp.symm], ?_, rfl, rfl, rfl, rfl, rfl, rfl⟩
      · intro a
        have := h2 a
        unfold upd
        grind
      · intro a b ha hb
        have := h3 p a ho
        have := h3 p b ho
        unfold own upd at *; grind
      · intro h; simp [hf] at h
      · intro _; exact ⟨q, by simp [own, upd]⟩
      · intro h; simp [hf] at h
      · intro a ha
        by_cases haq : a = q
        · subst haq; right; simp [upd, hqq]
        · left; simp [upd, haq, ha]

/-- A handle that is not taking is dropped. -/
theorem Inv.drop {s : S} (h : Inv s) {p : Nat} (hp : s.pc p ≠ .wrote) : Inv (s.drop p) := by
  obtain ⟨hs, h0, h1, h2, h3, h4, h5, h6, h7⟩ := release_spec h.sem p
  unfold S.drop
  dsimp only
  refine ⟨hs, ?_, ?_, ?_, ?_, ?_, ?_, ?_, ?_, ?_, ?_, ?_, ?_, ?_, ?_, ?_, ?_⟩ <;> dsimp only <;> simp only [h2, h3, h4, h5, h6, h7]
  · intro q hq; have := h.dom q hq; unfold upd; split <;> simp_all
  · intro q hq
    by_cases hqp : q = p
    · rw [hqp]; exact h0
    · have := h.gone q (by simpa [upd, hqp] using hq)
      have := h1 q hqp
      grind
  · intro q hq
    have := h.loc q
    have := h1 q
    unfold upd at hq; grind
  · intro q hq; have := h.run q; unfold upd at hq; grind
  · intro q hq; have := h.wrote q; unfold upd at hq; grind
  · exact h.comp
  · exact h.pois
  · intro ha hb
    obtain ⟨q, hq⟩ := h.poll ha hb
    exact ⟨q, by unfold upd; grind⟩
  · intro q hq; have := h.took q; unfold upd at hq; grind
  · intro q hq hr
    have := h.hold q
    have := h1 q
    unfold upd at hq; grind
  · intro q hq hr
    have := h.fresh q
    have := h1 q
    unfold upd at hq; grind
  · intro a v l hm
    have := h.given a v l hm
    unfold upd; grind
  · exact h.gnodup
  · intro a v hm q
    have := h.last a v hm q
    unfold upd; split
    · rfl
    · exact this
  · exact h.lasts
  · intro q hq; have := h.doneg q; unfold upd at hq; grind

end Tycho.SharedFut
