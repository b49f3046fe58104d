import Verif.SharedFut.Lemmas

namespace Tycho.SharedFut

theorem inv_start : Inv {} := by
  refine ⟨⟨by simp, by simp, ?_, ?_, by simp, by simp⟩, ?_, ?_, ?_, ?_, ?_, by simp, by simp, ?_, ?_, ?_, ?_, by simp, by simp, by simp, by simp, ?_⟩
  · intro p q h; simp [own] at h
  · intro _ p h; simp [own] at h
  all_goals grind

theorem step_spawn {s t : S} (h : Inv s) {p : Nat} (hst : s.step (.spawn p) = some t) : Inv t := by
  simp only [S.step] at hst
  split at hst
  · rename_i hc
    obtain ⟨hc1, hc2⟩ := hc
    simp only [Option.some.injEq] at hst
    subst hst
    have hg := h.dom p hc1
    have hr := h.gone p hg
    obtain ⟨q, hq, hqa⟩ := List.any_eq_true.mp hc2
    obtain ⟨x1, x2, x3, x4, x5, x6, x7, x8, x9, x10, x11, x12, x13, x14, x15, x16, x17⟩ := h
    refine ⟨x1, ?_, ?_, ?_, ?_, ?_, x7, x8, ?_, ?_, ?_, ?_, ?_, x14, ?_, x16, ?_⟩ <;> dsimp only
    · intro a ha; have := x2 a; unfold upd; grind
    · intro a ha; have := x3 a; unfold upd at ha; grind
    · intro a ha; have := x4 a; unfold upd at ha; grind
    · intro a ha; have := x5 a; unfold upd at ha; grind
    · intro a ha; have := x6 a; unfold upd at ha; grind
    · intro ha hb; obtain ⟨a, ha⟩ := x9 ha hb; exact ⟨a, by unfold upd; grind⟩
    · intro a ha; have := x10 a; unfold upd at ha; grind
    · intro a ha hb; have := x11 a; unfold upd at *; grind
    · intro a ha hb; have := x12 a; unfold upd at *; grind
    · intro a v l hm; have := x13 a v l hm; unfold upd; grind
    · intro a v hm; exact absurd hqa (by rw [x15 a v hm q]; simp)
    · intro a ha; have := x17 a; unfold upd at ha; grind
  · simp at hst

/-- A handle moves on in its poll, with the permit or the queue changed as given. -/
theorem Inv.move {s : S} (h : Inv s) {p : Nat} (pc : Pc) (res : Res) (queue : List Nat) (free : Bool) (woken : Nat → Bool)
    (waker : Option Nat) (hp : s.pc p ≠ .gone ∧ s.pc p ≠ .wrote ∧ s.pc p ≠ .done) (hpc : pc ≠ .gone ∧ pc ≠ .wrote ∧ pc ≠ .done)
    (hsem : Sem (upd s.res p res) queue free)
    (hloc : pc = .chk ∨ pc = .run → res = .permit)
    (hrun : pc = .run → s.state = .polling ∧ s.output = none)
    (htook : pc = .take ∨ pc = .clone → s.state = .complete)
    (hhold : pc = .out → res = .permit → s.state = .polling ∧ s.output = none ∧ (woken p = true ∨ waker = some p))
    (hfresh : pc = .out → res = .no ∨ res = .granted → woken p = true)
    (hwoken : ∀ q, q ≠ p → woken q = s.woken q)
    (hwaker : ∀ q, q ≠ p → s.pc q = .out → s.res q = .permit → waker = s.waker) :
    Inv { s with pc := upd s.pc p pc, res := upd s.res p res, queue := queue, free := free, woken := woken, waker := waker } := by
  have hpa : p ∈ s.ids := Classical.byContradiction fun hc => hp.1 (h.dom p hc)
  obtain ⟨x1, x2, x3, x4, x5, x6, x7, x8, x9, x10, x11, x12, x13, x14, x15, x16, x17⟩ := h
  refine ⟨hsem, ?_, ?_, ?_, ?_, ?_, x7, x8, ?_, ?_, ?_, ?_, ?_, x14, ?_, x16, ?_⟩ <;> dsimp only
  · intro a ha; have := x2 a; unfold upd; grind
  · intro a ha; have := x3 a; unfold upd at *; grind
  · intro a ha; have := x4 a; unfold upd at *; grind
  · intro a ha; have := x5 a; unfold upd at *; grind
  · intro a ha; have := x6 a; unfold upd at *; grind
  · intro ha hb; obtain ⟨a, ha⟩ := x9 ha hb; exact ⟨a, by unfold upd; grind⟩
  · intro a ha; have := x10 a; unfold upd at *; grind
  · intro a ha hb; have := x11 a; have := hwoken a; have := hwaker a; unfold upd at *; grind
  · intro a ha hb; have := x12 a; have := hwoken a; unfold upd at *; grind
  · intro a v l hm; have := x13 a v l hm; unfold upd; grind
  · intro a v hm
    have := x15 a v hm p
    rw [hasArc_false] at this
    grind
  · intro a ha; have := x17 a; unfold upd at ha; grind

theorem upd_self {α : Type} (f : Nat → α) (p : Nat) : upd f p (f p) = f := by
  funext q; unfold upd; split
  · rename_i h; rw [h]
  · rfl

theorem step_poll {s t : S} (h : Inv s) {p : Nat} (hst : s.step (.poll p) = some t) : Inv t := by
  simp only [S.step] at hst
  split at hst
  · rename_i hc
    simp only [Option.some.injEq] at hst
    subst hst
    have := h.move (p := p) (if s.state = .complete then .take else .loaded) (s.res p) s.queue s.free (upd s.woken p false) s.waker
      (by rw [hc]; simp) (by split <;> simp) (by rw [upd_self]; exact h.sem) (by split <;> simp) (by split <;> simp)
      (by split <;> simp_all) (by split <;> simp) (by split <;> simp) (fun q hq => by simp [upd, hq]) (fun q _ _ _ => rfl)
    rw [upd_self] at this
    exact this
  · simp at hst

theorem sem_take {res : Nat → Res} {queue : List Nat} {free : Bool} (h : Sem res queue free) {p : Nat} (hp : res p = .granted) :
    Sem (upd res p .permit) queue free := by
  obtain ⟨h1, h2, h3, h4, h5, h6⟩ := h
  have hown : ∀ q, own (upd res p .permit) q ↔ own res q := by
    intro q; unfold own upd; grind
  refine ⟨h1, ?_, ?_, ?_, ?_, h6⟩
  · intro q; rw [h2]; unfold upd; grind
  · intro a b; rw [hown, hown]; exact h3 a b
  · intro hf q; rw [hown]; exact h4 hf q
  · intro hf; obtain ⟨q, hq⟩ := h5 hf; exact ⟨q, (hown q).mpr hq⟩

theorem sem_first {res : Nat → Res} {queue : List Nat} (h : Sem res queue true) {p : Nat} (hp : res p = .no) :
    Sem (upd res p .permit) queue false := by
  obtain ⟨h1, h2, h3, h4, h5, h6⟩ := h
  have h4 := h4 rfl
  refine ⟨h1, ?_, ?_, by simp, ?_, by simp⟩
  · intro q; rw [h2]; unfold upd; grind
  · intro a b ha hb
    have := h4 a; have := h4 b
    unfold own upd at *; grind
  · intro _; exact ⟨p, by simp [own, upd]⟩

theorem sem_queue {res : Nat → Res} {queue : List Nat} (h : Sem res queue false) {p : Nat} (hp : res p = .no) :
    Sem (upd res p .queued) (queue ++ [p]) false := by
  obtain ⟨h1, h2, h3, h4, h5, h6⟩ := h
  have hown : ∀ q, own (upd res p .queued) q ↔ own res q := by
    intro q; unfold own upd; grind
  refine ⟨?_, ?_, ?_, by simp, ?_, by simp⟩
  · rw [List.nodup_append]
    refine ⟨h1, by simp, fun a ha b hb => ?_⟩
    have := (h2 a).mp ha
    grind
  · intro q
    have := h2 q
    rw [List.mem_append, List.mem_singleton]; unfold upd; grind
  · intro a b; rw [hown, hown]; exact h3 a b
  · intro hf; obtain ⟨q, hq⟩ := h5 hf; exact ⟨q, (hown q).mpr hq⟩

theorem step_acquire {s t : S} (h : Inv s) {p : Nat} (hst : s.step (.acquire p) = some t) : Inv t := by
  simp only [S.step] at hst
  split at hst
  · rename_i hc
    have hp : s.pc p ≠ .gone ∧ s.pc p ≠ .wrote ∧ s.pc p ≠ .done := by rw [hc]; simp
    cases hr : s.res p with
    | permit =>
      rw [hr] at hst
      simp only [Option.some.injEq] at hst
      subst hst
      have := h.move (p := p) .chk (s.res p) s.queue s.free s.woken s.waker hp (by simp) (by rw [upd_self]; exact h.sem)
        (by simp [hr]) (by simp) (by simp) (by simp) (by simp) (fun _ _ => rfl) (fun _ _ _ _ => rfl)
      rw [upd_self] at this
      exact this
    | granted =>
      rw [hr] at hst
      simp only [Option.some.injEq] at hst
      subst hst
      exact h.move (p := p) .chk .permit s.queue s.free s.woken s.waker hp (by simp) (sem_take h.sem hr)
        (by simp) (by simp) (by simp) (by simp) (by simp) (fun _ _ => rfl) (fun _ _ _ _ => rfl)
    | queued =>
      rw [hr] at hst
      simp only [Option.some.injEq] at hst
      subst hst
      have := h.move (p := p) .out (s.res p) s.queue s.free s.woken s.waker hp (by simp) (by rw [upd_self]; exact h.sem)
        (by simp) (by simp) (by simp) (by simp [hr]) (by simp [hr]) (fun _ _ => rfl) (fun _ _ _ _ => rfl)
      rw [upd_self] at this
      exact this
    | no =>
      rw [hr] at hst
      simp only at hst
      split at hst
      · rename_i hf
        simp only [Option.some.injEq] at hst
        subst hst
        have hsem := h.sem
        rw [hf] at hsem
        exact h.move (p := p) .chk .permit s.queue false s.woken s.waker hp (by simp) (sem_first hsem hr)
          (by simp) (by simp) (by simp) (by simp) (by simp) (fun _ _ => rfl) (fun _ _ _ _ => rfl)
      · rename_i hf
        simp only [Option.some.injEq] at hst
        subst hst
        have hsem := h.sem
        simp only [Bool.not_eq_true] at hf
        rw [hf] at hsem
        have := h.move (p := p) .out .queued (s.queue ++ [p]) false s.woken s.waker hp (by simp) (sem_queue hsem hr)
          (by simp) (by simp) (by simp) (by simp) (by simp) (fun _ _ => rfl) (fun _ _ _ _ => rfl)
        rw [← hf] at this
        exact this
  · simp at hst

theorem step_check {s t : S} (h : Inv s) {p : Nat} (hst : s.step (.check p) = some t) : Inv t := by
  simp only [S.step] at hst
  split at hst
  · rename_i hc
    have hp : s.pc p ≠ .gone ∧ s.pc p ≠ .wrote ∧ s.pc p ≠ .done := by rw [hc]; simp
    have hres := h.loc p (.inl hc)
    cases hs : s.state with
    | complete =>
      rw [hs] at hst
      simp only [Option.some.injEq] at hst
      subst hst
      have := h.move (p := p) .take (s.res p) s.queue s.free s.woken s.waker hp (by simp) (by rw [upd_self]; exact h.sem)
        (by simp) (by simp) (by simp [hs]) (by simp) (by simp) (fun _ _ => rfl) (fun _ _ _ _ => rfl)
      rw [upd_self, hs] at this
      exact this
    | poisoned =>
      rw [hs] at hst
      simp only [Option.some.injEq] at hst
      subst hst
      exact h.drop hp.2.1
    | polling =>
      rw [hs] at hst
      simp only [Option.some.injEq] at hst
      subst hst
      have hout : s.output = none := by
        cases ho : s.output with
        | none => rfl
        | some v =>
          obtain ⟨q, hq⟩ := h.poll hs (by simp [ho])
          have := h.sem.uniq p q (.inr hres) (.inr (h.loc q (by simp [hq])))
          subst this
          rw [hc] at hq; simp at hq
      have := h.move (p := p) .run (s.res p) s.queue s.free s.woken s.waker hp (by simp) (by rw [upd_self]; exact h.sem)
        (by simp [hres]) (by simp [hs, hout]) (by simp) (by simp) (by simp) (fun _ _ => rfl) (fun _ _ _ _ => rfl)
      rw [upd_self, hs] at this
      exact this
  · simp at hst

theorem step_pending {s t : S} (h : Inv s) {p : Nat} (hst : s.step (.innerPending p) = some t) : Inv t := by
  simp only [S.step] at hst
  split at hst
  · rename_i hc
    simp only [Option.some.injEq] at hst
    subst hst
    have hres := h.loc p (by simp [hc])
    have hr := h.run p hc
    have := h.move (p := p) .out (s.res p) s.queue s.free s.woken (some p) (by rw [hc]; simp) (by simp) (by rw [upd_self]; exact h.sem)
      (by simp) (by simp) (by simp) (fun _ _ => ⟨hr.1, hr.2, .inr rfl⟩) (by simp [hres]) (fun _ _ => rfl)
      (fun q hq _ hq2 => absurd (h.sem.uniq q p (.inr hq2) (.inr hres)) hq)
    rw [upd_self] at this
    exact this
  · simp at hst

theorem step_ready {s t : S} (h : Inv s) {p v : Nat} (hst : s.step (.innerReady p v) = some t) : Inv t := by
  simp only [S.step] at hst
  split at hst
  · rename_i hc
    simp only [Option.some.injEq] at hst
    subst hst
    have hres := h.loc p (by simp [hc])
    have hr := h.run p hc
    have hpa : p ∈ s.ids := Classical.byContradiction fun hx => by have := h.dom p hx; rw [hc] at this; simp at this
    have huniq : ∀ q, s.res q = .permit → q = p := fun q hq => h.sem.uniq q p (.inr hq) (.inr hres)
    obtain ⟨x1, x2, x3, x4, x5, x6, x7, x8, x9, x10, x11, x12, x13, x14, x15, x16, x17⟩ := h
    refine ⟨x1, ?_, ?_, ?_, ?_, ?_, by simp, ?_, ?_, ?_, ?_, ?_, ?_, x14, ?_, x16, ?_⟩ <;> dsimp only
    · intro a ha; have := x2 a; unfold upd; grind
    · intro a ha; have := x3 a; unfold upd at *; grind
    · intro a ha; have := x4 a; unfold upd at *; grind
    · intro a ha; have := x4 a; have := huniq a; unfold upd at *; grind
    · intro a ha; have := x6 a; unfold upd at *; grind
    · intro ha; rw [hr.1] at ha; simp at ha
    · intro _ _; exact ⟨p, by simp [upd]⟩
    · intro a ha; have := x10 a; unfold upd at *; grind
    · intro a ha hb; have := x11 a; have := huniq a; unfold upd at *; grind
    · intro a ha hb; have := x12 a; unfold upd at *; grind
    · intro a w l hm; have := x13 a w l hm; rw [hr.2] at this; simp at this
    · intro a w hm; have := x13 a w true hm; rw [hr.2] at this; simp at this
    · intro a ha; have := x17 a; unfold upd at ha; grind
  · simp at hst

theorem step_panic {s t : S} (h : Inv s) {p : Nat} (hst : s.step (.innerPanic p) = some t) : Inv t := by
  simp only [S.step] at hst
  split at hst
  · rename_i hc
    simp only [Option.some.injEq] at hst
    subst hst
    have hres := h.loc p (by simp [hc])
    have hr := h.run p hc
    have huniq : ∀ q, s.res q = .permit → q = p := fun q hq => h.sem.uniq q p (.inr hq) (.inr hres)
    have hd := h.drop (p := p) (by rw [hc]; simp)
    obtain ⟨_, h0, h1, h2, h3, h4, h5, h6, h7⟩ := release_spec h.sem p
    have hgiven : ∀ a w l, (a, w, l) ∉ s.given := fun a w l hm => by
      have := h.given a w l hm; rw [hr.2] at this; simp at this
    have heq : ({ s with state := .poisoned } : S).drop p = { s.drop p with state := .poisoned } := by
      unfold S.drop S.release
      dsimp only
      split
      · rfl
      · rfl
      · split <;> rfl
    rw [heq]
    have g1 : (s.drop p).given = s.given := h6
    have g2 : (s.drop p).output = s.output := h4
    have g4 : (s.drop p).state = s.state := h3
    have hno : ∀ q, (s.drop p).pc q ≠ .run ∧ (s.drop p).pc q ≠ .wrote ∧ ¬ ((s.drop p).pc q = .out ∧ (s.drop p).res q = .permit) ∧
        (s.drop p).pc q ≠ .take ∧ (s.drop p).pc q ≠ .clone := by
      intro q
      have e1 : (s.drop p).pc q = if q = p then .gone else s.pc q := by unfold S.drop upd; dsimp only; rw [h2]
      have e2 : (s.drop p).res q = (s.release p).res q := rfl
      have := h.loc q; have := huniq q; have := h1 q; have := h.took q
      rw [e1, e2]
      grind
    obtain ⟨x1, x2, x3, x4, x5, x6, x7, x8, x9, x10, x11, x12, x13, x14, x15, x16, x17⟩ := hd
    refine ⟨x1, x2, x3, x4, ?_, ?_, by simp, ?_, by simp, ?_, ?_, x12, ?_, x14, x15, x16, x17⟩ <;> dsimp only
    · intro q hq; exact absurd hq (hno q).1
    · intro q hq; exact absurd hq (hno q).2.1
    · intro _; rw [g2]; exact hr.2
    · intro q hq
      rcases hq with hq | hq
      · exact absurd hq (hno q).2.2.2.1
      · exact absurd hq (hno q).2.2.2.2
    · intro q hq hq2; exact absurd ⟨hq, hq2⟩ (hno q).2.2.1
    · intro a w l hm; rw [g1] at hm; exact absurd hm (hgiven a w l)
  · simp at hst

theorem step_store {s t : S} (h : Inv s) {p : Nat} (hst : s.step (.store p) = some t) : Inv t := by
  simp only [S.step] at hst
  split at hst
  · rename_i hc
    simp only [Option.some.injEq] at hst
    subst hst
    have hres := h.loc p (by simp [hc])
    have hw := h.wrote p hc
    have hpa : p ∈ s.ids := Classical.byContradiction fun hx => by have := h.dom p hx; rw [hc] at this; simp at this
    have huniq : ∀ q, s.res q = .permit → q = p := fun q hq => h.sem.uniq q p (.inr hq) (.inr hres)
    have hgiven : ∀ a w l, (a, w, l) ∉ s.given := fun a w l hm => by
      have := h.given a w l hm; rw [hw.1] at this; simp at this
    obtain ⟨x1, x2, x3, x4, x5, x6, x7, x8, x9, x10, x11, x12, x13, x14, x15, x16, x17⟩ := h
    refine ⟨x1, ?_, ?_, ?_, ?_, ?_, fun _ => hw.2, by simp, by simp, by simp, ?_, ?_, ?_, x14, ?_, x16, ?_⟩ <;> dsimp only
    · intro a ha; have := x2 a; unfold upd; grind
    · intro a ha; have := x3 a; unfold upd at *; grind
    · intro a ha; have := x4 a; unfold upd at *; grind
    · intro a ha; have := x4 a; have := huniq a; unfold upd at *; grind
    · intro a ha; have := x4 a; have := huniq a; unfold upd at *; grind
    · intro a ha hb; have := huniq a; unfold upd at *; grind
    · intro a ha hb; have := x12 a; unfold upd at *; grind
    · intro a w l hm; exact absurd hm (hgiven a w l)
    · intro a w hm; exact absurd hm (hgiven a w true)
    · intro a ha; have := x17 a; unfold upd at ha; grind
  · simp at hst

/-- A poll returns the output. -/
theorem Inv.finish {s : S} (h : Inv s) {p v : Nat} {l : Bool} (hp : s.pc p = .take ∨ s.pc p = .clone) (ho : s.output = some v)
    (hl : l = true → ∀ q, q ≠ p → (s.pc q).hasArc = false) :
    Inv { s with pc := upd s.pc p .done, given := (p, v, l) :: s.given } := by
  have hs := h.took p hp
  have hpa : p ∈ s.ids := Classical.byContradiction fun hx => by have := h.dom p hx; rw [this] at hp; simp at hp
  have hno : ∀ w l, (p, w, l) ∉ s.given := fun w l hm => by
    have := (h.given p w l hm).2.2.1
    rcases hp with hp | hp <;> rw [hp] at this <;> simp at this
  have hnl : ∀ a w, (a, w, true) ∉ s.given := fun a w hm => by
    have := h.last a w hm p
    rw [hasArc_false] at this
    rcases hp with hp | hp <;> rw [hp] at this <;> simp at this
  obtain ⟨x1, x2, x3, x4, x5, x6, x7, x8, x9, x10, x11, x12, x13, x14, x15, x16, x17⟩ := h
  refine ⟨x1, ?_, ?_, ?_, ?_, ?_, x7, x8, ?_, ?_, ?_, ?_, ?_, ?_, ?_, ?_, ?_⟩ <;> dsimp only
  · intro a ha; have := x2 a; unfold upd; grind
  · intro a ha; have := x3 a; unfold upd at *; grind
  · intro a ha; have := x4 a; unfold upd at *; grind
  · intro a ha; have := x5 a; unfold upd at *; grind
  · intro a ha; have := x6 a; unfold upd at *; grind
  · intro ha; rw [hs] at ha; simp at ha
  · intro a ha; have := x10 a; unfold upd at *; grind
  · intro a ha hb; have := x11 a; unfold upd at *; grind
  · intro a ha hb; have := x12 a; unfold upd at *; grind
  · intro a w m hm
    rcases List.mem_cons.mp hm with hm | hm
    · simp only [Prod.mk.injEq] at hm
      obtain ⟨rfl, rfl, rfl⟩ := hm
      exact ⟨hs, ho, .inl (by simp [upd]), hpa⟩
    · have := x13 a w m hm; unfold upd; grind
  · rw [List.map_cons, List.nodup_cons]
    refine ⟨fun hm => ?_, x14⟩
    obtain ⟨⟨a, w, m⟩, hm, he⟩ := List.mem_map.mp hm
    dsimp only at he
    exact hno w m (he ▸ hm)
  · intro a w hm q
    rcases List.mem_cons.mp hm with hm | hm
    · simp only [Prod.mk.injEq] at hm
      have := hl hm.2.2.symm q
      unfold upd; split
      · rfl
      · rename_i hq; exact this hq
    · exact absurd hm (hnl a w)
  · have h0 : s.given.filter (fun g => g.2.2) = [] := by
      rw [List.filter_eq_nil_iff]
      rintro ⟨a, w, m⟩ hm hx
      dsimp only at hx
      exact hnl a w (hx ▸ hm)
    rw [List.filter_cons, h0]; split <;> simp
  · intro a ha
    rw [List.map_cons, List.mem_cons]
    by_cases hap : a = p
    · exact .inl hap
    · exact .inr (x17 a (by simpa [upd, hap] using ha))

theorem step_unwrap {s t : S} (h : Inv s) {p : Nat} (hst : s.step (.unwrap p) = some t) : Inv t := by
  simp only [S.step] at hst
  split at hst
  · rename_i hc
    split at hst
    · simp only [Option.some.injEq] at hst
      subst hst
      have := h.move (p := p) .clone (s.res p) s.queue s.free s.woken s.waker (by rw [hc]; simp) (by simp)
        (by rw [upd_self]; exact h.sem) (by simp) (by simp) (fun _ => h.took p (.inl hc)) (by simp) (by simp)
        (fun _ _ => rfl) (fun _ _ _ _ => rfl)
      rw [upd_self] at this
      exact this
    · rename_i hn
      cases ho : s.output with
      | none => rw [ho] at hst; simp at hst
      | some v =>
        rw [ho] at hst
        simp only [Option.map_some, Option.some.injEq] at hst
        subst hst
        have hf := h.finish (l := true) (.inl hc) ho fun _ q hq => by
          by_cases hqi : q ∈ s.ids
          · refine Classical.byContradiction fun hx => ?_
            simp only [Bool.not_eq_false] at hx
            exact hn (List.any_eq_true.mpr ⟨q, hqi, by simp [hq, hx]⟩)
          · rw [h.dom q hqi]; rfl
        rw [ho] at hf
        exact hf
  · simp at hst

theorem step_clone {s t : S} (h : Inv s) {p : Nat} (hst : s.step (.cloneOut p) = some t) : Inv t := by
  simp only [S.step] at hst
  split at hst
  · rename_i hc
    cases ho : s.output with
    | none => rw [ho] at hst; simp at hst
    | some v =>
      rw [ho] at hst
      simp only [Option.map_some, Option.some.injEq] at hst
      subst hst
      have hf := h.finish (l := false) (.inr hc) ho (by simp)
      rw [ho] at hf
      exact hf
  · simp at hst

theorem step_drop {s t : S} (h : Inv s) {p : Nat} (hst : s.step (.dropH p) = some t) : Inv t := by
  simp only [S.step] at hst
  split at hst
  · rename_i hc
    simp only [Option.some.injEq] at hst
    subst hst
    exact h.drop (by rcases hc with hc | hc <;> rw [hc] <;> simp)
  · simp at hst

theorem step_wake {s t : S} (h : Inv s) (hst : s.step .wake = some t) : Inv t := by
  simp only [S.step] at hst
  split at hst
  · rename_i p hw
    simp only [Option.some.injEq] at hst
    subst hst
    obtain ⟨x1, x2, x3, x4, x5, x6, x7, x8, x9, x10, x11, x12, x13, x14, x15, x16, x17⟩ := h
    refine ⟨x1, x2, x3, x4, x5, x6, x7, x8, x9, x10, ?_, ?_, x13, x14, x15, x16, x17⟩ <;> dsimp only
    · intro a ha hb; have := x11 a ha hb; unfold upd; grind
    · intro a ha hb; have := x12 a ha hb; unfold upd; grind
  · simp at hst

theorem inv {s : S} (hr : Reach s) : Inv s := by
  induction hr with
  | start => exact inv_start
  | @step s t e hr hst ih =>
    cases e with
    | spawn p => exact step_spawn ih hst
    | poll p => exact step_poll ih hst
    | acquire p => exact step_acquire ih hst
    | check p => exact step_check ih hst
    | innerPending p => exact step_pending ih hst
    | innerReady p v => exact step_ready ih hst
    | innerPanic p => exact step_panic ih hst
    | store p => exact step_store ih hst
    | unwrap p => exact step_unwrap ih hst
    | cloneOut p => exact step_clone ih hst
    | dropH p => exact step_drop ih hst
    | wake => exact step_wake ih hst

end Tycho.SharedFut
