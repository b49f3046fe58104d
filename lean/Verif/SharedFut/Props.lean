import Verif.SharedFut.Steps

namespace Tycho.SharedFut

/-- Whether a poll of the handle is going on. -/
def InPoll (pc : Pc) : Prop := pc ≠ .out ∧ pc ≠ .done ∧ pc ≠ .gone

/-- The handle has the permit of the semaphore. -/
def HasPermit (s : S) (p : Nat) : Prop := s.res p = .granted ∨ s.res p = .permit

/-! ## C180: the inner future and the results -/

/-- **C180**: the inner future is polled by one handle at a time, which has the permit alone, and never after it gave its output
or panicked. -/
theorem inner_polled_alone {s : S} (hr : Reach s) {p : Nat} (hp : s.pc p = .run) :
    s.state = .polling ∧ s.output = none ∧ ∀ q, HasPermit s q ∨ s.pc q = .run ∨ s.pc q = .wrote → q = p := by
  have h := inv hr
  refine ⟨(h.run p hp).1, (h.run p hp).2, fun q hq => ?_⟩
  have hpp := h.loc p (by simp [hp])
  refine h.sem.uniq q p ?_ (.inr hpp)
  rcases hq with hq | hq | hq
  · exact hq
  · exact .inr (h.loc q (by simp [hq]))
  · exact .inr (h.loc q (by simp [hq]))

/-- **C180**: the output once given stays. -/
theorem output_stays {s t : S} (hr : Reach s) {e : Ev} (hst : s.step e = some t) {v : Nat} (ho : s.output = some v) :
    t.output = some v := by
  have h := inv hr
  have hrel : ∀ p, (s.drop p).output = s.output := fun p => (release_spec h.sem p).2.2.2.2.2.1
  cases e with
  | innerReady p w =>
    simp only [S.step] at hst
    split at hst
    · rename_i hc; have := (h.run p hc).2; rw [ho] at this; simp at this
    · simp at hst
  | innerPanic p =>
    simp only [S.step] at hst
    split at hst
    · rename_i hc; have := (h.run p hc).2; rw [ho] at this; simp at this
    · simp at hst
  | check p =>
    simp only [S.step] at hst
    split at hst
    · split at hst <;> simp only [Option.some.injEq] at hst <;> subst hst
      · exact ho
      · rw [hrel]; exact ho
      · exact ho
    · simp at hst
  | dropH p =>
    simp only [S.step] at hst
    split at hst
    · simp only [Option.some.injEq] at hst; subst hst; rw [hrel]; exact ho
    · simp at hst
  | acquire p =>
    simp only [S.step] at hst
    split at hst
    · split at hst
      all_goals try (simp only [Option.some.injEq] at hst; subst hst; exact ho)
      split at hst <;> (simp only [Option.some.injEq] at hst; subst hst; exact ho)
    · simp at hst
  | unwrap p =>
    simp only [S.step, ho] at hst
    split at hst
    · split at hst <;> (simp only [Option.map_some, Option.some.injEq] at hst; subst hst; first | exact ho | rfl)
    · simp at hst
  | cloneOut p =>
    simp only [S.step, ho] at hst
    split at hst
    · simp only [Option.map_some, Option.some.injEq] at hst; subst hst; first | exact ho | rfl
    · simp at hst
  | wake =>
    simp only [S.step] at hst
    split at hst
    · simp only [Option.some.injEq] at hst; subst hst; exact ho
    · simp at hst
  | spawn p | poll p | innerPending p | store p =>
    simp only [S.step] at hst
    split at hst
    · simp only [Option.some.injEq] at hst; subst hst; exact ho
    · simp at hst

/-- **C180**: all polls that return give the output of the inner future, each handle at most once; at most one is told that it
is the last, and then no other handle is left that could complete. A handle that has completed was given it. -/
theorem results {s : S} (hr : Reach s) :
    (∀ p v l, (p, v, l) ∈ s.given → s.output = some v) ∧ (s.given.map Prod.fst).Nodup ∧
    (s.given.filter fun g => g.2.2).length ≤ 1 ∧
    (∀ p v, (p, v, true) ∈ s.given → ∀ q, s.pc q = .done ∨ s.pc q = .gone) ∧
    (∀ p, s.pc p = .done → p ∈ s.given.map Prod.fst) := by
  have h := inv hr
  exact ⟨fun p v l hm => (h.given p v l hm).2.1, h.gnodup, h.lasts, fun p v hm q => hasArc_false.mp (h.last p v hm q), h.doneg⟩

/-- **C180**: after the inner future has panicked nobody gets a result and nobody polls it. -/
theorem poisoned {s : S} (hr : Reach s) (hs : s.state = .poisoned) : s.given = [] ∧ ∀ p, s.pc p ≠ .run := by
  have h := inv hr
  refine ⟨?_, fun p hp => ?_⟩
  · rw [List.eq_nil_iff_forall_not_mem]
    rintro ⟨p, v, l⟩ hm
    have := (h.given p v l hm).1
    rw [hs] at this; simp at this
  · have := (h.run p hp).1
    rw [hs] at this; simp at this

/-- **C180**: no step a handle has to take is impossible: none of the `unreachable!` is reached. -/
theorem no_unreachable {s : S} (hr : Reach s) {p : Nat} (hp : s.pc p ≠ .gone) :
    ∃ e ∈ [Ev.poll p, .acquire p, .check p, .innerPending p, .store p, .unwrap p, .cloneOut p, .dropH p], (s.step e).isSome = true := by
  have h := inv hr
  cases hc : s.pc p with
  | out => exact ⟨.poll p, by simp, by simp [S.step, hc]⟩
  | loaded =>
    refine ⟨.acquire p, by simp, ?_⟩
    simp only [S.step, hc, if_true]
    cases s.res p <;> dsimp only <;> (try split) <;> rfl
  | chk =>
    refine ⟨.check p, by simp, ?_⟩
    simp only [S.step, hc, if_true]
    cases s.state <;> rfl
  | run => exact ⟨.innerPending p, by simp, by simp [S.step, hc]⟩
  | wrote => exact ⟨.store p, by simp, by simp [S.step, hc]⟩
  | take =>
    refine ⟨.unwrap p, by simp, ?_⟩
    have ho := h.comp (h.took p (by simp [hc]))
    obtain ⟨v, hv⟩ := Option.ne_none_iff_exists'.mp ho
    simp only [S.step, hc, if_true, hv]
    split <;> rfl
  | clone =>
    refine ⟨.cloneOut p, by simp, ?_⟩
    have ho := h.comp (h.took p (by simp [hc]))
    obtain ⟨v, hv⟩ := Option.ne_none_iff_exists'.mp ho
    simp [S.step, hc, hv]
  | done => exact ⟨.dropH p, by simp, by simp [S.step, hc]⟩
  | gone => exact absurd hc hp

/-! ## C181: nobody waits in vain -/

/-- **C181**: a task that waits, not woken since its last poll, either was the last to poll the inner future, which has its waker
and has given nothing yet, or is in the queue for the permit, and the handle that has the permit is not dropped, and if
it waits too and is not woken, then the inner future has its waker and has given nothing yet. -/
theorem no_lost_wakeup {s : S} (hr : Reach s) {p : Nat} (hp : s.pc p = .out) (hw : s.woken p = false) :
    (HasPermit s p ∧ s.waker = some p ∧ s.output = none) ∨
    (p ∈ s.queue ∧ ∃ q, q ≠ p ∧ HasPermit s q ∧ s.pc q ≠ .gone ∧
      (s.pc q = .out → s.woken q = true ∨ (s.waker = some q ∧ s.output = none))) := by
  have h := inv hr
  cases hres : s.res p with
  | no => have := h.fresh p hp (.inl hres); rw [hw] at this; simp at this
  | granted => have := h.fresh p hp (.inr hres); rw [hw] at this; simp at this
  | permit =>
    left
    obtain ⟨_, h2, h3⟩ := h.hold p hp hres
    rw [hw] at h3
    exact ⟨.inr hres, by simpa using h3, h2⟩
  | queued =>
    right
    have hq : p ∈ s.queue := (h.sem.mem p).mpr hres
    have hf : s.free = false := by
      cases hf : s.free with
      | false => rfl
      | true => rw [h.sem.idle hf] at hq; simp at hq
    obtain ⟨q, ho⟩ := h.sem.free2 hf
    have hqp : q ≠ p := by
      rintro rfl
      unfold own at ho; rw [hres] at ho; simp at ho
    refine ⟨hq, q, hqp, ho, fun hg => ?_, fun hout => ?_⟩
    · have := h.gone q hg
      unfold own at ho; rw [this] at ho; simp at ho
    · rcases ho with ho | ho
      · exact .inl (h.fresh q hout (.inr ho))
      · obtain ⟨_, h2, h3⟩ := h.hold q hout ho
        exact h3.imp id fun h3 => ⟨h3, h2⟩

/-- **C181**: if the inner future wakes its waker, the handle that has the permit is woken, unless a poll of it is going on. -/
theorem wake_reaches {s t : S} (hr : Reach s) (hst : s.step .wake = some t) {p : Nat} (hp : s.pc p = .out) (hh : HasPermit s p) :
    t.woken p = true := by
  have h := inv hr
  simp only [S.step] at hst
  split at hst
  · rename_i w hw
    simp only [Option.some.injEq] at hst
    subst hst
    dsimp only
    unfold upd
    split
    · rfl
    · rename_i hne
      rcases hh with hh | hh
      · exact h.fresh p hp (.inr hh)
      · rcases (h.hold p hp hh).2.2 with h3 | h3
        · exact h3
        · rw [hw] at h3; simp only [Option.some.injEq] at h3; exact absurd h3.symm hne
  · simp at hst

/-- **C181**: a handle dropped, waiting or completed, that has the permit hands it on to the first in the queue, who is woken. -/
theorem handed_on {s t : S} {p q : Nat} {qs : List Nat} (hh : HasPermit s p) (hq : s.queue = q :: qs)
    (hst : s.step (.dropH p) = some t) : HasPermit t q ∧ t.woken q = true ∧ t.queue = qs := by
  simp only [S.step] at hst
  split at hst
  · simp only [Option.some.injEq] at hst
    subst hst
    unfold S.drop S.release
    rcases hh with hh | hh <;>
    · rw [hh, hq]
      exact ⟨.inl (by simp [upd]), by simp [upd], rfl⟩
  · simp at hst

/-- Once the inner future has completed nobody waits for it: who waits and is not woken is in the queue, and who has the permit is
in a poll, woken, or has completed and is not dropped yet. -/
theorem after_completion {s : S} (hr : Reach s) (hs : s.state = .complete) {p : Nat} (hp : s.pc p = .out) (hw : s.woken p = false) :
    p ∈ s.queue ∧ ∃ q, q ≠ p ∧ HasPermit s q ∧ (InPoll (s.pc q) ∨ (s.pc q = .out ∧ s.woken q = true) ∨ s.pc q = .done) := by
  have ho := (inv hr).comp hs
  rcases no_lost_wakeup hr hp hw with ⟨_, _, h⟩ | ⟨h1, q, h2, h3, h4, h5⟩
  · exact absurd h ho
  · refine ⟨h1, q, h2, h3, ?_⟩
    by_cases hout : s.pc q = .out
    · rcases h5 hout with h5 | ⟨_, h5⟩
      · exact .inr (.inl ⟨hout, h5⟩)
      · exact absurd h5 ho
    · by_cases hd : s.pc q = .done
      · exact .inr (.inr hd)
      · exact .inl ⟨hout, hd, h4⟩

/-! ## All complete -/

def rank : Pc → Nat
  | .loaded => 6 | .out => 5 | .chk => 4 | .take => 3 | .clone => 2 | .done => 1 | .gone => 0 | .run => 0 | .wrote => 0

def S.rank (s : S) : Nat := (s.ids.map fun p => SharedFut.rank (s.pc p)).sum

theorem rank_upd {ids : List Nat} {pc : Nat → Pc} {p : Nat} {x : Pc} (hx : SharedFut.rank x < SharedFut.rank (pc p)) :
    (ids.map fun q => SharedFut.rank (upd pc p x q)).sum ≤ (ids.map fun q => SharedFut.rank (pc q)).sum ∧
    (p ∈ ids → (ids.map fun q => SharedFut.rank (upd pc p x q)).sum < (ids.map fun q => SharedFut.rank (pc q)).sum) := by
  induction ids with
  | nil => simp
  | cons a ids ih =>
    obtain ⟨h1, h2⟩ := ih
    simp only [List.map_cons, List.sum_cons]
    by_cases ha : a = p
    · subst ha
      have : upd pc a x a = x := by simp [upd]
      rw [this]
      exact ⟨by omega, fun _ => by omega⟩
    · have : upd pc p x a = pc a := by simp [upd, ha]
      rw [this]
      refine ⟨by omega, fun hp => ?_⟩
      rcases List.mem_cons.mp hp with hp | hp
      · exact absurd hp.symm ha
      · have := h2 hp; omega

/-- Each step of a handle after the completion brings all nearer to the end. -/
theorem rank_step {s t : S} (hr : Reach s) (hs : s.state = .complete) {e : Ev} (hst : s.step e = some t) (hw : e ≠ .wake)
    (hsp : ∀ p, e ≠ .spawn p) : t.rank < s.rank ∧ t.state = .complete ∧ t.ids = s.ids := by
  have h := inv hr
  have hmem : ∀ p, s.pc p ≠ .gone → p ∈ s.ids := fun p hp => Classical.byContradiction fun hc => hp (h.dom p hc)
  have hdrop : ∀ p, s.pc p ≠ .gone → s.pc p ≠ .run → s.pc p ≠ .wrote →
      (s.drop p).rank < s.rank ∧ (s.drop p).state = .complete ∧ (s.drop p).ids = s.ids := by
    intro p h1 h2 h3
    obtain ⟨_, _, _, r1, r2, _, _, _, r3⟩ := release_spec h.sem p
    refine ⟨?_, by unfold S.drop; dsimp only; rw [r2, hs], r3⟩
    unfold S.drop S.rank
    dsimp only
    rw [r3, r1]
    refine (rank_upd ?_).2 (hmem p h1)
    cases hc : s.pc p <;> simp_all [SharedFut.rank]
  have hmove : ∀ p x, SharedFut.rank x < SharedFut.rank (s.pc p) →
      (s.ids.map fun q => SharedFut.rank (upd s.pc p x q)).sum < s.rank := by
    intro p x hx
    refine (rank_upd hx).2 (hmem p fun hc => ?_)
    rw [hc] at hx; simp [SharedFut.rank] at hx
  have hnr : ∀ p, s.pc p ≠ .run ∧ s.pc p ≠ .wrote := fun p =>
    ⟨fun hc => by have := (h.run p hc).1; rw [hs] at this; simp at this,
     fun hc => by have := (h.wrote p hc).1; rw [hs] at this; simp at this⟩
  obtain ⟨v, hv⟩ := Option.ne_none_iff_exists'.mp (h.comp hs)
  cases e with
  | spawn p => exact absurd rfl (hsp p)
  | wake => exact absurd rfl hw
  | poll p =>
    simp only [S.step, hs, if_true] at hst
    split at hst
    · rename_i hc
      simp only [Option.some.injEq] at hst
      subst hst
      exact ⟨hmove p .take (by rw [hc]; decide), rfl, rfl⟩
    · simp at hst
  | acquire p =>
    simp only [S.step] at hst
    split at hst
    · rename_i hc
      split at hst
      all_goals try (simp only [Option.some.injEq] at hst; subst hst; exact ⟨hmove p _ (by rw [hc]; decide), hs, rfl⟩)
      split at hst <;> (simp only [Option.some.injEq] at hst; subst hst; exact ⟨hmove p _ (by rw [hc]; decide), hs, rfl⟩)
    · simp at hst
  | check p =>
    simp only [S.step, hs] at hst
    split at hst
    · rename_i hc
      simp only [Option.some.injEq] at hst
      subst hst
      exact ⟨hmove p _ (by rw [hc]; decide), rfl, rfl⟩
    · simp at hst
  | innerPending p | innerReady p w | innerPanic p =>
    simp only [S.step] at hst
    split at hst
    · rename_i hc; exact absurd hc (hnr p).1
    · simp at hst
  | store p =>
    simp only [S.step] at hst
    split at hst
    · rename_i hc; exact absurd hc (hnr p).2
    · simp at hst
  | unwrap p =>
    simp only [S.step, hv] at hst
    split at hst
    · rename_i hc
      split at hst <;>
        (simp only [Option.map_some, Option.some.injEq] at hst; subst hst; exact ⟨hmove p _ (by rw [hc]; decide), hs, rfl⟩)
    · simp at hst
  | cloneOut p =>
    simp only [S.step, hv] at hst
    split at hst
    · rename_i hc
      simp only [Option.map_some, Option.some.injEq] at hst; subst hst; exact ⟨hmove p _ (by rw [hc]; decide), hs, rfl⟩
    · simp at hst
  | dropH p =>
    simp only [S.step] at hst
    split at hst
    · rename_i hc
      simp only [Option.some.injEq] at hst
      subst hst
      exact hdrop p (by rcases hc with hc | hc <;> rw [hc] <;> simp) (hnr p).1 (hnr p).2
    · simp at hst

/-- Events in a row. -/
inductive Run : S → List Ev → S → Prop
  | nil {s} : Run s [] s
  | cons {s t u e es} : s.step e = some t → Run t es u → Run s (e :: es) u

/-- **C181**: once the inner future has completed, all handles there are take at most six steps each till all are dropped,
unless new ones are made: none is polled again and again. -/
theorem all_complete {s t : S} (hr : Reach s) (hs : s.state = .complete) {es : List Ev} (hrun : Run s es t)
    (he : ∀ e ∈ es, e ≠ .wake ∧ ∀ p, e ≠ .spawn p) : es.length ≤ 6 * s.ids.length := by
  have key : ∀ {s t : S} {es : List Ev}, Run s es t → Reach s → s.state = .complete →
      (∀ e ∈ es, e ≠ .wake ∧ ∀ p, e ≠ .spawn p) → es.length ≤ s.rank := by
    intro s t es hrun
    induction hrun with
    | nil => intro _ _ _; simp
    | @cons s t u e es hst _ ih =>
      intro hr hs he
      obtain ⟨h1, h2, _⟩ := rank_step hr hs hst (he e (by simp)).1 (he e (by simp)).2
      have := ih (.step hr hst) h2 fun e hm => he e (by simp [hm])
      simp only [List.length_cons]; omega
  refine Nat.le_trans (key hrun hr hs he) ?_
  unfold S.rank
  generalize s.ids = ids
  induction ids with
  | nil => simp
  | cons a ids ih =>
    simp only [List.map_cons, List.sum_cons, List.length_cons]
    have : SharedFut.rank (s.pc a) ≤ 6 := by cases s.pc a <;> simp [SharedFut.rank]
    omega

end Tycho.SharedFut
