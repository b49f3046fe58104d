import Verif.Threshold.Step

/-! Properties of the threshold. -/
namespace Tycho.Threshold

open Tycho.PeerCount

section
variable {peers : List Nat} {round skew c0 : Nat} {A : St → Act → Prop} {s s' : St}

/-- **C59.** No legal use panics: the channel is never full, counters neither overflow nor underflow, and no author is met
twice. -/
theorem threshold_no_panic (h : Reachable peers round skew c0 A s) : s.panicked = false := h.inv.calm

/-- **C59.** Every added point is in exactly one place: on its way into the channel, in the channel, ready, delayed, thrown
away as more than a year ahead, or given out. -/
theorem threshold_conserves (h : Reachable peers round skew c0 A s) :
    s.added.Perm (s.adding ++ s.chan ++ s.ready ++ s.delayed.map (·.1) ++ s.discarded ++ s.taken.flatten) ∧
    s.added.Nodup ∧ ∀ p ∈ s.discarded, c0 + skew + tooFar < p.time := by
  refine ⟨?_, List.Nodup.of_map _ h.inv.authors, h.inv.discarded⟩
  have := h.inv.places
  unfold St.places at this
  simpa only [List.append_assoc] using this

/-- **C59.** The published counter: its total never overflows and never exceeds the number of added points; when no call is
running it shows the number of delayed points, of points in the channel or about to enter it, and of ready points (or, after
`get_reached`, of those given out last). -/
theorem threshold_counts (h : Reachable peers round skew c0 A s) :
    (∃ n, (unpack s.count).total = some n ∧ n ≤ s.added.length) ∧
    (unpack s.count).target = majorityOf peers.length ∧
    (s.worker = .free → (unpack s.count).inChannel = s.adding.length + s.chan.length ∧
      (unpack s.count).delayed = s.delayed.length ∧
      (s.taken = [] → (unpack s.count).ready = s.ready.length) ∧
      ∀ t ts, s.taken = t :: ts → (unpack s.count).ready = t.length) := by
  have hi := h.inv
  have h1 := hi.total
  have h2 := hi.inChannel
  have h3 := hi.lens
  have h4 := hi.addedLen
  have h5 := hi.fits
  refine ⟨⟨(unpack s.count).ready + (unpack s.count).delayed + (unpack s.count).inChannel, ?_, by omega⟩,
    hi.target.trans hi.targetEq, ?_⟩
  · unfold Count.total
    rw [if_pos (by omega)]
  · intro hw
    rw [hw] at h2
    obtain ⟨h6, h7⟩ := hi.exact (.inr hw) (by rw [hw]; simp)
    refine ⟨h2, h6, ?_, ?_⟩
    · intro ht; rw [h7]; unfold St.shown; rw [ht]
    · intro t ts ht; rw [h7]; unfold St.shown; rw [ht]

/-- **C60.** What `get_reached` gives out: points that were added, of this round, one for an author, none later than the clock
plus the allowed skew, none given out before; and the first time at least a quorum of them. -/
theorem get_reached_result (h : Reachable peers round skew c0 A s) (hs : step s .getFinish = some s') :
    ∃ t, s'.taken = t :: s.taken ∧ (t.map (·.author)).Nodup ∧
      (∀ p ∈ t, p ∈ s.added ∧ p.round = round ∧ p.author ∈ peers ∧ p.time ≤ s.clock + skew ∧ p ∉ s.taken.flatten) ∧
      (s.taken = [] → majorityOf peers.length ≤ t.length) := by
  have hi := h.inv
  simp only [step] at hs
  split at hs
  case h_2 => simp at hs
  rename_i k hw
  injection hs with hs
  obtain ⟨c, he, _⟩ := inv_getFinish hi hw
  rw [he] at hs
  subst hs
  have hn := hi.placesAuthors
  have hmem : ∀ p ∈ s.ready, p ∈ s.added := by
    intro p hp
    rw [hi.places.mem_iff]
    unfold St.places
    simp [hp]
  refine ⟨s.ready, rfl, ?_, ?_, ?_⟩
  · unfold St.places at hn
    simp only [List.map_append] at hn
    exact (List.nodup_append.mp (List.nodup_append.mp (List.nodup_append.mp hn).2.1).2.1).1
  · intro p hp
    have hl := hi.legal p (hmem p hp)
    refine ⟨hmem p hp, hl.1, hl.2, hi.ready p hp, ?_⟩
    intro hc
    unfold St.places at hn
    simp only [List.map_append] at hn
    have := (List.nodup_append.mp (List.nodup_append.mp (List.nodup_append.mp hn).2.1).2.1).2.2
    refine this _ (List.mem_map_of_mem hp) p.author ?_ rfl
    exact List.mem_append_right _ (List.mem_append_right _ (List.mem_map_of_mem hc))
  · intro ht
    have := hi.enough (hi.getting (by rw [hw]; trivial)) ht
    rw [← hi.targetEq]
    exact this

/-! ### nothing in time is left behind -/

/-- What `reached` does with a received point. -/
theorem reachedRecv_cases (hi : Inv peers round skew c0 s) {p : Pt} {rest : List Pt} {m : Nat} (lag : Nat)
    (hw : s.worker = .waiting m) (hc : s.chan = p :: rest) :
    (tooFar < p.time - m ∧ s.reachedRecv p rest m lag =
      { s with chan := rest, discarded := p :: s.discarded, worker := .counting m 1 }) ∨
    (p.time - m ≤ tooFar ∧ ∃ m' d, (d + skew = p.time + lag) ∧ s.reachedRecv p rest m lag =
      { s with chan := rest, delayed := s.delayed ++ [(p, d)], worker := .counting m' 1 }) ∨
    (p.time - m ≤ tooFar ∧ ∃ m', s.reachedRecv p rest m lag =
      { s with chan := rest, ready := s.ready ++ [p], worker := .counting m' 1 }) := by
  have hm := hi.maxTime m (by rw [hw]; rfl)
  have hsk := hi.skewEq
  unfold St.reachedRecv
  dsimp only
  by_cases hfar : p.time - m > tooFar
  · rw [if_pos hfar]; exact .inl ⟨hfar, rfl⟩
  · rw [if_neg hfar]
    right
    generalize hm' : (if p.time - m > 0 then s.clock + s.skew else m) = m'
    have hm'' : c0 + skew ≤ m' ∧ m' ≤ s.clock + skew := by
      rw [← hm']
      split
      · rw [hsk]; exact ⟨by have := hi.clock; omega, Nat.le_refl _⟩
      · exact hm
    by_cases hgt : p.time - m' > 0
    · rw [if_pos hgt]
      have hm3 : m' = s.clock + skew := by
        rw [← hm']
        rw [if_pos, hsk]
        by_cases hz : p.time - m > 0
        · exact hz
        · rw [if_neg hz] at hm'; omega
      exact .inl ⟨by omega, m', s.clock + lag + (p.time - m'), by omega, rfl⟩
    · rw [if_neg hgt]
      refine .inr ⟨by omega, m', ?_⟩
      exact (inv_reachedReady (k := 1) (chan := rest) (delayed := s.delayed) hi hw hm'' (by omega) (.inl ⟨rfl, hc, rfl⟩)).1

/-- Every timer ends at most `δ` after the moment at which its point is in time. -/
def Timely (skew δ : Nat) (s : St) : Prop := ∀ e ∈ s.delayed, e.2 + skew ≤ e.1.time + δ

theorem timely_step {δ : Nat} (hi : Inv peers round skew c0 s) (h : Timely skew δ s) {a : Act} (hp : Prompt δ s a)
    (hl : Legal peers s a) (hs : step s a = some s') : Timely skew δ s' := by
  cases a with
  | tick ms => simp only [step, Option.some.injEq] at hs; subst hs; exact h
  | addCount p =>
    simp only [step, Option.some.injEq] at hs; subst hs
    obtain ⟨c, he, _⟩ := inv_addCount hi hl.1 hl.2.1 hl.2.2
    rw [he]; exact h
  | addSend p =>
    simp only [step] at hs
    split at hs
    · rename_i hp
      injection hs with hs; subst hs
      rw [(inv_addSend hi hp).1]; exact h
    · simp at hs
  | reachedStart =>
    simp only [step] at hs
    split at hs
    · injection hs with hs; subst hs
      unfold St.reachedStart
      split
      · exact h
      · exact h
    · simp at hs
  | reachedRecv lag =>
    simp only [Prompt] at hp
    simp only [step] at hs
    split at hs
    · rename_i m p rest hw hc
      split at hs
      · injection hs with hs; subst hs
        rcases reachedRecv_cases hi lag hw hc with ⟨_, he⟩ | ⟨_, m', d, hd, he⟩ | ⟨_, m', he⟩
        · rw [he]; exact h
        · rw [he]
          intro e he
          rcases List.mem_append.mp he with he | he
          · exact h e he
          · simp only [List.mem_singleton] at he
            subst he
            simp only
            omega
        · rw [he]; exact h
      · simp at hs
    · simp at hs
  | reachedExpired e =>
    simp only [step] at hs
    split at hs
    · rename_i m hw
      split at hs
      · rename_i hc
        injection hs with hs; subst hs
        have hd := hi.delayed e hc.2.1
        rw [(inv_reachedReady (k := 0) (chan := s.chan) (delayed := s.delayed.erase e) hi hw
          (hi.maxTime m (by rw [hw]; rfl)) (by omega) (.inr ⟨rfl, rfl, e.2, List.perm_cons_erase hc.2.1⟩)).1]
        exact fun e' he' => h e' (List.mem_of_mem_erase he')
      · simp at hs
    · simp at hs
  | reachedCount =>
    simp only [step] at hs
    split at hs
    · rename_i m k hw
      injection hs with hs; subst hs
      obtain ⟨c, he, _⟩ := inv_reachedCount hi hw
      rw [he]; exact h
    · simp at hs
  | reachedDone =>
    simp only [step] at hs
    split at hs
    · split at hs
      · injection hs with hs; subst hs; exact h
      · simp at hs
    · simp at hs
  | reachedDrop =>
    simp only [step] at hs
    split at hs
    · split at hs
      · injection hs with hs; subst hs; exact h
      · simp at hs
    · simp at hs
  | getStart lag =>
    simp only [step, Option.some.injEq] at hs; subst hs
    obtain ⟨d, r, he, _, _, h1, _⟩ := inv_getStart hi lag hl.1 hl.2
    rw [he]
    exact h1 δ hp h
  | getRecv lag =>
    simp only [step] at hs
    split at hs
    · rename_i m k p rest hw hc
      injection hs with hs; subst hs
      have hm := hi.maxTime m (by rw [hw]; rfl)
      simp only [Prompt, hw, hi.skewEq] at hp
      rcases (inv_getRecv hi lag hw hc).2 with ⟨x, _, _, he, _⟩ | ⟨hlt, he⟩ | ⟨_, he⟩
      · rw [he]; exact h
      · rw [he]
        intro e he
        rcases List.mem_append.mp he with he | he
        · exact h e he
        · simp only [List.mem_singleton] at he
          subst he
          simp only
          omega
      · rw [he]; exact h
    · simp at hs
  | getEmpty =>
    simp only [step] at hs
    split at hs
    · injection hs with hs; subst hs; exact h
    · simp at hs
  | getFinish =>
    simp only [step] at hs
    split at hs
    · rename_i k hw
      injection hs with hs; subst hs
      obtain ⟨c, he, _⟩ := inv_getFinish hi hw
      rw [he]; exact h
    · simp at hs

theorem timely_run {δ : Nat} {acts : List Act} (hi : Inv peers round skew c0 s) (h : Timely skew δ s)
    (hr : Run peers (Prompt δ) s acts s') : Timely skew δ s' := by
  induction hr with
  | nil => exact h
  | cons hp hl hs _ ih => exact ih (inv_step hi hl hs) (timely_step hi h hp hl hs)

/-- While `get_reached` runs that was begun at `T`: the points `X` that had been added by then are not in flight, and
delayed points have timers after `T`; once the channel was found empty, they are not there either. -/
structure Draining (X : List Pt) (T skew : Nat) (s : St) : Prop where
  inAdded : ∀ p ∈ X, p ∈ s.added
  notAdding : ∀ p ∈ X, p ∉ s.adding
  late : ∀ e ∈ s.delayed, T < e.2
  worker : (∃ k, s.worker = .draining (T + skew) k) ∨ (∃ k, s.worker = .drained k ∧ ∀ p ∈ X, p ∉ s.chan)

theorem draining_step {X : List Pt} {T : Nat} (hi : Inv peers round skew c0 s) (hT : T ≤ s.clock) (h : Draining X T skew s) {a : Act}
    (hl : Legal peers s a) (ha : a ≠ .getFinish) (hs : step s a = some s') : Draining X T skew s' := by
  cases a with
  | tick ms => simp only [step, Option.some.injEq] at hs; subst hs; exact { h with }
  | addCount p =>
    simp only [step, Option.some.injEq] at hs; subst hs
    obtain ⟨c, he, _⟩ := inv_addCount hi hl.1 hl.2.1 hl.2.2
    rw [he]
    exact { h with
      inAdded := fun q hq => List.mem_cons_of_mem _ (h.inAdded q hq)
      notAdding := by
        intro q hq hc
        rcases List.mem_cons.mp hc with rfl | hc
        · exact hl.2.2 q (h.inAdded q hq) rfl
        · exact h.notAdding q hq hc }
  | addSend p =>
    simp only [step] at hs
    split at hs
    · rename_i hp
      injection hs with hs; subst hs
      rw [(inv_addSend hi hp).1]
      exact { h with
        notAdding := fun q hq hc => h.notAdding q hq (List.mem_of_mem_erase hc)
        worker := by
          rcases h.worker with h1 | ⟨k, h1, h2⟩
          · exact .inl h1
          · refine .inr ⟨k, h1, ?_⟩
            intro q hq hc
            rcases List.mem_append.mp hc with hc | hc
            · exact h2 q hq hc
            · simp only [List.mem_singleton] at hc
              subst hc
              exact h.notAdding _ hq hp }
    · simp at hs
  | reachedStart =>
    simp only [step] at hs
    rcases h.worker with ⟨k, h1⟩ | ⟨k, h1, _⟩ <;> simp [h1] at hs
  | reachedRecv lag =>
    simp only [step] at hs
    rcases h.worker with ⟨k, h1⟩ | ⟨k, h1, _⟩ <;> simp [h1] at hs
  | reachedExpired e =>
    simp only [step] at hs
    rcases h.worker with ⟨k, h1⟩ | ⟨k, h1, _⟩ <;> simp [h1] at hs
  | reachedCount =>
    simp only [step] at hs
    rcases h.worker with ⟨k, h1⟩ | ⟨k, h1, _⟩ <;> simp [h1] at hs
  | reachedDone =>
    simp only [step] at hs
    rcases h.worker with ⟨k, h1⟩ | ⟨k, h1, _⟩ <;> simp [h1] at hs
  | reachedDrop =>
    simp only [step] at hs
    rcases h.worker with ⟨k, h1⟩ | ⟨k, h1, _⟩ <;> simp [h1] at hs
  | getStart lag =>
    have := hl.1
    rcases h.worker with ⟨k, h1⟩ | ⟨k, h1, _⟩ <;> rw [h1] at this <;> simp at this
  | getRecv lag =>
    simp only [step] at hs
    split at hs
    · rename_i m k p rest hw hc
      injection hs with hs; subst hs
      have hmT : m = T + skew := by
        rcases h.worker with ⟨k, h1⟩ | ⟨k, h1, _⟩
        · rw [hw] at h1; injection h1
        · rw [hw] at h1; simp at h1
      rcases (inv_getRecv hi lag hw hc).2 with ⟨x, _, _, he, _⟩ | ⟨hlt, he⟩ | ⟨_, he⟩
      · rw [he]; exact { h with worker := .inl ⟨k + 1, by rw [hmT]⟩ }
      · rw [he]
        exact { h with
          worker := .inl ⟨k + 1, by rw [hmT]⟩
          late := by
            intro e he
            rcases List.mem_append.mp he with he | he
            · exact h.late e he
            · simp only [List.mem_singleton] at he
              subst he
              simp only
              omega }
      · rw [he]; exact { h with worker := .inl ⟨k + 1, by rw [hmT]⟩ }
    · simp at hs
  | getEmpty =>
    simp only [step] at hs
    split at hs
    · rename_i m k hw hc
      injection hs with hs; subst hs
      exact { h with worker := .inr ⟨k, rfl, by intro p _; simp [hc]⟩ }
    · simp at hs
  | getFinish => exact absurd rfl ha

theorem clock_step {a : Act} (hi : Inv peers round skew c0 s) (hl : Legal peers s a) (hs : step s a = some s') : s.clock ≤ s'.clock := by
  cases a with
  | tick ms => simp only [step, Option.some.injEq] at hs; subst hs; simp
  | addCount p =>
    simp only [step, Option.some.injEq] at hs; subst hs
    obtain ⟨c, he, _⟩ := inv_addCount hi hl.1 hl.2.1 hl.2.2
    rw [he]; exact Nat.le_refl _
  | getStart lag =>
    simp only [step, Option.some.injEq] at hs; subst hs
    obtain ⟨d, r, he, _⟩ := inv_getStart hi lag hl.1 hl.2
    rw [he]; exact Nat.le_refl _
  | addSend p => 
    simp only [step] at hs
    split at hs
    · rename_i hp
      injection hs with hs; subst hs
      rw [(inv_addSend hi hp).1]; exact Nat.le_refl _
    · simp at hs
  | reachedStart =>
    simp only [step] at hs
    split at hs
    · injection hs with hs; subst hs; unfold St.reachedStart; split <;> exact Nat.le_refl _
    · simp at hs
  | reachedRecv lag =>
    simp only [step] at hs
    split at hs
    · rename_i m p rest hw hc
      split at hs
      · injection hs with hs; subst hs
        rcases reachedRecv_cases hi lag hw hc with ⟨_, he⟩ | ⟨_, m', d, hd, he⟩ | ⟨_, m', he⟩ <;> rw [he] <;>
          exact Nat.le_refl _
      · simp at hs
    · simp at hs
  | reachedExpired e =>
    simp only [step] at hs
    split at hs
    · split at hs
      · injection hs with hs; subst hs
        unfold St.reachedReady St.panic
        dsimp only
        split <;> exact Nat.le_refl _
      · simp at hs
    · simp at hs
  | reachedCount =>
    simp only [step] at hs
    split at hs
    · injection hs with hs; subst hs
      unfold St.reachedCount St.panic
      split <;> exact Nat.le_refl _
    · simp at hs
  | reachedDone =>
    simp only [step] at hs
    split at hs
    · split at hs
      · injection hs with hs; subst hs; exact Nat.le_refl _
      · simp at hs
    · simp at hs
  | reachedDrop =>
    simp only [step] at hs
    split at hs
    · split at hs
      · injection hs with hs; subst hs; exact Nat.le_refl _
      · simp at hs
    · simp at hs
  | getRecv lag =>
    simp only [step] at hs
    split at hs
    · rename_i m k p rest hw hc
      injection hs with hs; subst hs
      rcases (inv_getRecv hi lag hw hc).2 with ⟨x, _, _, he, _⟩ | ⟨hlt, he⟩ | ⟨_, he⟩ <;> rw [he] <;> exact Nat.le_refl _
    · simp at hs
  | getEmpty =>
    simp only [step] at hs
    split at hs
    · injection hs with hs; subst hs; exact Nat.le_refl _
    · simp at hs
  | getFinish =>
    simp only [step] at hs
    split at hs
    · rename_i k hw
      injection hs with hs; subst hs
      obtain ⟨c, he, _⟩ := inv_getFinish hi hw
      rw [he]; exact Nat.le_refl _
    · simp at hs

theorem draining_run {X : List Pt} {T : Nat} {acts : List Act} (hi : Inv peers round skew c0 s) (hT : T ≤ s.clock)
    (h : Draining X T skew s) (ha : Act.getFinish ∉ acts) (hr : Run peers A s acts s') :
    Draining X T skew s' ∧ Inv peers round skew c0 s' := by
  induction hr with
  | nil => exact ⟨h, hi⟩
  | cons _ hl hs _ ih =>
    simp only [List.mem_cons, not_or] at ha
    exact ih (inv_step hi hl hs) (Nat.le_trans hT (clock_step hi hl hs)) (draining_step hi hT h hl (Ne.symm ha.1) hs) ha.2

/-- **C60.** `get_reached` leaves nothing behind: of the points whose `add` had ended when it began, each has been given out
(now or before), or was thrown away as more than a year ahead, or stays delayed with a timer that had not run out when the call
began. If timers are started at most `δ` after the clock is read, such a point is ahead of the clock and the skew (less `δ`). -/
theorem get_reached_complete {s0 s1 s2 s3 : St} {δ lag : Nat} {acts : List Act}
    (h : Reachable peers round skew c0 (Prompt δ) s0) (hl : Legal peers s0 (.getStart lag)) (hp : Prompt δ s0 (.getStart lag))
    (h1 : step s0 (.getStart lag) = some s1) (hr : Run peers (Prompt δ) s1 acts s2) (ha : Act.getFinish ∉ acts)
    (h3 : step s2 .getFinish = some s3) (p : Pt) (hp1 : p ∈ s0.added) (hp2 : p ∉ s0.adding) :
    p ∈ s3.taken.flatten ∨ p ∈ s3.discarded ∨
      ∃ d, (p, d) ∈ s3.delayed ∧ s0.clock < d ∧ s0.clock + skew < p.time + δ := by
  have hi := h.inv
  obtain ⟨pc, acts0, hpc, hrun⟩ := h
  have ht0 : Timely skew δ s0 := timely_run (inv_init hpc) (by simp [Timely, init]) hrun
  have ht1 := timely_step hi ht0 hp hl h1
  have hi1 := inv_step hi hl h1
  have ht2 := timely_run hi1 ht1 hr
  have hd1 : Draining [p] s0.clock skew s1 := by
    simp only [step, Option.some.injEq] at h1
    obtain ⟨d, r, he, hperm, hlate, _⟩ := inv_getStart hi lag hl.1 hl.2
    rw [he] at h1
    subst h1
    exact ⟨by simpa using hp1, by simpa using hp2, hlate, .inl ⟨0, by rw [hi.skewEq]⟩⟩
  obtain ⟨hd2, hi2⟩ := draining_run hi1 (clock_step hi hl h1) hd1 ha hr
  simp only [step] at h3
  split at h3
  case h_2 => simp at h3
  rename_i k hw
  injection h3 with h3
  obtain ⟨c, he, _⟩ := inv_getFinish hi2 hw
  rw [he] at h3
  subst h3
  have hmem := hi2.places.mem_iff.mp (hd2.inAdded p (List.mem_singleton_self _))
  unfold St.places at hmem
  have hnc : p ∉ s2.chan := by
    rcases hd2.worker with ⟨k', h⟩ | ⟨k', _, h⟩
    · rw [hw] at h; simp at h
    · exact h p (List.mem_singleton_self _)
  simp only [List.mem_append] at hmem
  rcases hmem with hm | hm | hm | hm | hm | hm
  · exact absurd hm (hd2.notAdding p (List.mem_singleton_self _))
  · exact absurd hm hnc
  · left; simp [hm]
  · right; right
    obtain ⟨⟨q, d⟩, hq, rfl⟩ := List.mem_map.mp hm
    refine ⟨d, hq, hd2.late _ hq, ?_⟩
    have h4 := hd2.late _ hq
    have h5 := ht2 _ hq
    simp only at h4 h5 ⊢
    omega
  · right; left; exact hm
  · left; simp only [List.flatten_cons, List.mem_append]; exact .inr hm

/-! ### `reached` ends -/

/-- Steps of the task that runs `reached`, and time. -/
def Act.OfReached : Act → Prop
  | .tick _ | .reachedRecv _ | .reachedExpired _ | .reachedCount | .reachedDone => True
  | _ => False

theorem Run.append {s s1 s2 : St} {a b : List Act} (h1 : Run peers A s a s1) (h2 : Run peers A s1 b s2) :
    Run peers A s (a ++ b) s2 := by
  induction h1 with
  | nil => exact h2
  | cons ha hl hs _ ih => exact .cons ha hl hs (ih h2)

/-- One received or expired point is counted. -/
theorem run_count {m k : Nat} (hi : Inv peers round skew c0 s) (hw : s.worker = .counting m k) :
    ∃ c, step s .reachedCount = some { s with count := c, worker := .waiting m } := by
  obtain ⟨c, he, _⟩ := inv_reachedCount hi hw
  refine ⟨c, ?_⟩
  simp only [step, hw]
  rw [he]

theorem reached_can_finish_aux : ∀ (n : Nat) (s : St), 2 * s.chan.length + s.delayed.length = n →
    Inv peers round skew c0 s → (∃ m, s.worker = .waiting m) → s.adding = [] → s.target ≤ s.added.length → s.discarded = [] →
    (∀ p ∈ s.added, p.time ≤ c0 + skew + tooFar) →
    ∃ acts s', Run peers (fun _ a => a.OfReached) s acts s' ∧ s'.isReached = true ∧ s'.worker = .free := by
  intro n
  induction n using Nat.strongRecOn with
  | ind n ih =>
    intro s hn hi ⟨m, hw⟩ hadd htar hdis hfar
    have hm := hi.maxTime m (by rw [hw]; rfl)
    have hnr := hi.reaching (by rw [hw]; trivial)
    have hnt : s.taken = [] := by
      cases ht : s.taken with
      | nil => rfl
      | cons t ts => have := hi.takenReached (by rw [ht]; simp); rw [hnr] at this; simp at this
    by_cases hdone : s.target ≤ s.ready.length
    · refine ⟨[.reachedDone], _, .cons trivial trivial (s' := s.reachedDone) ?_ (.nil _), rfl, rfl⟩
      simp only [step, hw]
      rw [if_pos hdone]
    · have hlt : s.ready.length < s.target := by omega
      cases hc : s.chan with
      | cons p rest =>
        have hpm : p ∈ s.added := by
          rw [hi.places.mem_iff]; unfold St.places; simp [hc]
        have hpf := hfar p hpm
        have hstep : step s (.reachedRecv 0) = some (s.reachedRecv p rest m 0) := by
          simp only [step, hw, hc]
          rw [if_pos hlt]
        have hi1 := inv_step hi (a := .reachedRecv 0) trivial hstep
        -- where the point went
        have hres : ∃ m' d r, s.reachedRecv p rest m 0 =
            { s with chan := rest, delayed := d, ready := r, worker := .counting m' 1 } ∧ d.length ≤ s.delayed.length + 1 := by
          rcases reachedRecv_cases hi 0 hw hc with ⟨h1, _⟩ | ⟨_, m', d, _, he⟩ | ⟨_, m', he⟩
          · omega
          · exact ⟨m', _, _, he, by simp⟩
          · exact ⟨m', _, _, he, by simp⟩
        obtain ⟨m', d, r, he, hd⟩ := hres
        rw [he] at hstep hi1
        obtain ⟨c, hcount⟩ := run_count hi1 rfl
        have hi2 := inv_step hi1 (a := .reachedCount) trivial hcount
        obtain ⟨acts, s', hrun, h1, h2⟩ := ih (2 * rest.length + d.length)
          (by rw [← hn, hc]; simp only [List.length_cons]; omega) _ rfl hi2 ⟨m', rfl⟩ hadd htar hdis hfar
        exact ⟨.reachedRecv 0 :: .reachedCount :: acts, s', .cons trivial trivial hstep (.cons trivial trivial hcount hrun), h1, h2⟩
      | nil =>
        cases hde : s.delayed with
        | nil =>
          exfalso
          have := hi.lens
          rw [hadd, hc, hde, hdis, hnt] at this
          simp at this
          omega
        | cons e es =>
          have hi0 := inv_tick hi e.2
          have hstep0 : step s (.tick e.2) = some { s with clock := s.clock + e.2 } := rfl
          have hin : e ∈ s.delayed := by rw [hde]; exact List.mem_cons_self ..
          have hstep : step { s with clock := s.clock + e.2 } (.reachedExpired e) =
              some ({ s with clock := s.clock + e.2, delayed := s.delayed.erase e }.reachedReady e.1 m 0) := by
            simp only [step, hw]
            rw [if_pos ⟨hlt, hin, by omega⟩]
          have hi1 := inv_step hi0 (a := .reachedExpired e) trivial hstep
          have hd := hi.delayed e hin
          have he := (inv_reachedReady (k := 0) (chan := s.chan) (delayed := s.delayed.erase e) hi0 hw
            (hi0.maxTime m (by simp only [hw]; rfl)) (by simp only; omega)
            (.inr ⟨rfl, rfl, e.2, List.perm_cons_erase hin⟩)).1
          simp only at he
          rw [he] at hstep hi1
          obtain ⟨c, hcount⟩ := run_count hi1 rfl
          have hi2 := inv_step hi1 (a := .reachedCount) trivial hcount
          obtain ⟨acts, s', hrun, h1, h2⟩ := ih (2 * s.chan.length + (s.delayed.erase e).length)
            (by rw [List.length_erase_of_mem hin, ← hn, hde]; simp only [List.length_cons]; omega) _ rfl hi2 ⟨m, rfl⟩
            hadd htar hdis hfar
          exact ⟨.tick e.2 :: .reachedExpired e :: .reachedCount :: acts, s', .cons trivial trivial hstep0 (.cons trivial trivial hstep (.cons trivial trivial hcount hrun)), h1, h2⟩

/-- **C60.** `reached` is never stuck: whenever a quorum of points has been added, none of them more than a year ahead, then
`reached`, left to itself, comes to its end as time goes on. -/
theorem reached_can_finish (h : Reachable peers round skew c0 A s) {m : Nat} (hw : s.worker = .waiting m)
    (ha : s.adding = []) (hq : majorityOf peers.length ≤ s.added.length) (hfar : ∀ p ∈ s.added, p.time ≤ c0 + skew + tooFar) :
    ∃ acts s', Run peers (fun _ a => a.OfReached) s acts s' ∧ s'.isReached = true ∧ s'.worker = .free := by
  have hi := h.inv
  refine reached_can_finish_aux _ s rfl hi ⟨m, hw⟩ ha (by rw [hi.targetEq]; exact hq) ?_ hfar
  cases hd : s.discarded with
  | nil => rfl
  | cons p ps =>
    have h1 := hi.discarded p (by rw [hd]; exact List.mem_cons_self ..)
    have h2 := hfar p (by rw [hi.places.mem_iff]; unfold St.places; simp [hd])
    omega

end

end Tycho.Threshold
