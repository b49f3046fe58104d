import Verif.Limiter.Inv
/-! Every step keeps the accounts of a limiter. -/
namespace Tycho.Limiter
open Tycho.Table (Table get put del get_put get_del)

theorem b2_true : b2 true = 1 := rfl
theorem b2_false : b2 false = 0 := rfl

/-- A task that waits changes its phase to `p`, in numbers. -/
theorem phase_to {s : St} {P : Nat} {x : Int} {d : Nat → Int} {F R : Nat → Nat} (w : Inv s P x d F R) (k : Nat) (p : Phase)
    (t : Task) (h : s.tasks[k]? = some t) (ha : t.phase ≠ .inside) (ha2 : t.phase ≠ .done)
    (hq : p = .queued → s.free t.sem = 0) (x' : Int) (d' : Nat → Int)
    (hx : x' = x + (if t.phase = .granted then 1 else 0) - (if p = .granted then 1 else 0) - (if p = .inside then 1 else 0))
    (hd : ∀ j, d' j = if j = t.sem then d j + 1 - (if p = .inside ∨ p = .done then 0 else 1) +
      (if p = .granted then 1 else 0) - (if t.phase = .granted then 1 else 0) else d j) :
    Inv (s.phase k p) P x' d' F R := by
  refine inv_congr (inv_phase w k p t h ha ha2 hq) ?_ ?_
  · rw [hx]
    have h1 : t.ins = false := by simp [Task.ins, ha]
    rw [h1, b2_false]
    have e1 : b2 t.grAny = if t.phase = .granted then 1 else 0 := by simp [b2, Task.grAny]
    have e2 : b2 (Task.grAny { t with phase := p }) = if p = .granted then 1 else 0 := by simp [b2, Task.grAny]
    have e3 : b2 (Task.ins { t with phase := p }) = if p = .inside then 1 else 0 := by simp [b2, Task.ins]
    rw [e1, e2, e3]; omega
  · intro j
    rw [hd]
    split
    · have e1 : b2 (t.gr t.sem) = if t.phase = .granted then 1 else 0 := by simp [b2, Task.gr]
      have e2 : b2 (Task.gr { t with phase := p } t.sem) = if p = .granted then 1 else 0 := by simp [b2, Task.gr]
      have e3 : b2 (Task.att { t with phase := p } t.sem) = if p = .inside ∨ p = .done then 0 else 1 := by
        simp only [b2, Task.att]
        by_cases h1 : p = .inside <;> by_cases h2 : p = .done <;> simp [h1, h2]
      rw [e1, e2, e3]
    · rfl

theorem take_tasks (s : St) (sem : Nat) : (s.take sem).tasks = s.tasks := rfl

/-- A waiting task takes a free permit. -/
theorem inv_get {s : St} {P : Nat} (h : Ok s P) (k : Nat) (t : Task) (ht : s.tasks[k]? = some t)
    (hp : t.phase = .start ∨ t.phase = .second) (hf : s.free t.sem > 0) : Ok ((s.take t.sem).phase k .inside) P := by
  obtain ⟨F, R, w⟩ := h
  have hne : t.phase ≠ .inside ∧ t.phase ≠ .done ∧ t.phase ≠ .granted := by rcases hp with h | h <;> simp [h]
  refine ⟨F, R, phase_to (inv_take w t.sem hf) k .inside t ht hne.1 hne.2.1 (by simp) _ _ ?_ ?_⟩
  · simp [hne.2.2]
  · intro j; simp only [hne.2.2, if_false, true_or, if_true, reduceCtorEq]
    split <;> omega

theorem ok_wait {s : St} {P : Nat} (h : Ok s P) (k : Nat) (t : Task) (ht : s.tasks[k]? = some t) (p : Phase)
    (hp : t.phase = .start ∨ t.phase = .second ∨ t.phase = .queued) (hp2 : p = .second ∨ p = .queued ∨ p = .cancelling)
    (hf : p = .queued → s.free t.sem = 0) : Ok (s.phase k p) P := by
  obtain ⟨F, R, w⟩ := h
  have hne : t.phase ≠ .inside ∧ t.phase ≠ .done ∧ t.phase ≠ .granted := by rcases hp with h | h | h <;> simp [h]
  have hne2 : p ≠ .inside ∧ p ≠ .done ∧ p ≠ .granted := by rcases hp2 with h | h | h <;> simp [h]
  refine ⟨F, R, phase_to w k p t ht hne.1 hne.2.1 hf _ _ ?_ ?_⟩
  · simp [hne.2.2, hne2]
  · intro j; simp [hne.2.2, hne2]

theorem ok_wake {s : St} {P : Nat} (h : Ok s P) (k : Nat) : Ok (s.wake k) P := by
  unfold St.wake
  split
  · rename_i t ht
    split
    · rename_i hp
      obtain ⟨F, R, w⟩ := h
      refine ⟨F, R, phase_to w k .inside t ht (by simp [hp]) (by simp [hp]) (by simp) _ _ ?_ ?_⟩
      · simp [hp]
      · intro j; simp [hp]
    · exact h
  · exact h

theorem ok_try {s : St} {P : Nat} (h : Ok s P) (k : Nat) : Ok (s.tryAcquire k) P := by
  unfold St.tryAcquire
  split
  · rename_i t ht
    split
    · rename_i hp
      split
      · rename_i hf; exact inv_get h k t ht (Or.inl hp) hf
      · exact ok_wait h k t ht .second (Or.inl hp) (Or.inl rfl) (by simp)
    · exact h
  · exact h

theorem ok_acquire {s : St} {P : Nat} (h : Ok s P) (k : Nat) : Ok (s.acquire k) P := by
  unfold St.acquire
  split
  · rename_i t ht
    split
    · rename_i hp
      split
      · rename_i hf; exact inv_get h k t ht (Or.inr hp) hf
      · rename_i hf; exact ok_wait h k t ht .queued (Or.inr (Or.inl hp)) (Or.inr (Or.inl rfl)) (fun _ => by omega)
    · exact h
  · exact h

theorem phase_avail (s : St) (k : Nat) (p : Phase) : (s.phase k p).avail = s.avail ∧ (s.phase k p).waiters = s.waiters := by
  unfold St.phase; split <;> exact ⟨rfl, rfl⟩

theorem ok_cancel {s : St} {P : Nat} (h : Ok s P) (k pick : Nat) : Ok (s.cancel k pick) P := by
  unfold St.cancel
  split
  · rename_i t ht
    split
    · rename_i hp
      exact ok_wait h k t ht .cancelling (by rcases hp with h | h <;> simp [h]) (by simp) (by simp)
    · split
      · rename_i hp
        obtain ⟨F, R, w⟩ := h
        have w1 : Inv (s.phase k .cancelling) P 1 (fun j => if j = t.sem then -1 else 0) F R := by
          refine phase_to w k .cancelling t ht (by simp [hp]) (by simp [hp]) (by simp) _ _ ?_ ?_
          · simp [hp]
          · intro j; simp only [hp]; split <;> simp
        have hl : t.sem < s.avail.length := (w.home t (List.mem_of_getElem? ht) (by simp [hp]) (by simp [hp])).2
        refine ⟨F, R, inv_congr (inv_add w1 t.sem pick (by rw [(phase_avail _ _ _).1]; exact hl)) (by omega) ?_⟩
        intro j; split <;> omega
      · exact h
  · exact h

theorem gr_le_att (s : St) (sem : Nat) : s.cnt (·.gr sem) ≤ s.cnt (·.att sem) := by
  unfold St.cnt
  have := List.countP_mono_left (l := s.tasks) (p := (·.gr sem)) (q := (·.att sem)) (by
    intro t _ h
    simp only [Task.gr, Task.att, decide_eq_true_eq] at *
    exact ⟨h.1, by simp [h.2]⟩)
  omega

theorem ok_onCancel {s : St} {P : Nat} (h : Ok s P) (hP : P ≤ 65535) (k pick : Nat) : Ok (s.onCancel k pick) P := by
  unfold St.onCancel
  split
  · rename_i t ht
    split
    · rename_i hp
      obtain ⟨F, R, w⟩ := h
      have w1 : Inv (s.phase k .done) P 0 (fun j => if j = t.sem then 1 else 0) F R := by
        refine phase_to w k .done t ht (by simp [hp]) (by simp [hp]) (by simp) _ _ ?_ ?_
        · simp [hp]
        · intro j; simp only [hp]; split <;> simp
      have hR : R t.sem = t.round := (w.home t (List.mem_of_getElem? ht) (by simp [hp]) (by simp [hp])).1
      generalize hs' : s.phase k .done = s' at w1
      have hfree : (∀ q n, get s'.waiters q ≠ some (t.sem, n)) → s'.free t.sem > 0 := by
        intro hno
        have h0 := w1.gone _ hno
        have hb := w1.bal t.sem
        have := gr_le_att s' t.sem
        simp only [if_true] at hb
        omega
      have pass : s'.free t.sem > 0 → Ok ((s'.take t.sem).exit pick) P := by
        intro hf
        have w2 := inv_take w1 t.sem hf
        obtain ⟨F', w3⟩ := inv_exit w2 pick hP (by omega)
        refine ⟨F', R, inv_congr w3 (by omega) ?_⟩
        intro j; split <;> omega
      unfold St.cancelInflight
      cases hw : get s'.waiters t.round with
      | some v =>
        obtain ⟨cur, n⟩ := v
        simp only
        by_cases hc : cur = t.sem
        · rw [if_pos hc]
          by_cases hf : s'.free t.sem > 0
          · rw [if_pos hf]; exact pass hf
          · rw [if_neg hf]
            obtain ⟨F', w2⟩ := inv_less w1 t.round cur n hw
            refine ⟨F', R, inv_congr w2 rfl ?_⟩
            intro j; rw [hc]; split <;> simp
        · rw [if_neg hc]
          have hf : s'.free t.sem > 0 := by
            apply hfree
            intro q m hq
            have := (w1.entry q _ _ hq).2.1
            rw [hR] at this
            rw [← this, hw] at hq
            cases hq; exact hc rfl
          rw [if_pos hf]
          have w2 := inv_take w1 t.sem hf
          have hl : cur < (s'.take t.sem).avail.length := (w2.entry t.round cur n hw).2.2.1
          have w3 := inv_add w2 cur pick hl
          have hw3 := (addPermit_waiters (s'.take t.sem) cur pick).1
          obtain ⟨F', w4⟩ := inv_less w3 t.round cur n (by rw [hw3]; exact hw)
          refine ⟨F', R, inv_congr w4 (by omega) ?_⟩
          intro j
          by_cases hj : j = cur
          · have : j ≠ t.sem := by rw [hj]; exact hc
            rw [if_pos hj, if_pos hj, if_neg this]; simp [this]
          · by_cases hj2 : j = t.sem
            · simp [hj2, Ne.symm hc]
            · simp [hj, hj2]
      | none =>
        simp only
        have hf : s'.free t.sem > 0 := by
          apply hfree
          intro q m hq
          have := (w1.entry q _ _ hq).2.1
          rw [hR] at this
          rw [← this, hw] at hq
          cases hq
        rw [if_pos hf]; exact pass hf
    · exact h
  · exact h

theorem inv_leave {s : St} {P : Nat} {F R : Nat → Nat} (w : Inv s P 0 (fun _ => 0) F R) (k : Nat) (t : Task)
    (h : s.tasks[k]? = some t) (hp : t.phase = .inside) : Inv (s.phase k .done) P 1 (fun _ => 0) F R := by
  have hset : ∀ f, (s.phase k .done).cnt f = s.cnt f - b2 (f t) + b2 (f { t with phase := .done }) := by
    intro f; rw [phase_eq s k .done t h]; exact countP_set _ f k t _ h
  have e := phase_eq s k .done t h
  have hfree : ∀ j, (s.phase k .done).free j = s.free j := by intro j; rw [e]; rfl
  constructor
  · rw [e]; exact w.entry
  · rw [e]; exact w.gone
  · intro j
    rw [hset, hset, hfree]
    have := w.bal j
    have h1 : t.att j = false := by simp [Task.att, hp]
    have h2 : Task.att { t with phase := .done } j = false := by simp [Task.att]
    have h3 : t.gr j = false := by simp [Task.gr, hp]
    have h4 : Task.gr { t with phase := .done } j = false := by simp [Task.gr]
    rw [h1, h2, h3, h4, b2_false]; omega
  · intro j hj
    rw [hset]
    rw [hfree] at hj
    have h1 : t.waitsOn j = false := by simp [Task.waitsOn, hp]
    have h2 : Task.waitsOn { t with phase := .done } j = false := by simp [Task.waitsOn]
    have := w.noq j hj
    rw [h1, h2, b2_false, this]; rfl
  · rw [hset, hset]
    have h1 : t.grAny = false := by simp [Task.grAny, hp]
    have h2 : Task.grAny { t with phase := .done } = false := by simp [Task.grAny]
    have h3 : t.ins = true := by simp [Task.ins, hp]
    have h4 : Task.ins { t with phase := .done } = false := by simp [Task.ins]
    rw [h1, h2, h3, h4, b2_false, b2_true]
    have := w.sum
    have e1 : (s.phase k .done).permits = s.permits := by rw [e]
    have e2 : (s.phase k .done).avail = s.avail := by rw [e]
    rw [e1, e2]; omega
  · rw [e]; exact w.idle
  · intro u hu h1 h2
    rw [e] at hu ⊢
    rcases List.mem_or_eq_of_mem_set hu with hu | hu
    · exact w.home u hu h1 h2
    · rw [hu] at h2; exact absurd rfl h2
  · rw [e]; exact w.good

theorem ok_leave {s : St} {P : Nat} (h : Ok s P) (hP : P ≤ 65535) (k pick : Nat) : Ok (s.leave k pick) P := by
  unfold St.leave
  split
  · rename_i t ht
    split
    · rename_i hp
      obtain ⟨F, R, w⟩ := h
      have w1 := inv_leave w k t ht hp
      obtain ⟨F', w2⟩ := inv_exit w1 pick hP (by omega)
      exact ⟨F', R, inv_congr w2 (by omega) (fun _ => rfl)⟩
    · exact h
  · exact h

theorem ok_step {s : St} {P : Nat} (h : Ok s P) (hP : P ≤ 65535) (o : Op) : Ok (step s o) P := by
  cases o with
  | enter r => exact ok_enter h r
  | tryAcquire k => exact ok_try h k
  | acquire k => exact ok_acquire h k
  | wake k => exact ok_wake h k
  | cancel k pick => exact ok_cancel h k pick
  | onCancel k pick => exact ok_onCancel h hP k pick
  | leave k pick => exact ok_leave h hP k pick

theorem run_snoc (P : Nat) (ops : List Op) (o : Op) : run P (ops ++ [o]) = step (run P ops) o := by simp [run]

/-- The accounts of every reachable limiter are balanced. -/
theorem ok_run (P : Nat) (hP : P ≤ 65535) (ops : List Op) : Ok (run P ops) P := by
  induction ops using List.reverseRecOn with
  | nil =>
    refine ⟨fun _ => 0, fun _ => 0, ?_, fun _ _ => rfl, ?_, ?_, ?_, fun _ => rfl, ?_, rfl⟩
    · intro r j n h; simp [run, St.init, Table.get] at h
    · intro j; simp [run, St.init, St.cnt, St.free]
    · intro j h; simp [run, St.init, St.cnt]
    · simp [run, St.init, St.cnt]
    · intro t ht; simp [run, St.init] at ht
  | append_singleton ops o ih => rw [run_snoc]; exact ok_step ih hP o

end Tycho.Limiter
