import Verif.Limiter.Steps
import Mathlib.Tactic.ByContra
/-! The limiter, over all interleavings of entering, waiting, cancelling and leaving tasks. `P` is the number of permits. -/
namespace Tycho.Limiter
open Tycho.Table (Table get put del get_put get_del)

/-- Number of tasks in a phase. -/
def St.num (s : St) (p : Phase) : Nat := s.tasks.countP (fun t => decide (t.phase = p))

theorem cnt_ins (s : St) : s.cnt Task.ins = s.num .inside := rfl
theorem cnt_gr (s : St) : s.cnt Task.grAny = s.num .granted := rfl

/-- None of the panics is reached. -/
theorem never_panics (P : Nat) (hP : P ≤ 65535) (ops : List Op) : (run P ops).bad = false := by
  obtain ⟨F, R, w⟩ := ok_run P hP ops; exact w.good

/-- Never more tasks are inside than there are permits. -/
theorem at_most (P : Nat) (hP : P ≤ 65535) (ops : List Op) : (run P ops).num .inside ≤ P := by
  obtain ⟨F, R, w⟩ := ok_run P hP ops
  have := w.sum
  rw [cnt_ins, cnt_gr] at this
  omega

/-- No permit is lost or made up: those free for all, those on the way to a task, and those of tasks inside. -/
theorem permits_kept (P : Nat) (hP : P ≤ 65535) (ops : List Op) :
    (run P ops).permits + (run P ops).avail.sum + (run P ops).num .granted + (run P ops).num .inside = P := by
  obtain ⟨F, R, w⟩ := ok_run P hP ops
  have := w.sum
  rw [cnt_ins, cnt_gr] at this
  omega

theorem sum_pos {l : List Nat} (h : 0 < l.sum) : ∃ i, ∃ hi : i < l.length, 0 < l[i] := by
  induction l with
  | nil => simp at h
  | cons a l ih =>
    by_cases ha : 0 < a
    · exact ⟨0, by simp, ha⟩
    · rw [List.sum_cons] at h
      obtain ⟨i, hi, h2⟩ := ih (by omega)
      exact ⟨i + 1, by simp; omega, by simpa using h2⟩

/-- The semaphore of a queued task is in the map under its round. -/
theorem queued_entry {s : St} {P : Nat} {F R : Nat → Nat} (w : Inv s P 0 (fun _ => 0) F R) (t : Task) (ht : t ∈ s.tasks)
    (hq : t.phase = .queued) : ∃ n, get s.waiters t.round = some (t.sem, n) := by
  have hfree : s.free t.sem = 0 := by
    by_contra hne
    have h0 := w.noq t.sem (by omega)
    have : 0 < s.tasks.countP (·.waitsOn t.sem) := List.countP_pos_iff.mpr ⟨t, ht, by simp [Task.waitsOn, hq]⟩
    unfold St.cnt at h0; omega
  have hlt : s.cnt (·.gr t.sem) < s.cnt (·.att t.sem) := by
    unfold St.cnt
    have h1 : s.tasks.countP (·.gr t.sem) + s.tasks.countP (·.waitsOn t.sem) ≤ s.tasks.countP (·.att t.sem) := by
      generalize s.tasks = l
      induction l with
      | nil => simp
      | cons a l ih =>
        simp only [List.countP_cons]
        have : (if a.gr t.sem then 1 else 0) + (if a.waitsOn t.sem then 1 else 0) ≤ (if a.att t.sem then 1 else 0) := by
          simp only [Task.gr, Task.waitsOn, Task.att, decide_eq_true_eq]
          by_cases h1 : a.sem = t.sem
          · cases h2 : a.phase <;> simp [h1]
          · simp [h1]
        omega
    have h2 : 0 < s.tasks.countP (·.waitsOn t.sem) := List.countP_pos_iff.mpr ⟨t, ht, by simp [Task.waitsOn, hq]⟩
    omega
  have hb := w.bal t.sem
  by_contra hno
  have h0 := w.gone t.sem (by
    intro q n hqn
    have h1 := (w.entry q _ _ hqn).2.1
    rw [(w.home t ht (by simp [hq]) (by simp [hq])).1] at h1
    exact hno ⟨n, by rw [h1]; exact hqn⟩)
  omega

/-- A task waits only if all permits are taken: inside, or on the way to a task that has not run yet. -/
theorem waits_only_if_full (P : Nat) (hP : P ≤ 65535) (ops : List Op) (t : Task) (ht : t ∈ (run P ops).tasks)
    (hq : t.phase = .queued) :
    (run P ops).permits = 0 ∧
      (run P ops).num .inside + (run P ops).num .granted + (run P ops).avail.sum = P := by
  obtain ⟨F, R, w⟩ := ok_run P hP ops
  obtain ⟨n, hn⟩ := queued_entry w t ht hq
  have h0 : (run P ops).permits = 0 := by
    by_contra hne
    have := w.idle (by omega)
    rw [this] at hn; cases hn
  have := permits_kept P hP ops
  exact ⟨h0, by omega⟩

/-- A task that is let in at once does not overtake a waiting one. -/
theorem no_overtaking (P : Nat) (hP : P ≤ 65535) (ops : List Op) (h : (run P ops).permits > 0) (t : Task)
    (ht : t ∈ (run P ops).tasks) : t.phase ≠ .queued := by
  intro hq
  have := (waits_only_if_full P hP ops t ht hq).1
  omega

/-- If no task is inside or has something to do, none waits, all permits are back, and the map is empty. -/
theorem quiet_is_empty (P : Nat) (hP : P ≤ 65535) (hpos : 0 < P) (ops : List Op)
    (hquiet : ∀ t ∈ (run P ops).tasks, t.phase = .queued ∨ t.phase = .done) :
    (∀ t ∈ (run P ops).tasks, t.phase = .done) ∧ (run P ops).permits = P ∧ (run P ops).waiters = [] := by
  obtain ⟨F, R, w⟩ := ok_run P hP ops
  have hz : ∀ p, p ≠ .queued → p ≠ .done → (run P ops).num p = 0 := by
    intro p h1 h2
    unfold St.num
    rw [List.countP_eq_zero]
    intro t ht h
    simp only [decide_eq_true_eq] at h
    rcases hquiet t ht with h3 | h3
    · exact h1 (h ▸ h3)
    · exact h2 (h ▸ h3)
  have hsum : (run P ops).avail.sum = 0 := by
    by_contra hne
    obtain ⟨i, hi, h2⟩ := sum_pos (Nat.pos_of_ne_zero hne)
    have hfi : (run P ops).free i > 0 := by rw [free_getElem hi]; exact h2
    have hb := w.bal i
    have hq := w.noq i hfi
    have hatt : (run P ops).cnt (·.att i) = 0 := by
      unfold St.cnt at *
      have : (run P ops).tasks.countP (·.att i) = 0 := by
        rw [List.countP_eq_zero]
        intro t ht h
        simp only [Task.att, decide_eq_true_eq] at h
        rcases hquiet t ht with h3 | h3
        · have : 0 < (run P ops).tasks.countP (·.waitsOn i) := List.countP_pos_iff.mpr ⟨t, ht, by simp [Task.waitsOn, h3, h.1]⟩
          omega
        · exact h.2.2 h3
      omega
    have hnn : (run P ops).cnt (·.gr i) ≥ 0 := by unfold St.cnt; omega
    omega
  have hp : (run P ops).permits = P := by
    have := permits_kept P hP ops
    rw [hz .granted (by simp) (by simp), hz .inside (by simp) (by simp), hsum] at this
    omega
  refine ⟨?_, hp, w.idle (by omega)⟩
  intro t ht
  rcases hquiet t ht with h | h
  · exact absurd h (no_overtaking P hP ops (by omega) t ht)
  · exact h

/-! ### Nobody waits forever -/

/-- A step of a task itself: not a new task and not a cancellation from outside. -/
def Op.own : Op → Prop
  | .enter _ => False
  | .cancel _ _ => False
  | _ => True

/-- As long as a task is not over, some task can go on. -/
theorem no_deadlock (P : Nat) (hP : P ≤ 65535) (hpos : 0 < P) (ops : List Op) (t : Task) (ht : t ∈ (run P ops).tasks)
    (hd : t.phase ≠ .done) : ∃ o, o.own ∧ step (run P ops) o ≠ run P ops := by
  have hex : ∃ u ∈ (run P ops).tasks, u.phase ≠ .queued ∧ u.phase ≠ .done := by
    by_contra hno
    have hquiet : ∀ t ∈ (run P ops).tasks, t.phase = .queued ∨ t.phase = .done := by
      intro u hu
      by_contra h2
      exact hno ⟨u, hu, fun h => h2 (Or.inl h), fun h => h2 (Or.inr h)⟩
    exact hd ((quiet_is_empty P hP hpos ops hquiet).1 t ht)
  obtain ⟨u, hu, h1, h2⟩ := hex
  obtain ⟨k, hk⟩ := List.mem_iff_getElem?.mp hu
  have hklt : k < (run P ops).tasks.length := by
    rcases Nat.lt_or_ge k (run P ops).tasks.length with h | h
    · exact h
    · rw [List.getElem?_eq_none h] at hk; cases hk
  -- tasks of an exit differ at most in `queued → granted`
  have differ : ∀ (s : St) (p : Phase), s.tasks = (run P ops).tasks.set k { u with phase := p } → p ≠ u.phase →
      s ≠ run P ops := by
    intro s p hs hp heq
    rw [heq] at hs
    have h3 := congrArg (fun l => l[k]?) hs
    simp only [List.getElem?_set_self hklt, hk, Option.some.injEq] at h3
    exact hp (by rw [h3])
  have phaseTasks : ∀ (s : St) (p : Phase), s.tasks = (run P ops).tasks → (s.phase k p).tasks = (run P ops).tasks.set k { u with phase := p } := by
    intro s p hs; unfold St.phase; rw [hs, hk]
  have keepDone : ∀ (s : St) (pick : Nat), (∃ v, s.tasks[k]? = some v ∧ v.phase = .done) →
      ∃ v, (s.exit pick).tasks[k]? = some v ∧ v.phase = .done := by
    intro s pick hv
    have addp : ∀ (s : St) sem pick, (∃ v, s.tasks[k]? = some v ∧ v.phase = .done) →
        ∃ v, (s.addPermit sem pick).tasks[k]? = some v ∧ v.phase = .done := by
      intro s sem pick ⟨v, hv, hvd⟩
      unfold St.addPermit
      split
      · rename_i j hj
        obtain ⟨x, hx, hxq, _⟩ := nextOf_some hj
        rw [phase_eq s j .granted x hx]
        have hjk : j ≠ k := by rintro rfl; rw [hv] at hx; cases hx; rw [hvd] at hxq; cases hxq
        exact ⟨v, by simp only [List.getElem?_set_ne hjk]; exact hv, hvd⟩
      · exact ⟨v, hv, hvd⟩
    have less : ∀ (s : St) r, (s.lessInflight r).tasks = s.tasks := by
      intro s r; unfold St.lessInflight
      split
      · split <;> rfl
      · rfl
    unfold St.exit
    split
    · split
      · rw [less]; exact addp _ _ _ hv
      · exact hv
    · split <;> exact hv
  have notDone : ∀ s : St, (∃ v, s.tasks[k]? = some v ∧ v.phase = .done) → s ≠ run P ops := by
    rintro s ⟨v, hv, hvd⟩ rfl
    rw [hk] at hv; cases hv; exact h2 hvd
  have doneK : ∀ s : St, s.tasks = (run P ops).tasks → ∃ v, (s.phase k .done).tasks[k]? = some v ∧ v.phase = .done := by
    intro s hs; rw [phaseTasks s .done hs, List.getElem?_set_self hklt]; exact ⟨_, rfl, rfl⟩
  cases hph : u.phase with
  | queued => exact absurd hph h1
  | done => exact absurd hph h2
  | start =>
    refine ⟨.tryAcquire k, trivial, ?_⟩
    simp only [step, St.tryAcquire, hk, hph, if_true]
    split
    · exact differ _ .inside (phaseTasks _ _ rfl) (by rw [hph]; simp)
    · exact differ _ .second (phaseTasks _ _ rfl) (by rw [hph]; simp)
  | second =>
    refine ⟨.acquire k, trivial, ?_⟩
    simp only [step, St.acquire, hk, hph, if_true]
    split
    · exact differ _ .inside (phaseTasks _ _ rfl) (by rw [hph]; simp)
    · exact differ _ .queued (phaseTasks _ _ rfl) (by rw [hph]; simp)
  | granted =>
    refine ⟨.wake k, trivial, ?_⟩
    simp only [step, St.wake, hk, hph, if_true]
    exact differ _ .inside (phaseTasks _ _ rfl) (by rw [hph]; simp)
  | inside =>
    refine ⟨.leave k 0, trivial, notDone _ ?_⟩
    simp only [step, St.leave, hk, hph, if_true]
    exact keepDone _ _ (doneK _ rfl)
  | cancelling =>
    refine ⟨.onCancel k 0, trivial, notDone _ ?_⟩
    simp only [step, St.onCancel, hk, hph, if_true]
    have hd0 := doneK (run P ops) rfl
    have less : ∀ (s : St) r, (s.lessInflight r).tasks = s.tasks := by
      intro s r; unfold St.lessInflight
      split
      · split <;> rfl
      · rfl
    have addp : ∀ (s : St) sem pick, (∃ v, s.tasks[k]? = some v ∧ v.phase = .done) →
        ∃ v, (s.addPermit sem pick).tasks[k]? = some v ∧ v.phase = .done := by
      intro s sem pick ⟨v, hv, hvd⟩
      unfold St.addPermit
      split
      · rename_i j hj
        obtain ⟨x, hx, hxq, _⟩ := nextOf_some hj
        rw [phase_eq s j .granted x hx]
        have hjk : j ≠ k := by rintro rfl; rw [hv] at hx; cases hx; rw [hvd] at hxq; cases hxq
        exact ⟨v, by simp only [List.getElem?_set_ne hjk]; exact hv, hvd⟩
      · exact ⟨v, hv, hvd⟩
    unfold St.cancelInflight
    split
    · split
      · split
        · exact keepDone _ _ hd0
        · rw [less]; exact hd0
      · split
        · rw [less]; exact addp _ _ _ hd0
        · exact hd0
    · split
      · exact keepDone _ _ hd0
      · exact hd0

/-- How far a task is from its end. -/
def Phase.rank : Phase → Nat
  | .start => 5
  | .second => 4
  | .queued => 3
  | .granted => 2
  | .inside => 1
  | .cancelling => 1
  | .done => 0

/-- How far all tasks are from their ends. -/
def St.work (s : St) : Nat := (s.tasks.map (·.phase.rank)).sum

theorem work_set (l : List Task) (k : Nat) (t : Task) (h : l[k]? = some t) (p : Phase) :
    ((l.set k { t with phase := p }).map (·.phase.rank)).sum + t.phase.rank = (l.map (·.phase.rank)).sum + p.rank := by
  induction l generalizing k with
  | nil => simp at h
  | cons a l ih =>
    cases k with
    | zero => simp only [List.getElem?_cons_zero, Option.some.injEq] at h; subst h; simp; omega
    | succ k => simp only [List.getElem?_cons_succ] at h
                have := ih k h
                simp only [List.set_cons_succ, List.map_cons, List.sum_cons]; omega

theorem work_phase (s : St) (k : Nat) (t : Task) (h : s.tasks[k]? = some t) (p : Phase) :
    (s.phase k p).work + t.phase.rank = s.work + p.rank := by
  rw [phase_eq s k p t h]; exact work_set _ k t h p

theorem work_add (s : St) (sem pick : Nat) : (s.addPermit sem pick).work ≤ s.work := by
  unfold St.addPermit
  split
  · rename_i j hj
    obtain ⟨x, hx, hxq, _⟩ := nextOf_some hj
    have := work_phase s j x hx .granted
    rw [hxq] at this; simp only [Phase.rank] at this; omega
  · exact Nat.le_refl _

theorem work_less (s : St) (r : Nat) : (s.lessInflight r).work = s.work := by
  unfold St.lessInflight
  split
  · split <;> rfl
  · rfl

theorem work_exit (s : St) (pick : Nat) : (s.exit pick).work ≤ s.work := by
  unfold St.exit
  split
  · split
    · rw [work_less]; exact work_add _ _ _
    · exact Nat.le_refl _
  · split <;> exact Nat.le_refl _

theorem work_cancelInflight (s : St) (r sem pick : Nat) : (s.cancelInflight r sem pick).work ≤ s.work := by
  have ht : (s.take sem).work = s.work := rfl
  unfold St.cancelInflight
  split
  · split
    · split
      · rw [← ht]; exact work_exit _ _
      · exact Nat.le_of_eq (work_less _ _)
    · split
      · rw [work_less, ← ht]; exact work_add _ _ _
      · exact Nat.le_refl _
  · split
    · rw [← ht]; exact work_exit _ _
    · exact Nat.le_refl _

/-- Every step of a task itself that changes anything brings the tasks closer to their ends, so in any order of such steps
there are only finitely many, and by `no_deadlock` they end with all tasks let in and gone. -/
theorem every_step_counts (s : St) (o : Op) (ho : o.own) (hne : step s o ≠ s) : (step s o).work < s.work := by
  cases o with
  | enter r => exact absurd ho (by simp [Op.own])
  | cancel k pick => exact absurd ho (by simp [Op.own])
  | tryAcquire k =>
    simp only [step, St.tryAcquire] at *
    cases hk : s.tasks[k]? with
    | none => rw [hk] at hne; exact absurd rfl hne
    | some t =>
      simp only [hk] at hne
      by_cases hp : t.phase = .start
      · simp only [hp, if_true]
        split
        · have := work_phase (s.take t.sem) k t hk .inside
          have e : (s.take t.sem).work = s.work := rfl
          rw [e, hp] at this; simp only [Phase.rank] at this; omega
        · have := work_phase s k t hk .second
          rw [hp] at this; simp only [Phase.rank] at this; omega
      · simp only [hp, if_false] at hne; exact absurd rfl hne
  | acquire k =>
    simp only [step, St.acquire] at *
    cases hk : s.tasks[k]? with
    | none => rw [hk] at hne; exact absurd rfl hne
    | some t =>
      simp only [hk] at hne
      by_cases hp : t.phase = .second
      · simp only [hp, if_true]
        split
        · have := work_phase (s.take t.sem) k t hk .inside
          have e : (s.take t.sem).work = s.work := rfl
          rw [e, hp] at this; simp only [Phase.rank] at this; omega
        · have := work_phase s k t hk .queued
          rw [hp] at this; simp only [Phase.rank] at this; omega
      · simp only [hp, if_false] at hne; exact absurd rfl hne
  | wake k =>
    simp only [step, St.wake] at *
    cases hk : s.tasks[k]? with
    | none => rw [hk] at hne; exact absurd rfl hne
    | some t =>
      simp only [hk] at hne
      by_cases hp : t.phase = .granted
      · simp only [hp, if_true]
        have := work_phase s k t hk .inside
        rw [hp] at this; simp only [Phase.rank] at this; omega
      · simp only [hp, if_false] at hne; exact absurd rfl hne
  | onCancel k pick =>
    simp only [step, St.onCancel] at *
    cases hk : s.tasks[k]? with
    | none => rw [hk] at hne; exact absurd rfl hne
    | some t =>
      simp only [hk] at hne
      by_cases hp : t.phase = .cancelling
      · simp only [hp, if_true]
        have h1 := work_phase s k t hk .done
        have h2 := work_cancelInflight (s.phase k .done) t.round t.sem pick
        rw [hp] at h1; simp only [Phase.rank] at h1; omega
      · simp only [hp, if_false] at hne; exact absurd rfl hne
  | leave k pick =>
    simp only [step, St.leave] at *
    cases hk : s.tasks[k]? with
    | none => rw [hk] at hne; exact absurd rfl hne
    | some t =>
      simp only [hk] at hne
      by_cases hp : t.phase = .inside
      · simp only [hp, if_true]
        have h1 := work_phase s k t hk .done
        have h2 := work_exit (s.phase k .done) pick
        rw [hp] at h1; simp only [Phase.rank] at h1; omega
      · simp only [hp, if_false] at hne; exact absurd rfl hne

/-- Whatever has happened, if no new tasks come, all tasks can be brought to their ends, and then the limiter is as new. -/
theorem all_served (P : Nat) (hP : P ≤ 65535) (hpos : 0 < P) (ops : List Op) :
    ∃ more : List Op, (∀ o ∈ more, o.own) ∧ (∀ t ∈ (run P (ops ++ more)).tasks, t.phase = .done) ∧
      (run P (ops ++ more)).permits = P ∧ (run P (ops ++ more)).waiters = [] := by
  generalize hn : (run P ops).work = n
  induction n using Nat.strongRecOn generalizing ops with
  | _ n ih =>
    by_cases hall : ∀ t ∈ (run P ops).tasks, t.phase = .done
    · refine ⟨[], by simp, ?_, ?_⟩
      · simpa using hall
      · have := quiet_is_empty P hP hpos ops (fun t ht => Or.inr (hall t ht))
        simpa using this.2
    · have hex : ∃ t ∈ (run P ops).tasks, t.phase ≠ .done := by
        by_contra h; exact hall (fun t ht => by by_contra h2; exact h ⟨t, ht, h2⟩)
      obtain ⟨t, ht, hd⟩ := hex
      obtain ⟨o, ho, hne⟩ := no_deadlock P hP hpos ops t ht hd
      have hw := every_step_counts _ o ho hne
      rw [← run_snoc] at hw
      obtain ⟨more, h1, h2, h3, h4⟩ := ih _ (by rw [← hn]; exact hw) (ops ++ [o]) rfl
      refine ⟨o :: more, ?_, ?_⟩
      · intro x hx
        rcases List.mem_cons.mp hx with rfl | hx
        · exact ho
        · exact h1 x hx
      · rw [show ops ++ o :: more = ops ++ [o] ++ more by simp]
        exact ⟨h2, h3, h4⟩

/-! ### The highest round first -/

theorem getElem?_phase (s : St) (k : Nat) (p : Phase) (t : Task) (h : s.tasks[k]? = some t) (j : Nat) :
    (s.phase k p).tasks[j]? = if j = k then some { t with phase := p } else s.tasks[j]? := by
  rw [phase_eq s k p t h]
  simp only [List.getElem?_set]
  have hlt : k < s.tasks.length := by
    rcases Nat.lt_or_ge k s.tasks.length with h2 | h2
    · exact h2
    · rw [List.getElem?_eq_none h2] at h; cases h
  by_cases hj : j = k
  · rw [if_pos hj.symm, if_pos hj, if_pos hlt]
  · rw [if_neg (Ne.symm hj), if_neg hj]

/-- A task that is let in because another one leaves has the highest round of all that wait. -/
theorem highest_first (P : Nat) (hP : P ≤ 65535) (ops : List Op) (k pick j : Nat) (t t' : Task)
    (h1 : (run P ops).tasks[j]? = some t) (hq : t.phase = .queued)
    (h2 : (run P (ops ++ [.leave k pick])).tasks[j]? = some t') (hg : t'.phase = .granted) :
    ∀ u ∈ (run P ops).tasks, u.phase = .queued → u.round ≤ t.round := by
  intro u hu huq
  obtain ⟨F, R, w⟩ := ok_run P hP ops
  rw [run_snoc] at h2
  simp only [step, St.leave] at h2
  cases hk : (run P ops).tasks[k]? with
  | none => rw [hk] at h2; simp only at h2; rw [h1] at h2; cases h2; rw [hq] at hg; cases hg
  | some v =>
    simp only [hk] at h2
    by_cases hp : v.phase = .inside
    · simp only [hp, if_true] at h2
      have hw : ((run P ops).phase k .done).waiters = (run P ops).waiters := (phase_avail _ _ _).2
      have hjk : j ≠ k := by rintro rfl; rw [h1] at hk; cases hk; rw [hq] at hp; cases hp
      have h1' : ((run P ops).phase k .done).tasks[j]? = some t := by rw [getElem?_phase _ _ _ _ hk, if_neg hjk]; exact h1
      have hless : ∀ (s : St) r, (s.lessInflight r).tasks = s.tasks := by
        intro s r; unfold St.lessInflight
        split
        · split <;> rfl
        · rfl
      unfold St.exit at h2
      rw [hw] at h2
      cases hr : lastRound (run P ops).waiters with
      | none =>
        simp only [hr] at h2
        split at h2 <;> (simp only at h2; rw [h1'] at h2; cases h2; rw [hq] at hg; cases hg)
      | some r =>
        obtain ⟨⟨⟨sem, n⟩, hv⟩, hmax⟩ := lastRound_some hr
        simp only [hr, hv, hless] at h2
        unfold St.addPermit at h2
        split at h2
        · rename_i i hi
          obtain ⟨x, hx, hxq, hxs⟩ := nextOf_some hi
          rw [getElem?_phase _ _ _ _ hx] at h2
          split at h2
          · rename_i hji
            rw [← hji, h1'] at hx
            cases hx
            obtain ⟨n2, hn2⟩ := queued_entry w u hu huq
            have h3 := hmax _ _ hn2
            have h4 := (w.entry r sem n hv).2.1
            have h5 := (w.home t (List.mem_of_getElem? h1) (by simp [hq]) (by simp [hq])).1
            rw [hxs, h4] at h5; omega
          · rw [h1'] at h2; cases h2; rw [hq] at hg; cases hg
        · simp only at h2; rw [h1'] at h2; cases h2; rw [hq] at hg; cases hg
    · simp only [hp, if_false] at h2; rw [h1] at h2; cases h2; rw [hq] at hg; cases hg

/-- When a task leaves and a task of the highest waiting round is in the queue, one of this round is let in at once. -/
theorem leaving_lets_in (P : Nat) (hP : P ≤ 65535) (ops : List Op) (k pick : Nat) (v u : Task)
    (hk : (run P ops).tasks[k]? = some v) (hv : v.phase = .inside) (hu : u ∈ (run P ops).tasks) (huq : u.phase = .queued)
    (hmax : ∀ r e, get (run P ops).waiters r = some e → r ≤ u.round) :
    ∃ (j : Nat) (t : Task), (run P ops).tasks[j]? = some t ∧ t.phase = .queued ∧ t.round = u.round ∧
      (run P (ops ++ [.leave k pick])).tasks[j]? = some { t with phase := .granted } := by
  obtain ⟨F, R, w⟩ := ok_run P hP ops
  obtain ⟨n, hn⟩ := queued_entry w u hu huq
  rw [run_snoc]
  simp only [step, St.leave, hk, hv, if_true]
  have hw : ((run P ops).phase k .done).waiters = (run P ops).waiters := (phase_avail _ _ _).2
  have hless : ∀ (s : St) r, (s.lessInflight r).tasks = s.tasks := by
    intro s r; unfold St.lessInflight
    split
    · split <;> rfl
    · rfl
  unfold St.exit
  rw [hw]
  cases hr : lastRound (run P ops).waiters with
  | none => have := lastRound_none hr; rw [this] at hn; cases hn
  | some r =>
    obtain ⟨⟨e, he⟩, hm⟩ := lastRound_some hr
    have hre : r = u.round := by have := hmax r e he; have := hm _ _ hn; omega
    subst hre
    simp only [hn, hless]
    unfold St.addPermit
    obtain ⟨i, hi⟩ := List.mem_iff_getElem?.mp hu
    have hik : i ≠ k := by rintro rfl; rw [hk] at hi; cases hi; rw [hv] at huq; cases huq
    have hi' : ((run P ops).phase k .done).tasks[i]? = some u := by rw [getElem?_phase _ _ _ _ hk, if_neg hik]; exact hi
    cases hnx : ((run P ops).phase k .done).nextOf u.sem pick with
    | none =>
      have h0 := nextOf_none hnx
      have : 0 < ((run P ops).phase k .done).tasks.countP (·.waitsOn u.sem) :=
        List.countP_pos_iff.mpr ⟨u, List.mem_of_getElem? hi', by simp [Task.waitsOn, huq]⟩
      unfold St.cnt at h0; omega
    | some j =>
      obtain ⟨x, hx, hxq, hxs⟩ := nextOf_some hnx
      have hjk : j ≠ k := by
        rintro rfl; rw [getElem?_phase _ _ _ _ hk, if_pos rfl] at hx; cases hx; cases hxq
      have hx0 : (run P ops).tasks[j]? = some x := by rw [getElem?_phase _ _ _ _ hk, if_neg hjk] at hx; exact hx
      refine ⟨j, x, hx0, hxq, ?_, ?_⟩
      · have h5 := (w.home x (List.mem_of_getElem? hx0) (by simp [hxq]) (by simp [hxq])).1
        have h6 := (w.home u hu (by simp [huq]) (by simp [huq])).1
        rw [hxs] at h5; omega
      · simp only; rw [getElem?_phase _ _ _ _ hx, if_pos rfl]

end Tycho.Limiter
