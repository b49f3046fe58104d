import Verif.Limiter.Model
import Mathlib.Data.List.Induction
/-! What holds of a limiter at every moment. -/
namespace Tycho.Limiter
open Tycho.Table (Table get put del get_put get_del)

/-- The task has a waiter of the semaphore and did not get in. -/
def Task.att (t : Task) (sem : Nat) : Bool := decide (t.sem = sem ∧ t.phase ≠ .inside ∧ t.phase ≠ .done)
/-- The task was assigned a permit of the semaphore. -/
def Task.gr (t : Task) (sem : Nat) : Bool := decide (t.sem = sem ∧ t.phase = .granted)
/-- The task was assigned a permit. -/
def Task.grAny (t : Task) : Bool := decide (t.phase = .granted)
/-- The task is inside. -/
def Task.ins (t : Task) : Bool := decide (t.phase = .inside)

/-- As a number. -/
def b2 (b : Bool) : Int := if b then 1 else 0

/-- Number of tasks. -/
def St.cnt (s : St) (f : Task → Bool) : Int := (s.tasks.countP f : Nat)

/-- The accounts of a limiter with `total` permits, of which `x` are in no place, with `d` tasks less than the accounts of a
semaphore tell. `infl` is the number of tasks that wait for a grant from the map, `rnd` the round of a semaphore. -/
structure Inv (s : St) (total : Nat) (x : Int) (d : Nat → Int) (infl rnd : Nat → Nat) : Prop where
  entry : ∀ r sem n, get s.waiters r = some (sem, n) → infl sem = n ∧ rnd sem = r ∧ sem < s.avail.length ∧ 1 ≤ n
  gone : ∀ sem, (∀ r n, get s.waiters r ≠ some (sem, n)) → infl sem = 0
  bal : ∀ sem, s.cnt (·.att sem) + d sem = infl sem + s.free sem + s.cnt (·.gr sem)
  noq : ∀ sem, s.free sem > 0 → s.cnt (·.waitsOn sem) = 0
  sum : s.permits + s.avail.sum + s.cnt Task.grAny + s.cnt Task.ins + x = total
  idle : s.permits > 0 → s.waiters = []
  home : ∀ t ∈ s.tasks, t.phase ≠ .inside → t.phase ≠ .done → rnd t.sem = t.round ∧ t.sem < s.avail.length
  good : s.bad = false

theorem countP_set (l : List Task) (f : Task → Bool) (k : Nat) (t t' : Task) (h : l[k]? = some t) :
    ((l.set k t').countP f : Int) = l.countP f - b2 (f t) + b2 (f t') := by
  induction l generalizing k with
  | nil => simp at h
  | cons a l ih =>
    cases k with
    | zero =>
      simp only [List.getElem?_cons_zero, Option.some.injEq] at h
      subst h
      simp only [List.set_cons_zero, List.countP_cons, b2]
      split <;> split <;> push_cast <;> omega
    | succ k =>
      simp only [List.getElem?_cons_succ] at h
      have := ih k h
      simp only [List.set_cons_succ, List.countP_cons]
      push_cast
      rw [this]; omega

theorem sum_set (l : List Nat) (k v : Nat) (h : k < l.length) : (l.set k v).sum + l[k] = l.sum + v := by
  induction l generalizing k with
  | nil => simp at h
  | cons a l ih =>
    cases k with
    | zero => simp; omega
    | succ k => simp only [List.length_cons, Nat.add_lt_add_iff_right] at h
                have := ih k h
                simp only [List.set_cons_succ, List.sum_cons, List.getElem_cons_succ]; omega

theorem phase_eq (s : St) (k : Nat) (p : Phase) (t : Task) (h : s.tasks[k]? = some t) :
    s.phase k p = { s with tasks := s.tasks.set k { t with phase := p } } := by unfold St.phase; rw [h]

theorem free_set (s : St) (sem v : Nat) (h : sem < s.avail.length) (j : Nat) :
    ({ s with avail := s.avail.set sem v } : St).free j = if j = sem then v else s.free j := by
  unfold St.free
  rw [List.getElem?_set]
  by_cases hj : j = sem
  · subst hj; simp [h]
  · rw [if_neg (fun hh => hj hh.symm), if_neg hj]

theorem free_lt {s : St} {sem : Nat} (h : s.free sem > 0) : sem < s.avail.length := by
  rcases Nat.lt_or_ge sem s.avail.length with h2 | h2
  · exact h2
  · unfold St.free at h; rw [List.getElem?_eq_none h2] at h; simp at h

theorem free_getElem {s : St} {sem : Nat} (h : sem < s.avail.length) : s.free sem = s.avail[sem] := by
  unfold St.free; rw [List.getElem?_eq_getElem h]; rfl

/-- A task changes its phase. -/
theorem inv_phase {s : St} {P : Nat} {x : Int} {d : Nat → Int} {F R : Nat → Nat} (w : Inv s P x d F R) (k : Nat) (p : Phase)
    (t : Task) (h : s.tasks[k]? = some t) (ha : t.phase ≠ .inside) (ha2 : t.phase ≠ .done)
    (hq : p = .queued → s.free t.sem = 0) :
    Inv (s.phase k p) P
      (x + b2 t.grAny + b2 t.ins - b2 (Task.grAny { t with phase := p }) - b2 (Task.ins { t with phase := p }))
      (fun j => if j = t.sem then d j + 1 - b2 (Task.att { t with phase := p } t.sem) + b2 (Task.gr { t with phase := p } t.sem) - b2 (t.gr t.sem)
        else d j) F R := by
  have hset : ∀ f, (s.phase k p).cnt f = s.cnt f - b2 (f t) + b2 (f { t with phase := p }) := by
    intro f; rw [phase_eq s k p t h]; exact countP_set _ f k t _ h
  have hfree : ∀ j, (s.phase k p).free j = s.free j := by intro j; rw [phase_eq s k p t h]; rfl
  have hw : (s.phase k p).waiters = s.waiters := by rw [phase_eq s k p t h]
  have hav : (s.phase k p).avail = s.avail := by rw [phase_eq s k p t h]
  have hpm : (s.phase k p).permits = s.permits := by rw [phase_eq s k p t h]
  constructor
  · rw [hw, hav]; exact w.entry
  · rw [hw]; exact w.gone
  · intro j
    rw [hset, hset, hfree]
    have := w.bal j
    by_cases hj : j = t.sem
    · subst hj
      simp only [if_true]
      have : b2 (t.att t.sem) = 1 := by simp [b2, Task.att, ha, ha2]
      omega
    · simp only [hj, if_false]
      have h1 : t.att j = false := by simp [Task.att, Ne.symm hj]
      have h2 : Task.att { t with phase := p } j = false := by simp [Task.att, Ne.symm hj]
      have h3 : t.gr j = false := by simp [Task.gr, Ne.symm hj]
      have h4 : Task.gr { t with phase := p } j = false := by simp [Task.gr, Ne.symm hj]
      rw [h1, h2, h3, h4]; omega
  · intro j hj
    rw [hset]
    rw [hfree] at hj
    have h0 := w.noq j hj
    have : b2 (Task.waitsOn { t with phase := p } j) = 0 := by
      simp only [b2, Task.waitsOn, decide_eq_true_eq]
      rw [if_neg]
      rintro ⟨h1, h2⟩
      have := hq h1
      rw [← h2] at hj; omega
    have hnn : b2 (t.waitsOn j) ≥ 0 := by unfold b2; split <;> omega
    have hnn2 : (s.phase k p).cnt (·.waitsOn j) ≥ 0 := by unfold St.cnt; omega
    have := hset (·.waitsOn j)
    omega
  · rw [hset, hset, hpm, hav]
    have := w.sum
    omega
  · rw [hpm, hw]; exact w.idle
  · intro u hu h1 h2
    rw [hav]
    rw [phase_eq s k p t h] at hu
    rcases List.mem_or_eq_of_mem_set hu with hu | hu
    · exact w.home u hu h1 h2
    · rw [hu]; exact w.home t (List.mem_of_getElem? h) ha ha2
  · rw [phase_eq s k p t h]; exact w.good

/-- A free permit is taken. -/
theorem inv_take {s : St} {P : Nat} {x : Int} {d : Nat → Int} {F R : Nat → Nat} (w : Inv s P x d F R) (sem : Nat)
    (h : s.free sem > 0) : Inv (s.take sem) P (x + 1) (fun j => if j = sem then d j - 1 else d j) F R := by
  have hl := free_lt h
  have hf : ∀ j, (s.take sem).free j = if j = sem then s.free sem - 1 else s.free j := free_set s sem _ hl
  have hs := sum_set s.avail sem (s.free sem - 1) hl
  have hg := free_getElem hl
  constructor
  · intro r j n hr
    have := w.entry r j n hr
    simp only [St.take, List.length_set]; exact this
  · exact w.gone
  · intro j
    have := w.bal j
    rw [hf]
    by_cases hj : j = sem
    · subst hj
      simp only [if_true]
      show s.cnt (·.att j) + _ = _
      have e : (s.take j).cnt (·.gr j) = s.cnt (·.gr j) := rfl
      rw [e]; omega
    · simp only [hj, if_false]
      exact this
  · intro j hj
    rw [hf] at hj
    refine w.noq j ?_
    by_cases hjs : j = sem
    · rw [if_pos hjs] at hj; rw [hjs]; omega
    · rw [if_neg hjs] at hj; exact hj
  · have := w.sum
    have e1 : (s.take sem).cnt Task.grAny = s.cnt Task.grAny := rfl
    have e2 : (s.take sem).cnt Task.ins = s.cnt Task.ins := rfl
    rw [e1, e2]
    show (s.permits : Int) + ((s.avail.set sem (s.free sem - 1)).sum : Nat) + _ + _ + _ = _
    omega
  · exact w.idle
  · intro u hu h1 h2
    have := w.home u hu h1 h2
    simp only [St.take, List.length_set]; exact this
  · exact w.good

theorem nextOf_some {s : St} {sem pick k : Nat} (h : s.nextOf sem pick = some k) :
    ∃ t, s.tasks[k]? = some t ∧ t.phase = .queued ∧ t.sem = sem := by
  unfold St.nextOf at h
  split at h
  · rename_i hp
    cases h
    cases ht : s.tasks[pick]? with
    | none => rw [ht] at hp; simp at hp
    | some t => rw [ht] at hp; simp only [Option.map_some, Option.getD_some, Task.waitsOn, decide_eq_true_eq] at hp
                exact ⟨t, rfl, hp⟩
  · have h2 := List.findIdx?_eq_some_iff_getElem.mp h
    obtain ⟨hk, h3, _⟩ := h2
    refine ⟨s.tasks[k], List.getElem?_eq_getElem hk, ?_⟩
    simpa [Task.waitsOn] using h3

theorem nextOf_none {s : St} {sem pick : Nat} (h : s.nextOf sem pick = none) : s.cnt (·.waitsOn sem) = 0 := by
  unfold St.nextOf at h
  split at h
  · cases h
  · have := List.findIdx?_eq_none_iff.mp h
    unfold St.cnt
    rw [List.countP_eq_zero.mpr]
    · rfl
    · intro t ht; simp [this t ht]

theorem addPermit_waiters (s : St) (sem pick : Nat) : (s.addPermit sem pick).waiters = s.waiters ∧
    (s.addPermit sem pick).permits = s.permits := by
  unfold St.addPermit
  split
  · unfold St.phase; split <;> exact ⟨rfl, rfl⟩
  · exact ⟨rfl, rfl⟩

/-- A permit is added to a semaphore. -/
theorem inv_add {s : St} {P : Nat} {x : Int} {d : Nat → Int} {F R : Nat → Nat} (w : Inv s P x d F R) (sem pick : Nat)
    (hl : sem < s.avail.length) :
    Inv (s.addPermit sem pick) P (x - 1) (fun j => if j = sem then d j + 1 else d j) F R := by
  unfold St.addPermit
  cases hn : s.nextOf sem pick with
  | some k =>
    obtain ⟨t, h1, h2, h3⟩ := nextOf_some hn
    have := inv_phase w k .granted t h1 (by rw [h2]; simp) (by rw [h2]; simp) (by simp)
    simp only [Task.grAny, Task.ins, Task.att, Task.gr, h2, b2] at this
    simp only [reduceCtorEq, decide_false, decide_true, Bool.false_eq_true, if_false, if_true, and_self, ne_eq,
      not_false_eq_true, and_false] at this
    have e1 : (x + 0 + 0 - 1 - 0) = x - 1 := by omega
    have e2 : (fun j => if j = t.sem then d j + 1 - 1 + 1 - 0 else d j) = fun j => if j = sem then d j + 1 else d j := by
      funext j; rw [h3]; split <;> omega
    rw [e1, e2] at this
    exact this
  | none =>
    have hq := nextOf_none hn
    have hf : ∀ j, ({ s with avail := s.avail.set sem (s.free sem + 1) } : St).free j = if j = sem then s.free sem + 1 else s.free j :=
      free_set s sem _ hl
    have hs := sum_set s.avail sem (s.free sem + 1) hl
    have hg := free_getElem hl
    constructor
    · intro r j n hr
      have := w.entry r j n hr
      simp only [List.length_set]; exact this
    · exact w.gone
    · intro j
      have := w.bal j
      rw [hf]
      by_cases hj : j = sem
      · subst hj
        simp only [if_true]
        have e : ({ s with avail := s.avail.set j (s.free j + 1) } : St).cnt (·.gr j) = s.cnt (·.gr j) := rfl
        have e' : ({ s with avail := s.avail.set j (s.free j + 1) } : St).cnt (·.att j) = s.cnt (·.att j) := rfl
        rw [e, e']; push_cast; omega
      · simp only [hj, if_false]
        exact this
    · intro j hj
      rw [hf] at hj
      by_cases hjs : j = sem
      · rw [hjs]; exact hq
      · rw [if_neg hjs] at hj; exact w.noq j hj
    · have := w.sum
      show (s.permits : Int) + ((s.avail.set sem (s.free sem + 1)).sum : Nat) + s.cnt Task.grAny + s.cnt Task.ins + _ = _
      omega
    · exact w.idle
    · intro u hu h1 h2
      have := w.home u hu h1 h2
      simp only [List.length_set]; exact this
    · exact w.good

/-- One less waits for a grant from the map. -/
theorem inv_less {s : St} {P : Nat} {x : Int} {d : Nat → Int} {F R : Nat → Nat} (w : Inv s P x d F R) (r sem n : Nat)
    (h : get s.waiters r = some (sem, n)) :
    ∃ F', Inv (s.lessInflight r) P x (fun j => if j = sem then d j - 1 else d j) F' R := by
  obtain ⟨h1, h2, h3, h4⟩ := w.entry r sem n h
  refine ⟨fun j => if j = sem then n - 1 else F j, ?_⟩
  have other : ∀ r' m, get s.waiters r' = some (sem, m) → r' = r := by
    intro r' m hr'; have := (w.entry r' sem m hr').2.1; omega
  have hidle : s.permits > 0 → False := by
    intro hp; have := w.idle hp; rw [this] at h; cases h
  have hbal : ∀ j, s.cnt (·.att j) + (if j = sem then d j - 1 else d j) = ((if j = sem then n - 1 else F j : Nat) : Int) + s.free j + s.cnt (·.gr j) := by
    intro j
    have := w.bal j
    by_cases hj : j = sem
    · subst hj; simp only [if_true]; omega
    · simp only [hj, if_false]; exact this
  unfold St.lessInflight
  rw [h]
  cases n with
  | zero => omega
  | succ n =>
    cases n with
    | zero =>
      have hget : ∀ q, get (del s.waiters (fun x => decide (x = r))) q = if q = r then none else get s.waiters q := by
        intro q; rw [get_del]; simp
      refine ⟨?_, ?_, hbal, w.noq, w.sum, fun hp => absurd hp (fun hp => hidle hp), w.home, w.good⟩
      · intro q j m hq
        simp only [hget] at hq
        split at hq
        · cases hq
        · rename_i hqr
          have := w.entry q j m hq
          have hj : j ≠ sem := fun hh => hqr (other q m (hh ▸ hq))
          simp only [hj, if_false]; exact this
      · intro j hj
        by_cases hjs : j = sem
        · simp [hjs]
        · simp only [hjs, if_false]
          refine w.gone j ?_
          intro q m hq
          have hqr : q ≠ r := by rintro rfl; rw [h] at hq; cases hq; exact hjs rfl
          exact hj q m (by simp only [hget, hqr, if_false]; exact hq)
    | succ n =>
      have hget : ∀ q, get (put s.waiters r (sem, n + 1)) q = if q = r then some (sem, n + 1) else get s.waiters q := by
        intro q; rw [get_put]
      refine ⟨?_, ?_, hbal, w.noq, w.sum, fun hp => absurd hp (fun hp => hidle hp), w.home, w.good⟩
      · intro q j m hq
        simp only [hget] at hq
        split at hq
        · rename_i hqr; cases hq; exact ⟨by simp, by rw [hqr]; exact h2, h3, by omega⟩
        · rename_i hqr
          have := w.entry q j m hq
          have hj : j ≠ sem := fun hh => hqr (other q m (hh ▸ hq))
          simp only [hj, if_false]; exact this
      · intro j hj
        by_cases hjs : j = sem
        · exact absurd (show get (put s.waiters r (sem, n + 1)) r = some (j, n + 1) by rw [hget, if_pos rfl, hjs]) (hj r (n + 1))
        · simp only [hjs, if_false]
          refine w.gone j ?_
          intro q m hq
          have hqr : q ≠ r := by rintro rfl; rw [h] at hq; cases hq; exact hjs rfl
          exact hj q m (by simp only [hget, hqr, if_false]; exact hq)

theorem lastRound_some {t : Table Nat (Nat × Nat)} {r : Nat} (h : lastRound t = some r) :
    (∃ v, get t r = some v) ∧ ∀ q v, get t q = some v → q ≤ r := by
  unfold lastRound at h
  have hm := List.max?_eq_some_iff.mp h
  constructor
  · obtain ⟨e, h1, h2⟩ := List.mem_map.mp hm.1
    have := Table.get_some_of_mem t e.1 e.2 h1
    rw [h2] at this
    exact Option.isSome_iff_exists.mp this
  · intro q v hq
    exact hm.2 q (List.mem_map_of_mem (f := (·.1)) (Table.mem_of_get t q v hq))

theorem lastRound_none {t : Table Nat (Nat × Nat)} (h : lastRound t = none) : t = [] := by
  unfold lastRound at h
  simpa using List.max?_eq_none_iff.mp h

/-- A permit in hand is passed on. -/
theorem inv_exit {s : St} {P : Nat} {x : Int} {d : Nat → Int} {F R : Nat → Nat} (w : Inv s P x d F R) (pick : Nat)
    (hP : P ≤ 65535) (hx : 1 ≤ x) : ∃ F', Inv (s.exit pick) P (x - 1) d F' R := by
  unfold St.exit
  cases hr : lastRound s.waiters with
  | some r =>
    obtain ⟨⟨⟨sem, n⟩, hv⟩, _⟩ := lastRound_some hr
    simp only [hv]
    obtain ⟨_, _, hl, _⟩ := w.entry r sem n hv
    have w1 := inv_add w sem pick hl
    have hw := (addPermit_waiters s sem pick).1
    obtain ⟨F', w2⟩ := inv_less w1 r sem n (by rw [hw]; exact hv)
    refine ⟨F', ?_⟩
    have e : (fun j => if j = sem then (if j = sem then d j + 1 else d j) - 1 else (if j = sem then d j + 1 else d j)) = d := by
      funext j; split
      · omega
      · rfl
    rw [e] at w2; exact w2
  | none =>
    have he := lastRound_none hr
    have hs := w.sum
    have hlt : s.permits < 65535 := by
      have h1 : s.cnt Task.grAny ≥ 0 := by unfold St.cnt; omega
      have h2 : s.cnt Task.ins ≥ 0 := by unfold St.cnt; omega
      omega
    simp only [hlt, if_true]
    refine ⟨F, w.entry, w.gone, w.bal, w.noq, ?_, fun _ => he, w.home, w.good⟩
    show ((s.permits + 1 : Nat) : Int) + s.avail.sum + s.cnt Task.grAny + s.cnt Task.ins + (x - 1) = P
    omega

theorem inv_congr {s : St} {P : Nat} {x x' : Int} {d d' : Nat → Int} {F R : Nat → Nat} (w : Inv s P x d F R) (hx : x = x')
    (hd : ∀ j, d j = d' j) : Inv s P x' d' F R := by
  subst hx
  have : d = d' := funext hd
  subst this; exact w

/-- The accounts are balanced. -/
def Ok (s : St) (P : Nat) : Prop := ∃ F R, Inv s P 0 (fun _ => 0) F R

theorem ok_enter {s : St} {P : Nat} (h : Ok s P) (r : Nat) : Ok (s.enter r) P := by
  obtain ⟨F, R, w⟩ := h
  unfold St.enter
  by_cases hp : s.permits > 0
  · rw [if_pos hp]
    have happ : ∀ f, ({ s with permits := s.permits - 1, tasks := s.tasks ++ [⟨r, 0, .inside⟩] } : St).cnt f =
        s.cnt f + b2 (f ⟨r, 0, .inside⟩) := by
      intro f; unfold St.cnt b2; simp only [List.countP_append, List.countP_cons, List.countP_nil]; split <;> push_cast <;> omega
    refine ⟨F, R, w.entry, w.gone, ?_, ?_, ?_, ?_, ?_, w.good⟩
    · intro j
      rw [happ, happ]
      have h1 : Task.att ⟨r, 0, .inside⟩ j = false := by simp [Task.att]
      have h2 : Task.gr ⟨r, 0, .inside⟩ j = false := by simp [Task.gr]
      rw [h1, h2]
      have := w.bal j
      simp only [b2, Bool.false_eq_true, if_false]
      show _ = _ + ((s.free j : Nat) : Int) + _
      omega
    · intro j hj
      rw [happ]
      have h1 : Task.waitsOn ⟨r, 0, .inside⟩ j = false := by simp [Task.waitsOn]
      rw [h1, w.noq j hj]; rfl
    · rw [happ, happ]
      have h1 : Task.grAny ⟨r, 0, .inside⟩ = false := by simp [Task.grAny]
      have h2 : Task.ins ⟨r, 0, .inside⟩ = true := by simp [Task.ins]
      rw [h1, h2]
      have := w.sum
      show ((s.permits - 1 : Nat) : Int) + s.avail.sum + _ + _ + _ = _
      simp only [b2]; simp only [Bool.false_eq_true, if_false, if_true]; omega
    · intro _; exact w.idle hp
    · intro u hu h1 h2
      rcases List.mem_append.mp hu with hu | hu
      · exact w.home u hu h1 h2
      · simp only [List.mem_singleton] at hu; rw [hu] at h1; exact absurd rfl h1
  · rw [if_neg hp]
    cases hw : get s.waiters r with
    | some v =>
      obtain ⟨sem, n⟩ := v
      obtain ⟨e1, e2, e3, e4⟩ := w.entry r sem n hw
      have other : ∀ r' m, get s.waiters r' = some (sem, m) → r' = r := by
        intro r' m hr'; have := (w.entry r' sem m hr').2.1; omega
      have happ : ∀ f, ({ s with waiters := put s.waiters r (sem, n + 1), tasks := s.tasks ++ [⟨r, sem, .start⟩] } : St).cnt f =
          s.cnt f + b2 (f ⟨r, sem, .start⟩) := by
        intro f; unfold St.cnt b2; simp only [List.countP_append, List.countP_cons, List.countP_nil]; split <;> push_cast <;> omega
      refine ⟨fun j => if j = sem then n + 1 else F j, R, ?_, ?_, ?_, ?_, ?_, ?_, ?_, w.good⟩
      · intro q j m hq
        simp only [get_put] at hq
        split at hq
        · rename_i hqr; cases hq; exact ⟨by simp, by rw [hqr]; exact e2, e3, by omega⟩
        · rename_i hqr
          have hj : j ≠ sem := fun hh => hqr (other q m (hh ▸ hq))
          simp only [hj, if_false]; exact w.entry q j m hq
      · intro j hj
        by_cases hjs : j = sem
        · exact absurd (by simp only [get_put, if_true, hjs]) (hj r (n + 1))
        · simp only [hjs, if_false]
          refine w.gone j ?_
          intro q m hq
          have hqr : q ≠ r := by rintro rfl; rw [hw] at hq; cases hq; exact hjs rfl
          exact hj q m (by simp only [get_put, hqr, if_false]; exact hq)
      · intro j
        rw [happ, happ]
        have := w.bal j
        have h2 : Task.gr ⟨r, sem, .start⟩ j = false := by simp [Task.gr]
        rw [h2]
        show _ = _ + ((s.free j : Nat) : Int) + _
        by_cases hj : j = sem
        · subst hj
          have h1 : Task.att ⟨r, j, .start⟩ j = true := by simp [Task.att]
          rw [h1]; simp only [b2, if_true, Bool.false_eq_true, if_false]; push_cast; omega
        · have h1 : Task.att ⟨r, sem, .start⟩ j = false := by simp [Task.att, Ne.symm hj]
          rw [h1]; simp only [b2, hj, Bool.false_eq_true, if_false]; omega
      · intro j hj
        rw [happ]
        have h1 : Task.waitsOn ⟨r, sem, .start⟩ j = false := by simp [Task.waitsOn]
        rw [h1, w.noq j hj]; rfl
      · rw [happ, happ]
        have h1 : Task.grAny ⟨r, sem, .start⟩ = false := by simp [Task.grAny]
        have h2 : Task.ins ⟨r, sem, .start⟩ = false := by simp [Task.ins]
        rw [h1, h2]
        have := w.sum
        simp only [b2, Bool.false_eq_true, if_false]; omega
      · intro h; exact absurd h hp
      · intro u hu h1 h2
        rcases List.mem_append.mp hu with hu | hu
        · exact w.home u hu h1 h2
        · simp only [List.mem_singleton] at hu; rw [hu]; exact ⟨e2, e3⟩
    | none =>
      have happ : ∀ f, (St.mk s.permits (put s.waiters r (s.avail.length, 1)) (s.avail ++ [0]) (s.tasks ++ [⟨r, s.avail.length, .start⟩]) s.bad).cnt f = s.cnt f + b2 (f ⟨r, s.avail.length, .start⟩) := by
        intro f; unfold St.cnt b2; simp only [List.countP_append, List.countP_cons, List.countP_nil]; split <;> push_cast <;> omega
      have hfree : ∀ j, (St.mk s.permits (put s.waiters r (s.avail.length, 1)) (s.avail ++ [0]) (s.tasks ++ [⟨r, s.avail.length, .start⟩]) s.bad).free j = s.free j := by
        intro j; unfold St.free
        simp only [List.getElem?_append]
        split
        · rfl
        · rename_i hj
          rw [List.getElem?_eq_none (by omega : s.avail.length ≤ j)]
          cases hd : j - s.avail.length with
          | zero => simp
          | succ m => simp
      have hfresh : ∀ q n, get s.waiters q ≠ some (s.avail.length, n) := by
        intro q n hq; have := (w.entry _ _ _ hq).2.2.1; omega
      have hF := w.gone _ hfresh
      have hno : s.cnt (·.att s.avail.length) = 0 := by
        unfold St.cnt; rw [List.countP_eq_zero.mpr]
        · rfl
        · intro t ht h
          simp only [Task.att, decide_eq_true_eq] at h
          have := (w.home t ht h.2.1 h.2.2).2; omega
      refine ⟨fun j => if j = s.avail.length then 1 else F j, fun j => if j = s.avail.length then r else R j, ?_, ?_, ?_, ?_, ?_, ?_, ?_, w.good⟩
      · intro q j m hq
        simp only [get_put] at hq
        split at hq
        · rename_i hqr; cases hq; exact ⟨by simp, by simp [hqr], by simp, by omega⟩
        · have := w.entry q j m hq
          have hj : j ≠ s.avail.length := by omega
          simp only [hj, if_false, List.length_append, List.length_cons, List.length_nil]
          exact ⟨this.1, this.2.1, by omega, this.2.2.2⟩
      · intro j hj
        by_cases hjs : j = s.avail.length
        · exact absurd (by simp only [get_put, if_true, hjs]) (hj r 1)
        · simp only [hjs, if_false]
          refine w.gone j ?_
          intro q m hq
          have hqr : q ≠ r := by rintro rfl; rw [hw] at hq; cases hq
          exact hj q m (by simp only [get_put, hqr, if_false]; exact hq)
      · intro j
        rw [happ, happ, hfree]
        have := w.bal j
        have h2 : Task.gr ⟨r, s.avail.length, .start⟩ j = false := by simp [Task.gr]
        rw [h2]
        by_cases hj : j = s.avail.length
        · subst hj
          have h1 : Task.att ⟨r, s.avail.length, .start⟩ s.avail.length = true := by simp [Task.att]
          rw [h1]; simp only [b2, if_true, Bool.false_eq_true, if_false]; push_cast; omega
        · have h1 : Task.att ⟨r, s.avail.length, .start⟩ j = false := by simp [Task.att, Ne.symm hj]
          rw [h1]; simp only [b2, hj, Bool.false_eq_true, if_false]; omega
      · intro j hj
        rw [hfree] at hj
        rw [happ]
        have h1 : Task.waitsOn ⟨r, s.avail.length, .start⟩ j = false := by simp [Task.waitsOn]
        rw [h1, w.noq j hj]; rfl
      · rw [happ, happ]
        have h1 : Task.grAny ⟨r, s.avail.length, .start⟩ = false := by simp [Task.grAny]
        have h2 : Task.ins ⟨r, s.avail.length, .start⟩ = false := by simp [Task.ins]
        rw [h1, h2]
        have := w.sum
        show (s.permits : Int) + ((s.avail ++ [0]).sum : Nat) + _ + _ + _ = _
        simp only [b2, Bool.false_eq_true, if_false, List.sum_append, List.sum_cons, List.sum_nil]; push_cast; omega
      · intro h; exact absurd h hp
      · intro u hu h1 h2
        simp only [List.length_append, List.length_cons, List.length_nil]
        rcases List.mem_append.mp hu with hu | hu
        · have := w.home u hu h1 h2
          have hne : u.sem ≠ s.avail.length := by omega
          simp only [hne, if_false]; exact ⟨this.1, by omega⟩
        · simp only [List.mem_singleton] at hu; rw [hu]; exact ⟨by simp, by simp⟩

end Tycho.Limiter
