import Verif.PersistentSave.Spec

namespace Tycho.PersistentSave

theorem bucket_eq (t : Nat) : bucket t = t / 131072 := by
  unfold bucket; rw [Nat.shiftRight_eq_div_pow]

theorem isP_iff (a b : Nat) : computeIsPersistent a b = true ↔ a / 131072 ≠ b / 131072 := by
  simp [computeIsPersistent, bucket_eq]

/-! ## The decision within one run -/

/-- the time the next decision is compared with -/
def prevTime (u : Nat → Nat) (d : Disk) (k : Nat) : Nat := if k = d.committed then lastSeen u d else u (k - 1)

structure RunInv (u : Nat → Nat) (d : Disk) (s : St) : Prop where
  le : d.committed ≤ s.disk.committed
  past : ∀ k, d.committed ≤ k → k < s.disk.committed →
    (k ∈ s.started ↔ u k / 131072 ≠ prevTime u d k / 131072)
  bound : ∀ k ∈ s.started, d.committed ≤ k ∧ k ≤ s.disk.committed
  early : (s.phase = .idle ∨ s.phase = .saved) →
    s.last = prevTime u d s.disk.committed ∧ s.disk.committed ∉ s.started
  late : s.phase ≠ .idle → s.phase ≠ .saved →
    s.last = u s.disk.committed ∧
    (s.disk.committed ∈ s.started ↔
      u s.disk.committed / 131072 ≠ prevTime u d s.disk.committed / 131072)

theorem resume_fields (s : St) : (resume s).disk.committed = s.disk.committed ∧
    (resume s).started = s.started ∧ (resume s).last = s.last ∧ (resume s).phase = s.phase ∧
    (resume s).disk.saved = s.disk.saved ∧ (resume s).disk.stored = s.disk.stored ∧
    (resume s).orphans = s.orphans := by
  unfold resume; split <;> simp [beginStore]

theorem runInv_step {u d s t} (h : RunInv u d s) (st : Step u s t) : RunInv u d t := by
  obtain ⟨h1, h2, h2b, h3, h4⟩ := h
  cases st with
  | resume a b =>
    obtain ⟨e1, e2, e3, e4, _⟩ := resume_fields s
    constructor <;> simp only [e1, e2, e3, e4] <;> assumption
  | save a b =>
    refine ⟨h1, h2, h2b, fun _ => h3 (.inl b), fun _ c => absurd rfl c⟩
  | swap a b =>
    obtain ⟨e, n⟩ := h3 (.inr a)
    unfold swap
    by_cases c : computeIsPersistent (u s.disk.committed) s.last = true
    · simp only [c, if_true]
      have c' := (isP_iff _ _).mp c
      rw [e] at c'
      refine ⟨h1, ?_, ?_, ?_, ?_⟩
      · intro k k1 k2
        have : k ≠ s.disk.committed := by dsimp at k2; omega
        simp only [List.mem_cons, this, false_or]
        exact h2 k k1 k2
      · intro k hk
        rcases List.mem_cons.mp hk with rfl | hk
        · exact ⟨h1, Nat.le_refl _⟩
        · exact h2b k hk
      · intro x; simp at x
      · intro _ _; simp [c']
    · simp only [c]
      have c' := mt (isP_iff _ _).mpr c
      rw [e] at c'
      refine ⟨h1, h2, h2b, ?_, ?_⟩
      · intro x; simp at x
      · intro _ _
        refine ⟨rfl, ?_⟩
        constructor
        · intro z; exact absurd z n
        · intro z; exact absurd z c'
  | join a b =>
    exact ⟨h1, h2, h2b, fun x => by simp [join] at x, fun _ _ => h4 (by simp [a]) (by simp [a])⟩
  | start a =>
    exact ⟨h1, h2, h2b, fun x => by simp [start] at x, fun _ _ => h4 (by simp [a]) (by simp [a])⟩
  | spawn a =>
    exact ⟨h1, h2, h2b, fun x => by simp [spawn] at x, fun _ _ => h4 (by simp [a]) (by simp [a])⟩
  | commit a =>
    obtain ⟨e, i⟩ := h4 (by simp [a]) (by simp [a])
    refine ⟨by simp only [commit]; omega, ?_, ?_, ?_, fun x => by simp [commit] at x⟩
    · intro k k1 k2
      simp only [commit] at k2 ⊢
      by_cases hk : k = s.disk.committed
      · subst hk; exact i
      · exact h2 k k1 (by omega)
    · intro k hk
      have := h2b k hk
      simp only [commit]; omega
    · intro _
      simp only [commit]
      refine ⟨?_, fun x => ?_⟩
      · unfold prevTime; rw [if_neg (by omega)]; simpa using e
      · have := h2b _ x; omega
  | taskStore k a => exact ⟨h1, h2, h2b, h3, h4⟩
  | taskReset k a => exact ⟨h1, h2, h2b, h3, h4⟩
  | taskFail k a => exact ⟨h1, h2, h2b, h3, h4⟩
  | orphan k a => exact ⟨h1, h2, h2b, h3, h4⟩

theorem runInv {u d s} (r : Run u (fresh u d) s) : RunInv u d s := by
  generalize e : fresh u d = s0 at r
  induction r with
  | refl =>
    subst e
    refine ⟨Nat.le_refl _, ?_, by simp [fresh], ?_, fun x => by simp [fresh] at x⟩
    · intro k a b; simp only [fresh] at b; omega
    · intro _; simp [fresh, prevTime]
  | step _ st ih => exact runInv_step ih st

/-- **A process makes a persistent state of exactly the key blocks whose time lies in another
131072-second interval than that of the key block processed before it - for the first key block of
the process, than that of the last key block found on disk when it started.** -/
theorem started_iff {u : Nat → Nat} {d : Disk} {s : St} (r : Run u (fresh u d) s) {k : Nat}
    (h1 : d.committed ≤ k) (h2 : k < s.disk.committed) :
    k ∈ s.started ↔
      u k / 131072 ≠ (if k = d.committed then lastSeen u d else u (k - 1)) / 131072 :=
  (runInv r).past k h1 h2

/-! ## Nothing begun is lost -/

structure TaskInv (s : St) : Prop where
  orphans : s.orphans = []
  kept : ∀ k ∈ s.disk.begun, k ∈ s.disk.stored ∨ s.disk.pending = some k
  unresumed : s.resumed = false → s.slot = none ∧ s.phase = .idle
  slot : ∀ k t, s.slot = some (k, t) →
    s.resumed = true ∧
    (t = .ok → s.disk.pending = none ∨ s.phase = .begun) ∧
    (t ≠ .ok → s.disk.pending = some k ∧ s.phase ≠ .begun ∧ s.phase ≠ .joined) ∧
    (t = .stored → k ∈ s.disk.stored)
  empty : s.slot = none → s.resumed = true → s.disk.pending = none ∨ s.phase = .begun
  joinedNone : s.phase = .joined ∨ s.phase = .begun → s.slot = none
  begunPend : s.phase = .begun → s.disk.pending = some s.disk.committed

theorem taskInv_fresh {u d} (h : ∀ k ∈ d.begun, k ∈ d.stored ∨ d.pending = some k) :
    TaskInv (fresh u d) := by
  refine ⟨rfl, h, fun _ => ⟨rfl, rfl⟩, ?_, ?_, ?_, ?_⟩ <;> simp [fresh]

theorem taskInv_step {u s t} (h : TaskInv s) (st : Step u s t) : TaskInv t := by
  obtain ⟨h0, h1, h2, h3, h4, h5, h6⟩ := h
  cases st with
  | resume a b =>
    obtain ⟨hs, hp⟩ := h2 a
    unfold resume
    split
    · rename_i e
      refine ⟨h0, h1, by simp, ?_, ?_, ?_, ?_⟩ <;> simp_all
    · rename_i k e
      refine ⟨h0, ?_, by simp, ?_, ?_, ?_, ?_⟩
      · intro j hj
        simp only [beginStore, List.mem_cons] at hj ⊢
        rcases hj with rfl | hj
        · exact .inr rfl
        · rcases h1 j hj with x | x
          · exact .inl x
          · rw [e] at x; exact .inr x
      · simp_all [beginStore]
      all_goals simp_all
  | save a b =>
    refine ⟨h0, h1, by simp [save, a], ?_, ?_, ?_, ?_⟩
    · intro k t e
      obtain ⟨x, y, z, w⟩ := h3 k t e
      rw [b] at y z
      exact ⟨x, fun q => .inl (by simpa [save] using y q), fun q => ⟨(z q).1, by simp [save], by simp [save]⟩, w⟩
    all_goals simp_all [save]
  | swap a b =>
    have hr : s.resumed = true := by
      cases e : s.resumed with
      | true => rfl
      | false => have := (h2 e).2; simp [a] at this
    have key : ∀ (ph : Phase) (l : List Nat), (ph = .waiting ∨ ph = .done) →
        TaskInv { s with slot := (match s.slot with | some (_, .ok) => none | t => t),
                         last := u s.disk.committed, phase := ph, started := l } := by
      intro ph l hph
      refine ⟨h0, h1, by simp [hr], ?_, ?_, ?_, ?_⟩
      · intro k t e
        dsimp only at e ⊢
        have e' : s.slot = some (k, t) ∧ t ≠ .ok := by
          split at e
          · simp at e
          · rename_i hh
            refine ⟨e, ?_⟩
            rintro rfl; exact hh k e
        have := h3 k t e'.1
        rcases hph with rfl | rfl <;> simp_all
      · intro e _
        dsimp only at e ⊢
        split at e
        · rename_i j ej
          have := (h3 _ _ ej).2.1 rfl
          simp [a] at this
          exact .inl this
        · have := h4 e hr
          simp [a] at this
          exact .inl this
      · rcases hph with rfl | rfl <;> simp
      · rcases hph with rfl | rfl <;> simp
    unfold swap
    dsimp only
    split
    · exact key _ _ (.inl rfl)
    · exact key _ _ (.inr rfl)
  | join a b =>
    have hr : s.resumed = true := by
      cases e : s.resumed with
      | true => rfl
      | false => have := (h2 e).2; simp [a] at this
    have hp : s.disk.pending = none := by
      cases e : s.slot with
      | none => simpa [a] using h4 e hr
      | some p =>
        obtain ⟨k, t⟩ := p
        rw [e] at b
        have b' : t = .ok := b
        simpa [a] using (h3 k t e).2.1 b'
    refine ⟨h0, h1, by simp [join, hr], ?_, ?_, ?_, ?_⟩ <;> simp_all [join]
  | start a =>
    have hs := h5 (.inl a)
    have hr : s.resumed = true := by
      cases e : s.resumed with
      | true => rfl
      | false => have := (h2 e).2; simp [a] at this
    have hp : s.disk.pending = none := by simpa [a] using h4 hs hr
    refine ⟨h0, ?_, by simp [start, hr], ?_, ?_, ?_, ?_⟩
    · intro j hj
      simp only [start, beginStore, List.mem_cons] at hj ⊢
      rcases hj with rfl | hj
      · exact .inr rfl
      · rcases h1 j hj with x | x
        · exact .inl x
        · rw [hp] at x; cases x
    all_goals simp_all [start, beginStore]
  | spawn a =>
    have hs := h5 (.inr a)
    have hr : s.resumed = true := by
      cases e : s.resumed with
      | true => rfl
      | false => have := (h2 e).2; simp [a] at this
    have hp := h6 a
    refine ⟨by simp [spawn, h0, hs, dropped], h1, by simp [spawn, hr], ?_, ?_, ?_, ?_⟩
    · intro k t e
      simp only [spawn, Option.some.injEq, Prod.mk.injEq] at e
      obtain ⟨rfl, rfl⟩ := e
      simp [spawn, hr, hp]
    all_goals simp_all [spawn]
  | commit a =>
    have hr : s.resumed = true := by
      cases e : s.resumed with
      | true => rfl
      | false => have := (h2 e).2; simp [a] at this
    refine ⟨h0, h1, by simp [commit, hr], ?_, ?_, ?_, ?_⟩
    · intro k t e
      obtain ⟨x, y, z, w⟩ := h3 k t e
      rw [a] at y z
      exact ⟨x, fun q => .inl (by simpa [commit] using y q), fun q => ⟨(z q).1, by simp [commit], by simp [commit]⟩, w⟩
    all_goals simp_all [commit]
  | taskStore k a =>
    obtain ⟨hr, -, h, -⟩ := h3 k _ a
    obtain ⟨p1, p2, p3⟩ := h (by simp)
    refine ⟨h0, ?_, by simp [taskStore, hr], ?_, ?_, ?_, ?_⟩
    · intro j hj
      rcases h1 j hj with x | x
      · exact .inl (List.mem_cons_of_mem _ x)
      · exact .inr x
    · intro j t e
      simp only [taskStore, Option.some.injEq, Prod.mk.injEq] at e
      obtain ⟨rfl, rfl⟩ := e
      simp_all [taskStore]
    all_goals simp_all [taskStore]
  | taskReset k a =>
    obtain ⟨hr, -, h, h'⟩ := h3 k _ a
    obtain ⟨p1, p2, p3⟩ := h (by simp)
    have hs := h' rfl
    refine ⟨h0, ?_, by simp [taskReset, hr], ?_, ?_, ?_, ?_⟩
    · intro j hj
      rcases h1 j hj with x | x
      · exact .inl x
      · rw [p1] at x; cases x; exact .inl hs
    · intro j t e
      simp only [taskReset, Option.some.injEq, Prod.mk.injEq] at e
      obtain ⟨rfl, rfl⟩ := e
      simp_all [taskReset]
    all_goals simp_all [taskReset]
  | taskFail k a =>
    obtain ⟨hr, -, h, -⟩ := h3 k _ a
    obtain ⟨p1, p2, p3⟩ := h (by simp)
    refine ⟨h0, h1, by simp [hr], ?_, ?_, ?_, ?_⟩
    · intro j t e
      simp only [Option.some.injEq, Prod.mk.injEq] at e
      obtain ⟨rfl, rfl⟩ := e
      simp_all
    all_goals simp_all
  | orphan k a => rw [h0] at a; cases a

theorem taskInv {u ok d s} (h : ∀ k ∈ d.begun, k ∈ d.stored ∨ d.pending = some k)
    (r : Reach u ok d s) : TaskInv s := by
  induction r with
  | init => exact taskInv_fresh h
  | step _ st ih => exact taskInv_step ih st
  | crash _ _ ih => exact taskInv_fresh ih.kept

/-- **Whatever crashes happen, wherever: a persistent state which was begun is completely stored or
is the one remembered as pending.** -/
theorem begun_stored_or_pending {u : Nat → Nat} {ok : St → Prop} {c : Nat} {s : St}
    (r : Reach u ok (diskAt c) s) {k : Nat} (h : k ∈ s.disk.begun) :
    k ∈ s.disk.stored ∨ s.disk.pending = some k :=
  (taskInv (by simp [diskAt]) r).kept k h

/-- **There is never a running task nobody waits for: at most one persistent state is being made at
any moment, and it is the pending one.** -/
theorem one_at_a_time {u : Nat → Nat} {ok : St → Prop} {c : Nat} {s : St}
    (r : Reach u ok (diskAt c) s) :
    s.orphans = [] ∧
    ∀ k t, s.slot = some (k, t) → t = .run ∨ t = .stored → s.disk.pending = some k := by
  have i := taskInv (by simp [diskAt]) r
  refine ⟨i.orphans, fun k t e ht => ?_⟩
  exact ((i.slot k t e).2.2.1 (by rcases ht with rfl | rfl <;> simp)).1

/-- **After a restart the pending persistent state is made again before anything else happens.** -/
theorem resumed_after_restart {u : Nat → Nat} {d : Disk} {k : Nat} (h : d.pending = some k) {s : St}
    (st : Step u (fresh u d) s) : s.slot = some (k, .run) ∧ s.disk.pending = some k := by
  cases st with
  | resume _ _ => simp [resume, fresh, h, beginStore]
  | save a _ => simp [fresh] at a
  | swap a _ => simp [fresh] at a
  | join a _ => simp [fresh] at a
  | start a => simp [fresh] at a
  | spawn a => simp [fresh] at a
  | commit a => simp [fresh] at a
  | taskStore _ a => simp [fresh] at a
  | taskReset _ a => simp [fresh] at a
  | taskFail _ a => simp [fresh] at a
  | orphan _ a => simp [fresh] at a

/-! ## Which states are made, across crashes -/

structure SoundInv (u : Nat → Nat) (c : Nat) (s : St) : Prop where
  ge : c ≤ s.disk.committed
  saved : s.disk.saved = s.disk.committed ∨ s.disk.saved = s.disk.committed + 1
  savedIn : s.phase ≠ .idle → s.disk.saved = s.disk.committed + 1
  early : (s.phase = .idle ∨ s.phase = .saved) →
    s.last = (if s.disk.committed = 0 then 0 else u (s.disk.committed - 1)) ∨
    (s.last = u s.disk.committed ∧ s.disk.saved = s.disk.committed + 1)
  idleLast : s.phase = .idle → s.disk.saved = s.disk.committed + 1 → s.last = u s.disk.committed
  late : s.phase ≠ .idle → s.phase ≠ .saved → s.last = u s.disk.committed
  mid : (s.phase = .waiting ∨ s.phase = .joined) → Wanted u s.disk.committed
  begun : ∀ k ∈ s.disk.begun, Wanted u k ∧ c ≤ k ∧ k < s.disk.saved
  pend : ∀ k, s.disk.pending = some k → k ∈ s.disk.begun
  slot : ∀ k t, s.slot = some (k, t) → k ∈ s.disk.begun
  stored : ∀ k ∈ s.disk.stored, k ∈ s.disk.begun

theorem soundInv_fresh {u c s} (h : SoundInv u c s) : SoundInv u c (fresh u s.disk) := by
  obtain ⟨h1, h2, h3, h4, h5, h6, h7, h8, h9, h10, h11⟩ := h
  refine ⟨h1, h2, by simp [fresh], ?_, ?_, by simp [fresh], by simp [fresh], h8, h9, by simp [fresh], h11⟩
  · intro _
    simp only [fresh, lastSeen]
    rcases h2 with e | e
    · left; rw [e]; rfl
    · right; rw [e]; simp
  · intro _ e
    simp only [fresh, lastSeen] at e ⊢
    rw [e]; simp

theorem soundInv_init {u c} : SoundInv u c (fresh u (diskAt c)) := by
  refine ⟨Nat.le_refl _, .inl rfl, by simp [fresh], ?_, ?_, by simp [fresh], by simp [fresh], ?_, ?_, ?_, ?_⟩
  · intro _; left; rfl
  · intro _ e; simp only [fresh, diskAt] at e; omega
  all_goals simp [fresh, diskAt]

theorem soundInv_step {u c s t} (ht : TaskInv s) (h : SoundInv u c s) (st : Step u s t) :
    SoundInv u c t := by
  obtain ⟨h1, h2, h3, h4, h5, h6, h7, h8, h9, h10, h11⟩ := h
  cases st with
  | resume a b =>
    unfold resume
    split
    · rename_i e
      exact ⟨h1, h2, h3, h4, h5, h6, h7, h8, h9, h10, h11⟩
    · rename_i k e
      have hk := h9 k e
      refine ⟨h1, h2, h3, h4, h5, h6, h7, ?_, ?_, ?_, ?_⟩
      · intro j hj
        simp only [beginStore, List.mem_cons] at hj
        rcases hj with rfl | hj
        · exact h8 _ hk
        · exact h8 _ hj
      · intro j hj
        simp only [beginStore, Option.some.injEq] at hj ⊢
        subst hj; simp
      · intro j t hj
        simp only [Option.some.injEq, Prod.mk.injEq] at hj
        obtain ⟨rfl, rfl⟩ := hj
        simp [beginStore]
      · intro j hj
        simp only [beginStore, List.mem_cons]
        exact .inr (h11 j hj)
  | save a b =>
    have hs : max s.disk.saved (s.disk.committed + 1) = s.disk.committed + 1 := by omega
    refine ⟨h1, .inr hs, fun _ => hs, ?_, ?_, ?_, ?_, ?_, h9, h10, h11⟩
    · intro _
      rcases h4 (.inl b) with x | ⟨x, y⟩
      · exact .inl x
      · exact .inr ⟨x, hs⟩
    · intro x; simp [save] at x
    · intro _ x; exact absurd rfl x
    · intro x; simp [save] at x
    · intro k hk
      obtain ⟨p, q, r⟩ := h8 k hk
      refine ⟨p, q, ?_⟩
      simp only [save]; omega
  | swap a b =>
    have hsv := h3 (by simp [a])
    have slotOk : ∀ k t, (match s.slot with | some (_, .ok) => none | t => t) = some (k, t) →
        k ∈ s.disk.begun := by
      intro k t e
      split at e
      · cases e
      · exact h10 k t e
    unfold swap
    dsimp only
    split
    · rename_i hp
      have hw : Wanted u s.disk.committed := by
        have hp' := (isP_iff _ _).mp hp
        rcases h4 (.inr a) with x | ⟨x, _⟩
        · rw [x] at hp'; exact hp'
        · rw [x] at hp'; exact absurd rfl hp'
      exact ⟨h1, .inr hsv, fun _ => hsv, fun x => by simp at x, fun x => by simp at x,
        fun _ _ => rfl, fun _ => hw, h8, h9, slotOk, h11⟩
    · exact ⟨h1, .inr hsv, fun _ => hsv, fun x => by simp at x, fun x => by simp at x,
        fun _ _ => rfl, fun x => by simp at x, h8, h9, slotOk, h11⟩
  | join a b =>
    have hsv := h3 (by simp [a])
    have hl := h6 (by simp [a]) (by simp [a])
    have hw := h7 (.inl a)
    exact ⟨h1, h2, fun _ => hsv, fun x => by simp [join] at x, fun x => by simp [join] at x,
        fun _ _ => hl, fun _ => hw, h8, h9, fun _ _ e => by simp [join] at e, h11⟩
  | start a =>
    have hsv := h3 (by simp [a])
    have hl := h6 (by simp [a]) (by simp [a])
    have hw := h7 (.inr a)
    refine ⟨h1, h2, fun _ => hsv, fun x => by simp [start] at x, fun x => by simp [start] at x,
        fun _ _ => hl, fun x => by simp [start] at x, ?_, ?_, ?_, ?_⟩
    · intro j hj
      simp only [start, beginStore, List.mem_cons] at hj ⊢
      rcases hj with rfl | hj
      · exact ⟨hw, h1, by omega⟩
      · exact h8 _ hj
    · intro j hj
      simp only [start, beginStore, Option.some.injEq] at hj ⊢
      subst hj; simp
    · intro j t hj
      simp only [start, beginStore, List.mem_cons]
      exact .inr (h10 j t hj)
    · intro j hj
      simp only [start, beginStore, List.mem_cons]
      exact .inr (h11 j hj)
  | spawn a =>
    have hsv := h3 (by simp [a])
    have hl := h6 (by simp [a]) (by simp [a])
    have hp := ht.begunPend a
    refine ⟨h1, h2, fun _ => hsv, fun x => by simp [spawn] at x, fun x => by simp [spawn] at x,
        fun _ _ => hl, fun x => by simp [spawn] at x, h8, h9, ?_, h11⟩
    intro j t hj
    simp only [spawn, Option.some.injEq, Prod.mk.injEq] at hj
    obtain ⟨rfl, rfl⟩ := hj
    exact h9 _ hp
  | commit a =>
    have hsv := h3 (by simp [a])
    have hl := h6 (by simp [a]) (by simp [a])
    refine ⟨by simp only [commit]; omega, .inl hsv, fun x => by simp [commit] at x, ?_, ?_,
      fun x => by simp [commit] at x, fun x => by simp [commit] at x, h8, h9, h10, h11⟩
    · intro _
      left
      simp [commit, hl]
    · intro _ e
      simp only [commit] at e; omega
  | taskStore k a =>
    have hk := h10 k _ a
    refine ⟨h1, h2, h3, h4, h5, h6, h7, h8, h9, ?_, ?_⟩
    · intro j t hj
      simp only [taskStore, Option.some.injEq, Prod.mk.injEq] at hj
      obtain ⟨rfl, rfl⟩ := hj
      exact hk
    · intro j hj
      simp only [taskStore, List.mem_cons] at hj
      rcases hj with rfl | hj
      · exact hk
      · exact h11 j hj
  | taskReset k a =>
    have hk := h10 k _ a
    refine ⟨h1, h2, h3, h4, h5, h6, h7, h8, by simp [taskReset], ?_, h11⟩
    intro j t hj
    simp only [taskReset, Option.some.injEq, Prod.mk.injEq] at hj
    obtain ⟨rfl, rfl⟩ := hj
    exact hk
  | taskFail k a =>
    have hk := h10 k _ a
    refine ⟨h1, h2, h3, h4, h5, h6, h7, h8, h9, ?_, h11⟩
    intro j t hj
    simp only [Option.some.injEq, Prod.mk.injEq] at hj
    obtain ⟨rfl, rfl⟩ := hj
    exact hk
  | orphan k a => rw [ht.orphans] at a; cases a

theorem soundInv {u ok c s} (r : Reach u ok (diskAt c) s) : SoundInv u c s := by
  induction r with
  | init => exact soundInv_init
  | step r st ih => exact soundInv_step (taskInv (by simp [diskAt]) r) ih st
  | crash r _ ih => exact soundInv_fresh ih

/-- **Whatever crashes happen, a persistent state is only made of a key block which has to have
one.** -/
theorem stored_wanted {u : Nat → Nat} {ok : St → Prop} {c : Nat} {s : St}
    (r : Reach u ok (diskAt c) s) {k : Nat} (h : k ∈ s.disk.stored ∨ k ∈ s.disk.begun) :
    Wanted u k ∧ c ≤ k := by
  have i := soundInv r
  have hk : k ∈ s.disk.begun := by
    rcases h with h | h
    · exact i.stored k h
    · exact h
  exact ⟨(i.begun k hk).1, (i.begun k hk).2.1⟩

structure FullInv (u : Nat → Nat) (c : Nat) (s : St) : Prop where
  past : ∀ k, c ≤ k → k < s.disk.committed → Wanted u k → k ∈ s.disk.begun
  again : (s.phase = .idle ∨ s.phase = .saved) → s.last = u s.disk.committed →
    s.disk.saved = s.disk.committed + 1 → Wanted u s.disk.committed →
    s.disk.committed ∈ s.disk.begun
  after : s.phase = .begun ∨ s.phase = .done → Wanted u s.disk.committed →
    s.disk.committed ∈ s.disk.begun

theorem wanted_last {u : Nat → Nat} {k : Nat} (h : Wanted u k) {l : Nat}
    (e : l / 131072 = u k / 131072) : l ≠ (if k = 0 then 0 else u (k - 1)) := by
  rintro rfl; exact h e.symm

theorem fullInv {u c s} (r : Reach u (Harmless u) (diskAt c) s) : FullInv u c s := by
  induction r with
  | init =>
    refine ⟨?_, ?_, by simp [fresh]⟩
    · intro k a b; simp only [fresh, diskAt] at b; omega
    · intro _ _ x; simp only [fresh, diskAt] at x; omega
  | @crash s r ok ih =>
    obtain ⟨f1, f2, f3⟩ := ih
    have i := soundInv r
    refine ⟨f1, ?_, by simp [fresh]⟩
    intro _ _ e hw
    simp only [fresh] at e hw ⊢
    cases ph : s.phase with
    | idle => exact f2 (.inl ph) (i.idleLast ph e) e hw
    | saved => exact ok (.inl ph) hw
    | waiting => exact ok (.inr (.inl ph)) hw
    | joined => exact ok (.inr (.inr ph)) hw
    | begun => exact f3 (.inl ph) hw
    | done => exact f3 (.inr ph) hw
  | @step s t r st ih =>
    obtain ⟨f1, f2, f3⟩ := ih
    have i := soundInv r
    have ht := taskInv (by simp [diskAt]) r
    cases st with
    | resume a b =>
      unfold resume
      split
      · exact ⟨f1, f2, f3⟩
      · refine ⟨fun k x y z => ?_, fun x y z w => ?_, fun x y => ?_⟩ <;>
          simp only [beginStore, List.mem_cons] <;> right
        · exact f1 k x y z
        · exact f2 x y z w
        · exact f3 x y
    | save a b =>
      refine ⟨f1, ?_, by simp [save]⟩
      intro _ e _ hw
      rcases i.saved with x | x
      · exfalso
        -- the block is new: the last time seen is the one before it
        simp only [save] at e hw
        rcases i.early (.inl b) with y | ⟨_, y⟩
        · exact hw (by rw [← e, y])
        · omega
      · exact f2 (.inl b) e x hw
    | swap a b =>
      have hsv := i.savedIn (by simp [a])
      unfold swap
      dsimp only
      split
      · exact ⟨f1, by simp, by simp⟩
      · rename_i hp
        refine ⟨f1, by simp, ?_⟩
        intro _ hw
        have hp' := mt (isP_iff _ _).mpr hp
        rcases i.early (.inr a) with y | ⟨y, _⟩
        · rw [y] at hp'; exact absurd hw hp'
        · exact f2 (.inr a) y hsv hw
    | join a b => exact ⟨f1, by simp [join], by simp [join]⟩
    | start a =>
      refine ⟨fun k x y z => ?_, by simp [start], fun _ _ => ?_⟩
      · simp only [start, beginStore, List.mem_cons]; exact .inr (f1 k x y z)
      · simp [start, beginStore]
    | spawn a => exact ⟨f1, by simp [spawn], fun _ y => f3 (.inl a) y⟩
    | commit a =>
      have hsv := i.savedIn (by simp [a])
      refine ⟨?_, ?_, by simp [commit]⟩
      · intro k x y z
        simp only [commit] at y ⊢
        by_cases hk : k = s.disk.committed
        · subst hk; exact f3 (.inr a) z
        · exact f1 k x (by omega) z
      · intro _ _ e; simp only [commit] at e; omega
    | taskStore k a => exact ⟨f1, f2, f3⟩
    | taskReset k a => exact ⟨f1, f2, f3⟩
    | taskFail k a => exact ⟨f1, f2, f3⟩
    | orphan k a => rw [ht.orphans] at a; cases a

/-- **If no crash falls between saving a key block which has to have a persistent state and
remembering it as pending, then of the key blocks processed exactly those which have to have a
persistent state got one, but for the one still pending.** -/
theorem made_iff {u : Nat → Nat} {c : Nat} {s : St} (r : Reach u (Harmless u) (diskAt c) s) {k : Nat}
    (h1 : c ≤ k) (h2 : k < s.disk.committed) :
    (k ∈ s.disk.stored ∨ s.disk.pending = some k) ↔ Wanted u k := by
  constructor
  · rintro (h | h)
    · exact (stored_wanted r (.inl h)).1
    · exact (stored_wanted r (.inr ((soundInv r).pend k h))).1
  · intro h
    exact begun_stored_or_pending r ((fullInv r).past k h1 h2 h)

/-! ## Making never gets stuck -/

theorem run_trans {u s t v} (a : Run u s t) (b : Run u t v) : Run u s v := by
  induction b with
  | refl => exact a
  | step _ st ih => exact .step ih st

/-- A task that runs can end. -/
theorem finish_slot {u s k t} (ht : TaskInv s) (e : s.slot = some (k, t)) (hb : t ≠ .bad) :
    ∃ v, Run u s v ∧ v.disk.pending = (if t = .ok then s.disk.pending else none) ∧
      v.slot = some (k, .ok) ∧
      v.disk.begun = s.disk.begun ∧ v.phase = s.phase ∧ v.disk.committed = s.disk.committed ∧
      v.resumed = s.resumed := by
  cases t with
  | bad => exact absurd rfl hb
  | ok => exact ⟨s, .refl _, by simp, e, rfl, rfl, rfl, rfl⟩
  | stored =>
    refine ⟨taskReset s k, .step (.refl _) (.taskReset s k e), ?_, rfl, rfl, rfl, rfl, rfl⟩
    simp [taskReset]
  | run =>
    refine ⟨taskReset (taskStore s k) k,
      .step (.step (.refl _) (.taskStore s k e)) (.taskReset _ k rfl), ?_, rfl, rfl, rfl, rfl, rfl⟩
    simp [taskReset, taskStore]

theorem reach_run {u ok d s t} (r : Reach u ok d s) (h : Run u s t) : Reach u ok d t := by
  induction h with
  | refl => exact r
  | step _ st ih => exact .step ih st

theorem settle {u s} (ht : TaskInv s) (hr : s.resumed = true) (hb : ∀ k, s.slot ≠ some (k, .bad))
    (hph : s.phase ≠ .begun) :
    ∃ v, Run u s v ∧ joinable v.slot ∧ v.disk.pending = none ∧ v.phase = s.phase ∧
      v.disk.committed = s.disk.committed ∧ v.disk.begun = s.disk.begun ∧ v.resumed = true := by
  cases e : s.slot with
  | none =>
    refine ⟨s, .refl _, by rw [e]; trivial, ?_, rfl, rfl, rfl, hr⟩
    simpa [hph] using ht.empty e hr
  | some p =>
    obtain ⟨k, t⟩ := p
    obtain ⟨v, a, b, c, d, f, g, h⟩ := finish_slot (u := u) ht e (by rintro rfl; exact hb k e)
    refine ⟨v, a, by rw [c]; rfl, ?_, f, g, d, h.trans hr⟩
    rw [b]
    split
    · rename_i hok
      simpa [hph] using (ht.slot k t e).2.1 hok
    · rfl

theorem taskInv_run {u s t} (ht : TaskInv s) (h : Run u s t) : TaskInv t := by
  induction h with
  | refl => exact ht
  | step _ st ih => exact taskInv_step ih st

/-- **Every persistent state that was ever begun can be completed: from every reachable state
without a failed task there is a crash-free continuation, committing no further block than the
current one, after which all the states begun are completely stored and none is pending.** -/
theorem all_can_complete {u : Nat → Nat} {ok : St → Prop} {c : Nat} {s : St}
    (r : Reach u ok (diskAt c) s) (hb : ∀ k, s.slot ≠ some (k, .bad)) :
    ∃ v, Run u s v ∧ v.disk.pending = none ∧ (∀ k ∈ s.disk.begun, k ∈ v.disk.stored) ∧
      (∀ k ∈ v.disk.begun, k ∈ v.disk.stored) := by
  have ht := taskInv (by simp [diskAt]) r
  -- it is enough to reach a state with nothing pending, the rest follows
  suffices h : ∃ v, Run u s v ∧ v.disk.pending = none ∧ (∀ k ∈ s.disk.begun, k ∈ v.disk.begun) by
    obtain ⟨v, a, b, d⟩ := h
    have hv : ∀ k ∈ v.disk.begun, k ∈ v.disk.stored := by
      intro k hk
      rcases begun_stored_or_pending (reach_run r a) hk with x | x
      · exact x
      · rw [b] at x; cases x
    exact ⟨v, a, b, fun k hk => hv k (d k hk), hv⟩
  -- a state of a resumed process, not between `begin` and `spawn`
  have main : ∀ w, TaskInv w → w.resumed = true → (∀ k, w.slot ≠ some (k, .bad)) → w.phase ≠ .begun →
      ∃ v, Run u w v ∧ v.disk.pending = none ∧ (∀ k ∈ w.disk.begun, k ∈ v.disk.begun) := by
    intro w h1 h2 h3 h4
    obtain ⟨v, a, _, b, _, _, d, _⟩ := settle (u := u) h1 h2 h3 h4
    exact ⟨v, a, b, by rw [d]; exact fun _ x => x⟩
  by_cases hr : s.resumed = true
  · by_cases hph : s.phase = .begun
    · have hstep : Step u s (spawn s) := .spawn s hph
      obtain ⟨v, a, b, d⟩ := main (spawn s) (taskInv_step ht hstep) hr
        (by intro k; simp [spawn]) (by simp [spawn])
      exact ⟨v, run_trans (.step (.refl _) hstep) a, b, d⟩
    · exact main s ht hr hb hph
  · have hr' : s.resumed = false := by simpa using hr
    obtain ⟨hs, hp⟩ := ht.unresumed hr'
    have hstep : Step u s (resume s) := .resume s hr' hs
    have f := resume_fields s
    obtain ⟨v, a, b, d⟩ := main (resume s) (taskInv_step ht hstep)
      (by unfold resume; split <;> rfl)
      (by intro k; unfold resume; split <;> simp [hs])
      (by rw [f.2.2.2.1, hp]; simp)
    refine ⟨v, run_trans (.step (.refl _) hstep) a, b, fun k hk => d k ?_⟩
    unfold resume; split
    · exact hk
    · simp only [beginStore, List.mem_cons]; exact .inr hk

end Tycho.PersistentSave
