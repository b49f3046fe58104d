import Verif.Reclaim.Model

/-! C183. -/
namespace Tycho.Reclaim

/-- How often a value is anywhere. -/
def S.count (s : S) (x : Nat) : Nat :=
  s.entering.count x + s.fullWait.count x + s.reserved.count x + s.queue.count x + s.hold.count x + s.after.count x +
    s.dropping.count x + s.dropped.count x

structure Inv (cap workers : Nat) (s : S) : Prop where
  count : ∀ x, s.called.count x = s.count x
  len : s.len = s.reserved.length + s.queue.length + s.hold.length
  capped : s.len ≤ cap
  total : s.idle + s.seen + s.asleep + s.hold.length + s.after.length + s.dropping.length = workers
  asleep : s.asleep = workers ∧ 0 < workers → s.len ≤ s.reserved.length + s.pushed
  full : s.fullWait ≠ [] → cap ≤ s.len + s.entering.length + s.after.length

theorem count_erase {l : List Nat} {x : Nat} (h : x ∈ l) (a : Nat) :
    l.count a = (l.erase x).count a + if x = a then 1 else 0 := by
  rw [(List.perm_cons_erase h).count_eq a, List.count_cons]
  simp only [beq_iff_eq]

theorem length_erase {l : List Nat} {x : Nat} (h : x ∈ l) : l.length = (l.erase x).length + 1 := by
  rw [(List.perm_cons_erase h).length_eq, List.length_cons]

theorem inv_step {cap workers : Nat} {s t : S} (h : Inv cap workers s) {e : Ev} (hst : s.step cap e = some t) :
    Inv cap workers t := by
  obtain ⟨h1, h2, h3, h4, h5, h6⟩ := h
  cases e with
  | call x =>
    simp only [S.step, Option.some.injEq] at hst; subst hst
    refine ⟨fun a => ?_, h2, h3, h4, h5, fun hf => ?_⟩ <;> dsimp only
    · have := h1 a
      simp only [S.count, List.count_cons] at *; omega
    · have := h6 hf; simp only [List.length_cons]; omega
  | check x =>
    simp only [S.step] at hst
    split at hst
    · rename_i hx
      have he := count_erase hx
      have hl := length_erase hx
      split at hst
      · rename_i hc
        simp only [Option.some.injEq] at hst; subst hst
        refine ⟨fun a => ?_, h2, h3, h4, h5, fun _ => ?_⟩ <;> dsimp only
        · have := h1 a; have := he a
          simp only [S.count, List.count_cons, beq_iff_eq] at *; omega
        · omega
      · rename_i hc
        simp only [Option.some.injEq] at hst; subst hst
        refine ⟨fun a => ?_, ?_, ?_, h4, fun ha => ?_, fun hf => ?_⟩ <;> dsimp only at *
        · have := h1 a; have := he a
          simp only [S.count, List.count_cons, beq_iff_eq] at *; omega
        · simp only [List.length_cons]; omega
        · omega
        · have := h5 ha; simp only [List.length_cons]; omega
        · have := h6 hf; omega
    · simp at hst
  | push x =>
    simp only [S.step] at hst
    split at hst
    · rename_i hx
      have he := count_erase hx
      have hl := length_erase hx
      simp only [Option.some.injEq] at hst; subst hst
      refine ⟨fun a => ?_, ?_, h3, h4, fun ha => ?_, h6⟩ <;> dsimp only at *
      · have := h1 a; have := he a
        simp only [S.count, List.count_append, List.count_cons, List.count_nil, beq_iff_eq] at *; omega
      · simp only [List.length_append, List.length_cons, List.length_nil]; omega
      · have := h5 ha; omega
    · simp at hst
  | notifyE =>
    simp only [S.step] at hst
    split at hst
    · split at hst
      · simp only [Option.some.injEq] at hst; subst hst
        exact ⟨h1, h2, h3, by dsimp only; omega, fun ha => by dsimp only at ha; omega, h6⟩
      · simp only [Option.some.injEq] at hst; subst hst
        refine ⟨h1, h2, h3, h4, fun ha => ?_, h6⟩
        dsimp only at ha ⊢
        have := h5 ha; omega
    · simp at hst
  | steal =>
    simp only [S.step] at hst
    split at hst
    · split at hst
      · rename_i x xs hq
        simp only [Option.some.injEq] at hst; subst hst
        refine ⟨fun a => ?_, ?_, h3, ?_, fun ha => ?_, h6⟩ <;> dsimp only at *
        · have := h1 a
          simp only [S.count, hq, List.count_cons] at *; omega
        · rw [hq] at h2; simp only [List.length_cons] at *; omega
        · simp only [List.length_cons]; omega
        · omega
      · simp only [Option.some.injEq] at hst; subst hst
        refine ⟨h1, h2, h3, by dsimp only; omega, fun ha => ?_, h6⟩
        dsimp only at *; omega
    · simp at hst
  | look =>
    simp only [S.step] at hst
    split at hst
    · split at hst
      · rename_i hl
        simp only [Option.some.injEq] at hst; subst hst
        exact ⟨h1, h2, h3, by dsimp only; omega, fun _ => by dsimp only; omega, h6⟩
      · simp only [Option.some.injEq] at hst; subst hst
        exact ⟨h1, h2, h3, by dsimp only; omega, fun ha => by dsimp only at ha; omega, h6⟩
    · simp at hst
  | uncount x =>
    simp only [S.step] at hst
    split at hst
    · rename_i hx
      have he := count_erase hx.1
      have hl := length_erase hx.1
      simp only [Option.some.injEq] at hst; subst hst
      refine ⟨fun a => ?_, ?_, ?_, ?_, fun ha => ?_, fun hf => ?_⟩ <;> dsimp only at *
      · have := h1 a; have := he a
        simp only [S.count, List.count_cons, beq_iff_eq] at *; omega
      · omega
      · omega
      · simp only [List.length_cons]; omega
      · omega
      · have := h6 hf; simp only [List.length_cons]; omega
    · simp at hst
  | notifyF x y =>
    simp only [S.step] at hst
    split at hst
    · rename_i hx
      have he := count_erase hx
      have hl := length_erase hx
      cases y with
      | none =>
        dsimp only at hst
        split at hst
        · rename_i hf
          simp only [Option.some.injEq] at hst; subst hst
          refine ⟨fun a => ?_, h2, h3, ?_, h5, fun h => absurd hf h⟩ <;> dsimp only at *
          · have := h1 a; have := he a
            simp only [S.count, List.count_cons, beq_iff_eq] at *; omega
          · simp only [List.length_cons]; omega
        · simp at hst
      | some y =>
        dsimp only at hst
        split at hst
        · rename_i hy
          have he2 := count_erase hy
          simp only [Option.some.injEq] at hst; subst hst
          refine ⟨fun a => ?_, h2, h3, ?_, h5, fun _ => ?_⟩ <;> dsimp only at *
          · have := h1 a; have := he a; have := he2 a
            simp only [S.count, List.count_cons, beq_iff_eq] at *; omega
          · simp only [List.length_cons]; omega
          · have := h6 (List.ne_nil_of_mem hy)
            simp only [List.length_cons]; omega
        · simp at hst
    · simp at hst
  | finish x =>
    simp only [S.step] at hst
    split at hst
    · rename_i hx
      have he := count_erase hx
      have hl := length_erase hx
      simp only [Option.some.injEq] at hst; subst hst
      refine ⟨fun a => ?_, h2, h3, ?_, fun ha => ?_, h6⟩ <;> dsimp only at *
      · have := h1 a; have := he a
        simp only [S.count, List.count_cons, beq_iff_eq] at *; omega
      · omega
      · omega
    · simp at hst
  | spuriousE =>
    simp only [S.step] at hst
    split at hst
    · simp only [Option.some.injEq] at hst; subst hst
      exact ⟨h1, h2, h3, by dsimp only; omega, fun ha => by dsimp only at ha; omega, h6⟩
    · simp at hst
  | spuriousF x =>
    simp only [S.step] at hst
    split at hst
    · rename_i hx
      have he := count_erase hx
      simp only [Option.some.injEq] at hst; subst hst
      refine ⟨fun a => ?_, h2, h3, h4, h5, fun _ => ?_⟩ <;> dsimp only at *
      · have := h1 a; have := he a
        simp only [S.count, List.count_cons, beq_iff_eq] at *; omega
      · have := h6 (List.ne_nil_of_mem hx)
        simp only [List.length_cons]; omega
    · simp at hst

theorem inv {cap workers : Nat} {s : S} (hr : Reach cap workers s) : Inv cap workers s := by
  induction hr with
  | start => exact ⟨by simp [S.count], rfl, Nat.zero_le _, by simp, by simp, by simp⟩
  | step _ hst ih => exact inv_step ih hst

/-- **C183**: no value is lost or dropped twice: each is as often with a thread that enqueues, in the queue, with a worker or dropped,
all together, as it was given to the reclaimer. -/
theorem kept {cap workers : Nat} {s : S} (hr : Reach cap workers s) :
    s.called.Perm (s.entering ++ s.fullWait ++ s.reserved ++ s.queue ++ s.hold ++ s.after ++ s.dropping ++ s.dropped) := by
  rw [List.perm_iff_count]
  intro x
  rw [(inv hr).count x]
  simp only [S.count, List.count_append]

/-- **C183**: no more values than the capacity are in the queue, with those counted before they are pushed and till they are
uncounted; and the assertion of a worker that takes one does not fail. -/
theorem bounded {cap workers : Nat} {s : S} (hr : Reach cap workers s) :
    s.reserved.length + s.queue.length + s.hold.length ≤ cap ∧ ∀ x ∈ s.hold, (s.step cap (.uncount x)).isSome = true := by
  have h := inv hr
  refine ⟨by have := h.capped; have := h.len; omega, fun x hx => ?_⟩
  have := List.length_pos_of_mem hx
  have := h.len
  simp only [S.step]
  rw [if_pos ⟨hx, by omega⟩]
  rfl

/-- Nobody can move: no thread can take a step but to enqueue a new value or to wake for no reason. -/
def Stuck (cap : Nat) (s : S) : Prop :=
  ∀ e, (s.step cap e).isSome = true → (∃ x, e = .call x) ∨ e = .spuriousE ∨ ∃ x, e = .spuriousF x

/-- **C183**: no thread waits in vain: once nobody can move, all values given have been dropped, no thread that enqueues waits and all
workers sleep. -/
theorem no_deadlock {cap workers : Nat} (hc : 0 < cap) (hw : 0 < workers) {s : S} (hr : Reach cap workers s) (hs : Stuck cap s) :
    s.called.Perm s.dropped ∧ s.fullWait = [] ∧ s.asleep = workers := by
  have h := inv hr
  have e1 : s.entering = [] := List.eq_nil_iff_forall_not_mem.mpr fun x hx => by
    have := hs (.check x) (by simp only [S.step, if_pos hx]; split <;> rfl)
    simp at this
  have e2 : s.reserved = [] := List.eq_nil_iff_forall_not_mem.mpr fun x hx => by
    have := hs (.push x) (by simp [S.step, hx])
    simp at this
  have e3 : s.pushed = 0 := by
    refine Classical.byContradiction fun hx => ?_
    have := hs .notifyE (by simp only [S.step, if_pos (Nat.pos_of_ne_zero hx)]; split <;> rfl)
    simp at this
  have e4 : s.idle = 0 := by
    refine Classical.byContradiction fun hx => ?_
    have := hs .steal (by simp only [S.step, if_pos (Nat.pos_of_ne_zero hx)]; split <;> rfl)
    simp at this
  have e5 : s.seen = 0 := by
    refine Classical.byContradiction fun hx => ?_
    have := hs .look (by simp only [S.step, if_pos (Nat.pos_of_ne_zero hx)]; split <;> rfl)
    simp at this
  have e6 : s.hold = [] := List.eq_nil_iff_forall_not_mem.mpr fun x hx => by
    have := hs (.uncount x) ((bounded hr).2 x hx)
    simp at this
  have e7 : s.after = [] := List.eq_nil_iff_forall_not_mem.mpr fun x hx => by
    cases hf : s.fullWait with
    | nil =>
      have := hs (.notifyF x none) (by simp [S.step, hx, hf])
      simp at this
    | cons y ys =>
      have := hs (.notifyF x (some y)) (by simp [S.step, hx, hf])
      simp at this
  have e8 : s.dropping = [] := List.eq_nil_iff_forall_not_mem.mpr fun x hx => by
    have := hs (.finish x) (by simp [S.step, hx])
    simp at this
  have ha : s.asleep = workers := by
    have := h.total
    simp only [e4, e5, e6, e7, e8, List.length_nil] at this; omega
  have hl : s.len = 0 := by
    have := h.asleep ⟨ha, hw⟩
    simp only [e2, e3, List.length_nil] at this; omega
  have hq : s.queue = [] := List.eq_nil_of_length_eq_zero (by have := h.len; omega)
  have hf : s.fullWait = [] := Classical.byContradiction fun hx => by
    have := h.full hx
    simp only [e1, e7, hl, List.length_nil] at this; omega
  refine ⟨?_, hf, ha⟩
  have := kept hr
  simpa only [e1, e2, e6, e7, e8, hq, hf, List.nil_append] using this

/-! ## Concrete cases -/

def S.runs (cap : Nat) (s : S) : List Ev → Option S
  | [] => some s
  | e :: es => (s.step cap e).bind fun t => t.runs cap es

theorem reach_runs {cap workers : Nat} {s t : S} (hr : Reach cap workers s) (es : List Ev) (h : s.runs cap es = some t) :
    Reach cap workers t := by
  induction es generalizing s with
  | nil => simp only [S.runs, Option.some.injEq] at h; exact h ▸ hr
  | cons e es ih =>
    unfold S.runs at h
    cases hs : s.step cap e with
    | none => rw [hs] at h; simp at h
    | some u => rw [hs, Option.bind_some] at h; exact ih (.step hr hs) h

/-- Room for one and one worker: 8 waits till 7 is uncounted, is woken, and both are dropped. -/
def ex1 : List Ev :=
  [.steal, .look, .call 7, .call 8, .check 7, .check 8, .push 7, .notifyE, .look, .steal, .uncount 7, .notifyF 7 (some 8), .check 8,
    .push 8, .notifyE, .finish 7, .steal, .uncount 8, .notifyF 8 none, .finish 8, .steal, .look]

example : (S.runs 1 { idle := 1 } (ex1.take 6)).map (fun s => (s.fullWait, s.reserved, s.asleep)) = some ([8], [7], 1) := by decide
example : (S.runs 1 { idle := 1 } ex1).map (fun s => (s.dropped, s.asleep, s.len)) = some ([8, 7], 1, 0) := by decide

/-- A state in which nobody can move is reached, with values dropped. -/
example : ∃ s, Reach 1 1 s ∧ Stuck 1 s ∧ s.dropped = [8, 7] := by
  have h1 : (S.runs 1 { idle := 1 } ex1).map (fun s => decide (s.entering = [] ∧ s.reserved = [] ∧ s.pushed = 0 ∧ s.idle = 0 ∧
    s.seen = 0 ∧ s.hold = [] ∧ s.after = [] ∧ s.dropping = [] ∧ s.dropped = [8, 7])) = some true := by decide
  cases hs : S.runs 1 { idle := 1 } ex1 with
  | none => rw [hs] at h1; simp at h1
  | some s =>
    rw [hs] at h1
    simp only [Option.map_some, Option.some.injEq, decide_eq_true_eq] at h1
    obtain ⟨a1, a2, a3, a4, a5, a6, a7, a8, a9⟩ := h1
    refine ⟨s, reach_runs .start _ hs, fun e he => ?_, a9⟩
    cases e <;> simp_all [S.step]

/-- **A worker does not sleep while a thread that enqueues is between counting its value and pushing it**: it finds the queue empty and
`len` not zero again and again, till the push. -/
theorem worker_spins : ∃ s t, Reach 1 1 s ∧ s.reserved = [7] ∧ s.step 1 .steal = some t ∧ t.step 1 .look = some s := by
  refine ⟨{ len := 1, reserved := [7], idle := 1, called := [7] }, { len := 1, reserved := [7], idle := 0, seen := 1, called := [7] },
    ?_, rfl, rfl, rfl⟩
  exact reach_runs .start [.call 7, .check 7] rfl

end Tycho.Reclaim
