import Verif.CumulStats.Model
import Mathlib.Tactic.ByContra
import Mathlib.Data.List.Nodup

/-! Lemmas about `QueueStatistics` and `TrackedQueueStatistics`. -/
namespace Tycho.CumulStats
open Tycho.Table

/-- The count of an account, 0 if it is absent. -/
def QStats.val (q : QStats) (a : Nat) : Nat := match q.tx.bind (Table.get · a) with
  | some v => v
  | none => (Table.get q.base a).getD 0

/-- Tables with unique keys. -/
def QStats.Wf (q : QStats) : Prop := Uniq q.base ∧ ∀ t, q.tx = some t → Uniq t

theorem get_eq_val (q : QStats) (a : Nat) : q.get a = if q.val a > 0 then some (q.val a) else none := by
  unfold QStats.get QStats.val
  cases h : q.tx.bind (Table.get · a) with
  | some v => rfl
  | none =>
    simp only
    cases Table.get q.base a with
    | some v => rfl
    | none => rfl

theorem getD_get (q : QStats) (a : Nat) : (q.get a).getD 0 = q.val a := by
  rw [get_eq_val]
  split
  · rfl
  · simp only [Option.getD_none]; omega

theorem get_eq_none {κ ν : Type} [DecidableEq κ] {t : Table κ ν} {k : κ} (h : ∀ v, (k, v) ∉ t) : Table.get t k = none := by
  cases hg : Table.get t k with
  | none => rfl
  | some v => exact absurd (mem_of_get t k v hg) (h v)

theorem val_increment (q : QStats) (a n b : Nat) : (q.increment a n).val b = if b = a then q.val a + n else q.val b := by
  obtain ⟨base, tx⟩ := q
  cases tx with
  | some t =>
    unfold QStats.increment QStats.val
    simp only [Option.bind_some]
    cases hg : Table.get t a with
    | some cur =>
      simp only [Option.bind_some, get_put]
      by_cases hb : b = a
      · simp [hb]
      · simp [hb]
    | none =>
      simp only [Option.bind_some, get_put]
      by_cases hb : b = a
      · simp [hb]
      · simp [hb]
  | none =>
    unfold QStats.increment QStats.val
    simp only [Option.bind_none]
    cases hg : Table.get base a with
    | some cur =>
      simp only [Option.bind_none, get_put]
      by_cases hb : b = a
      · simp [hb]
      · simp [hb]
    | none =>
      simp only [Option.bind_none, get_put]
      by_cases hb : b = a
      · simp [hb]
      · simp [hb]

theorem wf_increment {q : QStats} (h : q.Wf) (a n : Nat) : (q.increment a n).Wf := by
  obtain ⟨base, tx⟩ := q
  obtain ⟨h1, h2⟩ := h
  simp only at h1 h2
  cases tx with
  | some t =>
    unfold QStats.increment
    simp only
    split <;> refine ⟨h1, fun t' ht' => ?_⟩ <;> simp only [Option.some.injEq] at ht' <;> subst ht' <;>
      exact uniq_put _ _ _ (h2 t rfl)
  | none =>
    unfold QStats.increment
    simp only
    split <;> exact ⟨uniq_put _ _ _ h1, by simp⟩

/-- Inside a transaction only the overlay changes. -/
def SameUndo (q q' : QStats) : Prop := q'.tx.isSome = q.tx.isSome ∧ (q.tx.isSome = true → q'.base = q.base)

theorem SameUndo.refl (q : QStats) : SameUndo q q := ⟨rfl, fun _ => rfl⟩

theorem SameUndo.trans {q1 q2 q3 : QStats} (h1 : SameUndo q1 q2) (h2 : SameUndo q2 q3) : SameUndo q1 q3 :=
  ⟨h2.1.trans h1.1, fun h => (h2.2 (by rw [h1.1]; exact h)).trans (h1.2 h)⟩

theorem undo_increment (q : QStats) (a n : Nat) : SameUndo q (q.increment a n) := by
  obtain ⟨base, tx⟩ := q
  cases tx with
  | some t => unfold QStats.increment SameUndo; simp only; split <;> simp
  | none => unfold QStats.increment SameUndo; simp only; split <;> simp

theorem decrement_spec {q : QStats} (hwf : q.Wf) {a n : Nat} (hn : 0 < n) (hv : n ≤ q.val a) :
    ∃ q', q.decrement a n = some q' ∧ (∀ b, q'.val b = if b = a then q.val a - n else q.val b) ∧ q'.Wf ∧ SameUndo q q' := by
  obtain ⟨base, tx⟩ := q
  obtain ⟨h1, h2⟩ := hwf
  simp only at h1 h2
  cases tx with
  | some t =>
    have hval : (QStats.mk base (some t)).val a = match Table.get t a with
        | some v => v
        | none => (Table.get base a).getD 0 := rfl
    rw [hval] at hv
    unfold QStats.decrement
    cases hg : Table.get t a with
    | some cur =>
      rw [hg] at hv
      simp only at hv
      simp only [hg]
      rw [if_neg (by omega)]
      refine ⟨_, rfl, ?_, ⟨h1, ?_⟩, rfl, fun _ => rfl⟩
      · intro b
        simp only [QStats.val, Option.bind_some, get_put, hg]
        by_cases hb : b = a <;> simp [hb]
      · intro t' ht'
        simp only [Option.some.injEq] at ht'
        subst ht'
        exact uniq_put _ _ _ (h2 t rfl)
    | none =>
      rw [hg] at hv
      simp only at hv
      simp only [hg]
      cases hb : Table.get base a with
      | none => rw [hb] at hv; simp at hv; omega
      | some cur =>
        rw [hb] at hv
        simp only [Option.getD_some] at hv
        simp only
        rw [if_neg (by omega)]
        refine ⟨_, rfl, ?_, ⟨h1, ?_⟩, rfl, fun _ => rfl⟩
        · intro b
          simp only [QStats.val, Option.bind_some, get_put, hg, hb]
          by_cases hb : b = a <;> simp [hb]
        · intro t' ht'
          simp only [Option.some.injEq] at ht'
          subst ht'
          exact uniq_put _ _ _ (h2 t rfl)
  | none =>
    have hval : (QStats.mk base none).val a = (Table.get base a).getD 0 := rfl
    rw [hval] at hv
    unfold QStats.decrement
    cases hb : Table.get base a with
    | none => rw [hb] at hv; simp at hv; omega
    | some cur =>
      rw [hb] at hv
      simp only [Option.getD_some] at hv
      simp only [hb]
      rw [if_neg (by omega)]
      split
      · rename_i hz
        refine ⟨_, rfl, ?_, ⟨uniq_del base (fun k => decide (k = a)) h1, by simp⟩, rfl, by simp⟩
        intro b
        simp only [QStats.val, Option.bind_none, get_del, hb]
        by_cases hb : b = a
        · simp [hb]; omega
        · simp [hb]
      · refine ⟨_, rfl, ?_, ⟨uniq_put _ _ _ h1, by simp⟩, rfl, by simp⟩
        intro b
        simp only [QStats.val, Option.bind_none, get_put, hb]
        by_cases hb : b = a <;> simp [hb]

/-- The count of an account in a table. -/
def countOf (l : Accounts) (a : Nat) : Nat := (Table.get l a).getD 0

theorem countOf_cons (x : Nat × Nat) (l : Accounts) (a : Nat) (h : Uniq (x :: l)) :
    countOf (x :: l) a = (if a = x.1 then x.2 else 0) + countOf l a := by
  unfold countOf
  unfold Uniq at h
  simp only [List.map_cons, List.nodup_cons] at h
  by_cases hx : a = x.1
  · have : Table.get l a = none := get_eq_none (fun v hv => h.1 (by
      rw [← hx]; exact List.mem_map_of_mem (f := (·.1)) hv))
    rw [this]
    simp [Table.get, hx]
  · have : ¬ x.1 = a := fun hh => hx hh.symm
    simp [Table.get, hx, this]

theorem uniq_cons {x : Nat × Nat} {l : Accounts} (h : Uniq (x :: l)) : Uniq l := by
  unfold Uniq at *
  simp only [List.map_cons, List.nodup_cons] at h
  exact h.2

theorem append_spec {l : Accounts} (hl : Uniq l) : ∀ {q : QStats}, q.Wf →
    (∀ b, (q.append l).val b = q.val b + countOf l b) ∧ (q.append l).Wf ∧ SameUndo q (q.append l) := by
  induction l with
  | nil => intro q hq; exact ⟨fun b => rfl, hq, SameUndo.refl q⟩
  | cons x l ih =>
    intro q hq
    obtain ⟨h1, h2, h3⟩ := ih (uniq_cons hl) (wf_increment hq x.1 x.2)
    have he : q.append (x :: l) = (q.increment x.1 x.2).append l := rfl
    rw [he]
    refine ⟨?_, h2, (undo_increment q x.1 x.2).trans h3⟩
    intro b
    rw [h1, val_increment, countOf_cons x l b hl]
    split
    · rename_i hb; subst hb; omega
    · omega

/-! ### commit -/

theorem get_commit (t : Accounts) (ht : Uniq t) : ∀ (base : Accounts) (a : Nat),
    (Table.get (t.foldl commitEntry base) a).getD 0 = match Table.get t a with
      | some v => v
      | none => (Table.get base a).getD 0 := by
  induction t with
  | nil => intro base a; rfl
  | cons x t ih =>
    intro base a
    rw [List.foldl_cons, ih (uniq_cons ht)]
    unfold Uniq at ht
    simp only [List.map_cons, List.nodup_cons] at ht
    by_cases hx : x.1 = a
    · have : Table.get t a = none := get_eq_none (fun v hv => ht.1 (by
        rw [hx]; exact List.mem_map_of_mem (f := (·.1)) hv))
      rw [this]
      simp only [Table.get, hx, if_true]
      unfold commitEntry
      split
      · rename_i hz
        rw [get_del]
        simp [hx, hz]
      · rw [get_put]
        simp [hx]
    · have hg : Table.get (commitEntry base x) a = Table.get base a := by
        unfold commitEntry
        have hx' : ¬ a = x.1 := fun h => hx h.symm
        split
        · rw [get_del]; simp [hx']
        · rw [get_put]; simp [hx']
      rw [hg]
      simp only [Table.get, if_neg hx]

theorem uniq_commit (t : Accounts) : ∀ (base : Accounts), Uniq base → Uniq (t.foldl commitEntry base) := by
  induction t with
  | nil => intro base h; exact h
  | cons x t ih =>
    intro base h
    rw [List.foldl_cons]
    apply ih
    unfold commitEntry
    split
    · exact uniq_del _ _ h
    · exact uniq_put _ _ _ h

theorem commit_spec {q : QStats} (hwf : q.Wf) (hin : q.inTx = true) :
    ∃ q', q.commit = some q' ∧ (∀ a, q'.val a = q.val a) ∧ q'.Wf ∧ q'.tx = none := by
  obtain ⟨base, tx⟩ := q
  cases tx with
  | none => simp [QStats.inTx] at hin
  | some t =>
    refine ⟨_, rfl, ?_, ⟨uniq_commit _ _ hwf.1, by simp⟩, rfl⟩
    intro a
    simp only [QStats.val, Option.bind_none, Option.bind_some]
    exact get_commit t (hwf.2 t rfl) base a

/-! ### iteration -/

theorem mem_iter {q : QStats} (hwf : q.Wf) (a v : Nat) : (a, v) ∈ q.iter ↔ q.val a = v ∧ 0 < v := by
  obtain ⟨base, tx⟩ := q
  obtain ⟨h1, h2⟩ := hwf
  simp only at h1 h2
  cases tx with
  | none =>
    simp only [QStats.iter, QStats.val, Option.bind_none, List.mem_filter, mem_iff_get base h1, gt_iff_lt, decide_eq_true_eq]
    constructor
    · rintro ⟨h, h'⟩; exact ⟨by rw [h]; rfl, h'⟩
    · rintro ⟨h, h'⟩
      refine ⟨?_, h'⟩
      cases hg : Table.get base a with
      | none => rw [hg] at h; simp at h; omega
      | some w => rw [hg] at h; simp at h; rw [h]
  | some t =>
    have ht := h2 t rfl
    simp only [QStats.iter, QStats.val, Option.bind_some, List.mem_append, List.mem_filter, mem_iff_get base h1,
      mem_iff_get t ht, gt_iff_lt, decide_eq_true_eq, Bool.and_eq_true, Option.isNone_iff_eq_none]
    cases hg : Table.get t a with
    | some w => simp
    | none =>
      simp only [reduceCtorEq, false_and, true_and, false_or]
      constructor
      · rintro ⟨h, h'⟩; exact ⟨by rw [h]; rfl, h'⟩
      · rintro ⟨h, h'⟩
        refine ⟨?_, h'⟩
        cases hg : Table.get base a with
        | none => rw [hg] at h; simp at h; omega
        | some w => rw [hg] at h; simp at h; rw [h]

theorem uniq_filter {l : Accounts} (h : Uniq l) (p : Nat × Nat → Bool) : Uniq (l.filter p) := by
  unfold Uniq at *
  exact h.sublist (List.filter_sublist.map _)

theorem uniq_iter {q : QStats} (hwf : q.Wf) : Uniq q.iter := by
  obtain ⟨base, tx⟩ := q
  obtain ⟨h1, h2⟩ := hwf
  simp only at h1 h2
  cases tx with
  | none => exact uniq_filter h1 _
  | some t =>
    unfold Uniq QStats.iter
    simp only [List.map_append]
    rw [List.nodup_append]
    refine ⟨uniq_filter (h2 t rfl) _, uniq_filter h1 _, ?_⟩
    intro a ha b hb hab
    subst hab
    obtain ⟨x, hx, rfl⟩ := List.mem_map.mp ha
    obtain ⟨y, hy, hxy⟩ := List.mem_map.mp hb
    rw [List.mem_filter] at hx hy
    simp only [Bool.and_eq_true, Option.isNone_iff_eq_none] at hy
    have := get_some_of_mem t x.1 x.2 hx.1
    rw [← hxy, hy.2.1] at this
    simp at this

/-- The sum of counts of the accounts of the own shard. -/
def sumOwn (env : Env) (l : List (Nat × Nat)) : Nat := (l.map (fun e => if env.contains env.own e.1 then e.2 else 0)).sum

theorem sumOwn_split (env : Env) {l : List (Nat × Nat)} (hu : Uniq l) (a v : Nat) (hz : ∀ w, (a, w) ∈ l ↔ w = v ∧ 0 < v) :
    sumOwn env l = (if env.contains env.own a then v else 0) + sumOwn env (l.filter (fun e => decide (e.1 ≠ a))) := by
  by_cases hv : 0 < v
  · have hm : (a, v) ∈ l := (hz v).mpr ⟨rfl, hv⟩
    clear hz
    induction l with
    | nil => simp at hm
    | cons x l ih =>
      unfold Uniq at hu
      simp only [List.map_cons, List.nodup_cons] at hu
      rcases List.mem_cons.mp hm with rfl | hm
      · rw [List.filter_cons_of_neg (by simp), List.filter_eq_self.mpr]
        · simp [sumOwn]
        · intro y hy
          have : y.1 ≠ a := fun hya => hu.1 (by simp only [← hya]; exact List.mem_map_of_mem (f := (·.1)) hy)
          simpa using this
      · have hxa : x.1 ≠ a := fun hxa => hu.1 (by rw [hxa]; exact List.mem_map_of_mem (f := (·.1)) hm)
        rw [List.filter_cons_of_pos (by simpa using hxa)]
        have := ih hu.2 hm
        unfold sumOwn at this ⊢
        rw [List.map_cons, List.sum_cons, this, List.map_cons, List.sum_cons]
        omega
  · have hv : v = 0 := by omega
    subst hv
    rw [List.filter_eq_self.mpr]
    · simp
    · intro y hy
      have : y.1 ≠ a := fun hya => by
        have := (hz y.2).mp (by rw [← hya]; exact hy)
        omega
      simpa using this

theorem sumOwn_congr (env : Env) {l l' : List (Nat × Nat)} (h : Uniq l) (h' : Uniq l') (hm : ∀ e, e ∈ l ↔ e ∈ l') :
    sumOwn env l = sumOwn env l' := by
  have hp : l.Perm l' := (List.perm_ext_iff_of_nodup (List.Nodup.of_map _ h) (List.Nodup.of_map _ h')).mpr hm
  unfold sumOwn
  exact (hp.map _).sum_nat

theorem sumOwn_change (env : Env) {q q' : QStats} (hq : q.Wf) (hq' : q'.Wf) (a : Nat) (hne : ∀ b, b ≠ a → q'.val b = q.val b) :
    sumOwn env q'.iter + (if env.contains env.own a then q.val a else 0) =
      sumOwn env q.iter + (if env.contains env.own a then q'.val a else 0) := by
  have e1 := sumOwn_split env (uniq_iter hq) a (q.val a) (by intro w; rw [mem_iter hq]; omega)
  have e2 := sumOwn_split env (uniq_iter hq') a (q'.val a) (by intro w; rw [mem_iter hq']; omega)
  have e3 : sumOwn env (q'.iter.filter (fun e => decide (e.1 ≠ a))) = sumOwn env (q.iter.filter (fun e => decide (e.1 ≠ a))) := by
    apply sumOwn_congr
    · exact uniq_filter (uniq_iter hq') _
    · exact uniq_filter (uniq_iter hq) _
    · rintro ⟨b, v⟩
      simp only [List.mem_filter, mem_iter hq, mem_iter hq', decide_eq_true_eq]
      constructor
      · rintro ⟨h, hb⟩; rw [hne b hb] at h; exact ⟨h, hb⟩
      · rintro ⟨h, hb⟩; rw [← hne b hb] at h; exact ⟨h, hb⟩
  rw [e1, e2, e3]
  omega

theorem sumOwn_same (env : Env) {q q' : QStats} (hq : q.Wf) (hq' : q'.Wf) (h : ∀ b, q'.val b = q.val b) :
    sumOwn env q'.iter = sumOwn env q.iter := by
  apply sumOwn_congr env (uniq_iter hq') (uniq_iter hq)
  rintro ⟨b, v⟩
  rw [mem_iter hq, mem_iter hq', h b]

/-! ### tracked statistics -/

/-- Tracked statistics in a good state: the total is the sum over the view, the saved total the sum over the base. -/
structure Tracked.Ok (env : Env) (t : Tracked) : Prop where
  wf : t.q.Wf
  total : t.total = sumOwn env t.q.iter
  snap : t.q.tx.isSome = true → t.snapshot = sumOwn env (QStats.mk t.q.base none).iter

theorem tracked_new (env : Env) : Tracked.new.Ok env := by
  refine ⟨⟨by simp [Tracked.new, QStats.empty, Uniq], by simp [Tracked.new, QStats.empty]⟩, rfl, by simp [Tracked.new, QStats.empty]⟩

/-- What rollback needs is not changed. -/
def SameUndoT (t t' : Tracked) : Prop := SameUndo t.q t'.q ∧ t'.snapshot = t.snapshot

theorem snap_same {env : Env} {t t' : Tracked} (h : t.Ok env) (hu : SameUndoT t t') :
    t'.q.tx.isSome = true → t'.snapshot = sumOwn env (QStats.mk t'.q.base none).iter := by
  intro hs
  rw [hu.1.1] at hs
  rw [hu.2, hu.1.2 hs]
  exact h.snap hs

theorem tracked_decrement {env : Env} {t : Tracked} (h : t.Ok env) {a n : Nat} (hn : 0 < n) (hv : n ≤ t.q.val a) :
    ∃ t', t.decrement env a n = some t' ∧ (∀ b, t'.q.val b = if b = a then t.q.val a - n else t.q.val b) ∧ t'.Ok env ∧
      SameUndoT t t' := by
  obtain ⟨q', hq', hval, hwf, hu⟩ := decrement_spec h.wf hn hv
  have hsum := sumOwn_change env h.wf hwf a (fun b hb => by rw [hval, if_neg hb])
  have hva := hval a
  rw [if_pos rfl] at hva
  have ht := h.total
  unfold Tracked.decrement
  rw [hq']
  simp only
  cases hc : env.contains env.own a with
  | true =>
    rw [hc] at hsum
    simp only [if_true] at hsum ⊢
    have hle : sumOwn env t.q.iter ≥ t.q.val a := by
      have e1 := sumOwn_split env (uniq_iter h.wf) a (t.q.val a) (by intro w; rw [mem_iter h.wf]; omega)
      rw [hc] at e1
      simp only [if_true] at e1
      omega
    rw [if_neg (by omega)]
    refine ⟨_, rfl, hval, ⟨hwf, ?_, snap_same h ⟨hu, rfl⟩⟩, hu, rfl⟩
    simp only
    omega
  | false =>
    rw [hc] at hsum
    simp only [Bool.false_eq_true, if_false] at hsum ⊢
    refine ⟨_, rfl, hval, ⟨hwf, ?_, snap_same h ⟨hu, rfl⟩⟩, hu, rfl⟩
    simp only
    omega

theorem total_append (env : Env) {l : Accounts} (hl : Uniq l) : ∀ {q : QStats} (n : Nat), q.Wf → n = sumOwn env q.iter →
    l.foldl (fun n e => if env.contains env.own e.1 then n + e.2 else n) n = sumOwn env (q.append l).iter := by
  induction l with
  | nil => intro q n _ h; exact h
  | cons x l ih =>
    intro q n hq hn
    rw [List.foldl_cons]
    have hwf := wf_increment hq x.1 x.2
    have hsum := sumOwn_change env hq hwf x.1 (fun b hb => by rw [val_increment, if_neg hb])
    rw [val_increment, if_pos rfl] at hsum
    exact ih (uniq_cons hl) (q := q.increment x.1 x.2) _ hwf (by split at hsum <;> split <;> simp_all <;> omega)

theorem tracked_append {env : Env} {t : Tracked} (h : t.Ok env) {l : Accounts} (hl : Uniq l) :
    (∀ b, (t.append env l).q.val b = t.q.val b + countOf l b) ∧ (t.append env l).Ok env ∧ SameUndoT t (t.append env l) := by
  obtain ⟨h1, h2, h3⟩ := append_spec hl h.wf
  exact ⟨h1, ⟨h2, total_append env hl _ h.wf h.total, snap_same (t' := t.append env l) h ⟨h3, rfl⟩⟩, h3, rfl⟩

theorem tracked_commit {env : Env} {t : Tracked} (h : t.Ok env) (hin : t.q.inTx = true) :
    ∃ t', t.commit = some t' ∧ (∀ a, t'.q.val a = t.q.val a) ∧ t'.Ok env ∧ t'.q.tx = none := by
  obtain ⟨q', hq', hval, hwf, htx⟩ := commit_spec h.wf hin
  unfold Tracked.commit
  rw [hq']
  refine ⟨_, rfl, hval, ⟨hwf, ?_, by simp [htx]⟩, htx⟩
  rw [h.total]
  exact (sumOwn_same env h.wf hwf hval).symm

end Tycho.CumulStats
