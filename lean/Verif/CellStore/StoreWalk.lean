import Verif.CellStore.Base

namespace Tycho.CellStore
open Tycho.Table

/-! ### Pending tasks -/

/-- Tasks for a cell. -/
def pend (l : List Task) (h : Nat) : Nat := l.countP (fun t => t.hash == h)

theorem pend_append (a b : List Task) (h : Nat) : pend (a ++ b) h = pend a h + pend b h := List.countP_append

theorem pend_cons (t : Task) (l : List Task) (h : Nat) : pend (t :: l) h = pend l h + if t.hash = h then 1 else 0 := by
  unfold pend
  rw [List.countP_cons]
  by_cases hh : t.hash = h <;> simp [hh]

theorem pend_children (refs : List Nat) (d h : Nat) : pend (children refs d) h = refs.count h := by
  unfold pend children
  rw [List.countP_map, List.count]
  rfl

theorem pick_perm {l : List Task} {k : Nat} {t : Task} (h : l[k]? = some t) : l.Perm (t :: l.eraseIdx k) := by
  obtain ⟨hk, rfl⟩ := List.getElem?_eq_some_iff.1 h
  exact (List.getElem_cons_eraseIdx_perm hk).symm

theorem pend_perm {a b : List Task} (hp : a.Perm b) (h : Nat) : pend a h = pend b h := hp.countP_eq _

/-- What is left to do, as a bound on steps. -/
def work (w : World) (l : List Task) : Nat :=
  (l.map (fun t => if t.spawned then 2 * w.size t.hash else 2 * w.size t.hash + 1)).sum

theorem size_pos (w : World) (h : Nat) : 0 < w.size h := by have := w.size_spec h; omega

theorem work_nil (w : World) : work w [] = 0 := rfl

theorem work_append (w : World) (a b : List Task) : work w (a ++ b) = work w a + work w b := by
  simp [work]

theorem work_cons (w : World) (t : Task) (l : List Task) :
    work w (t :: l) = (if t.spawned then 2 * w.size t.hash else 2 * w.size t.hash + 1) + work w l := by
  simp [work]

theorem work_perm (w : World) {a b : List Task} (hp : a.Perm b) : work w a = work w b :=
  (hp.map _).sum_nat

theorem work_children (w : World) (h d : Nat) : work w (children (w.refs h) d) < 2 * w.size h := by
  have h1 := w.size_spec h
  have h2 : ∀ l : List Nat, work w (children l d) ≤ 2 * (l.map (fun c => w.size c + 1)).sum := by
    intro l
    induction l with
    | nil => simp [children, work]
    | cons x l ih =>
      have e : children (x :: l) d = ⟨x, d + 1, false⟩ :: children l d := rfl
      rw [e, work_cons, List.map_cons, List.sum_cons]
      simp only [Bool.false_eq_true, if_false]
      omega
  have := h2 (w.refs h)
  omega

theorem work_zero {w : World} {l : List Task} (h : work w l = 0) : l = [] := by
  cases l with
  | nil => rfl
  | cons t l =>
    rw [work_cons] at h
    have := size_pos w t.hash
    split at h <;> omega

/-! ### The walk of `store_cell_mt` -/

/-- References a transaction added. -/
def adds (t : StoreTx) (h : Nat) : Nat := match get t.tx h with
  | some a => a.additions
  | none => 0

/-- Delayed references. -/
def late (d : Table Nat Nat) (h : Nat) : Nat := (get d h).getD 0

theorem late_put (d : Table Nat Nat) (k v h : Nat) : late (put d k v) h = if h = k then v else late d h := by
  unfold late
  rw [get_put]
  split <;> rfl

/-- Is this entry a new cell? -/
def isNew (o : Option Added) : Bool := match o with
  | some a => a.data.isSome
  | none => false

/-- The new cells of a transaction. -/
def newSet (tx : Table Nat Added) : Finset Nat := (keys tx).filter (fun h => isNew (get tx h) = true)

theorem mem_newSet (tx : Table Nat Added) (h : Nat) : h ∈ newSet tx ↔ isNew (get tx h) = true := by
  unfold newSet
  rw [Finset.mem_filter, mem_keys]
  constructor
  · exact fun h => h.2
  · intro hn
    refine ⟨?_, hn⟩
    cases hg : get tx h with
    | none => rw [hg] at hn; cases hn
    | some a => rfl

/-- What an entry of the transaction says about its cell. -/
def EntryOk (w : World) (s : Store) (next : Nat) (h : Nat) (a : Added) : Prop :=
  1 ≤ a.additions ∧
  ((∃ i, rowIdx s h = some i ∧ a.idx = i ∧ a.oldRc = Counters.get s.counters i ∧ a.data = none) ∨
    (rowIdx s h = none ∧ s.counters.nextIdx ≤ a.idx ∧ a.idx < next ∧ a.oldRc = 0 ∧ a.data = some (w.refs h)))

structure SInv (w : World) (s : Store) (root : Nat) (t : StoreTx) : Prop where
  uTx : Uniq t.tx
  uDl : Uniq t.delayed
  ent : ∀ h a, get t.tx h = some a → EntryOk w s t.nextIdx h a
  le : s.counters.nextIdx ≤ t.nextIdx
  inj : ∀ h h' a a', get t.tx h = some a → get t.tx h' = some a' → a.data.isSome → a'.data.isSome →
    a.idx = a'.idx → h = h'
  eqn : ∀ h, adds t h + late t.delayed h + pend t.pending h = (if h = root then 1 else 0) + inDeg w (newSet t.tx) h
  spawned : ∀ h, (get t.delayed h).isSome → (get t.tx h).isSome ∨ ⟨h, 0, true⟩ ∈ t.pending

theorem SInv.start (w : World) (s : Store) (root : Nat) : SInv w s root (storeStart s root) := by
  refine ⟨uniq_nil, uniq_nil, ?_, Nat.le_refl _, ?_, ?_, ?_⟩
  · intro h a hg; cases hg
  · intro h h' a a' hg; cases hg
  · intro h
    simp only [storeStart, adds, get_nil, late, Option.getD_none, pend_cons, newSet, keys, List.map_nil,
      List.toFinset_nil, Finset.filter_empty, inDeg_empty, eq_comm (a := h)]
    simp [pend]
  · intro h hg; cases hg

theorem EntryOk.mono {w : World} {s : Store} {n n' h : Nat} {a : Added} (hn : n ≤ n') (he : EntryOk w s n h a) :
    EntryOk w s n' h a := by
  obtain ⟨h1, h2 | ⟨h2, h3, h4, h5⟩⟩ := he
  · exact ⟨h1, Or.inl h2⟩
  · exact ⟨h1, Or.inr ⟨h2, h3, by omega, h5⟩⟩

/-- A task is taken from the pool. -/
theorem SInv.delay {w : World} {s : Store} {root : Nat} {t : StoreTx} {task : Task} {rest : List Task}
    (I : SInv w s root t) (hp : t.pending.Perm (task :: rest)) (hs : task.spawned = false) :
    SInv w s root (delayAddition { t with pending := rest } task.hash) := by
  unfold delayAddition
  simp only
  cases hg : get t.delayed task.hash with
  | none =>
    refine ⟨I.uTx, uniq_put _ _ _ I.uDl, I.ent, I.le, I.inj, ?_, ?_⟩
    · intro h
      have := I.eqn h
      rw [pend_perm hp, pend_cons] at this
      simp only [late_put, pend_append, pend_cons]
      simp only [adds] at this ⊢
      have hl : late t.delayed task.hash = 0 := by simp [late, hg]
      rw [← this]
      by_cases hh : h = task.hash
      · subst hh; simp [hl, pend]
      · simp [hh, Ne.symm hh, pend]
    · intro h hh
      simp only [get_put] at hh
      by_cases he : h = task.hash
      · right; subst he; simp
      · rw [if_neg he] at hh
        rcases I.spawned h hh with h1 | h1
        · exact Or.inl h1
        · right
          have := hp.mem_iff.1 h1
          rcases List.mem_cons.1 this with h2 | h2
          · rw [← h2] at he; exact absurd rfl he
          · simp [h2]
  | some n =>
    refine ⟨I.uTx, uniq_put _ _ _ I.uDl, I.ent, I.le, I.inj, ?_, ?_⟩
    · intro h
      have := I.eqn h
      rw [pend_perm hp, pend_cons] at this
      simp only [late_put]
      simp only [adds] at this ⊢
      have hl : late t.delayed task.hash = n := by simp [late, hg]
      by_cases hh : h = task.hash
      · subst hh; simp only [if_true] at *; omega
      · simp only [hh, Ne.symm hh, if_false] at *; omega
    · intro h hh
      have h0 : (get t.delayed h).isSome := by
        simp only [get_put] at hh
        by_cases he : h = task.hash
        · rw [he, hg]; rfl
        · rwa [if_neg he] at hh
      rcases I.spawned h h0 with h1 | h1
      · exact Or.inl h1
      · right
        have := hp.mem_iff.1 h1
        rcases List.mem_cons.1 this with h2 | h2
        · rw [← h2] at hs; cases hs
        · exact h2

/-- An entry for the cell of a task is written. -/
theorem SInv.write {w : World} {s : Store} {root : Nat} {t : StoreTx} {task : Task} {rest : List Task}
    (I : SInv w s root t) (hp : t.pending.Perm (task :: rest)) (a : Added) (next : Nat) (more : List Task)
    (hn : t.nextIdx ≤ next) (ha : EntryOk w s next task.hash a)
    (hadd : a.additions = adds t task.hash + 1)
    (hinj : a.data.isSome → ∀ h' a', get t.tx h' = some a' → a'.data.isSome → a.idx = a'.idx → task.hash = h')
    (hset : ∀ h, inDeg w (newSet (put t.tx task.hash a)) h = inDeg w (newSet t.tx) h + pend more h) :
    SInv w s root { t with tx := put t.tx task.hash a, nextIdx := next, pending := rest ++ more } := by
  refine ⟨uniq_put _ _ _ I.uTx, I.uDl, ?_, Nat.le_trans I.le hn, ?_, ?_, ?_⟩
  · intro h b hb
    simp only [get_put] at hb
    split at hb
    · rename_i hh; subst hh
      obtain rfl := Option.some.inj hb
      exact ha
    · exact (I.ent h b hb).mono hn
  · intro h h' b b' hb hb' hd hd' hi
    simp only [get_put] at hb hb'
    split at hb
    · rename_i hh
      obtain rfl := Option.some.inj hb
      split at hb'
      · rename_i hh'; rw [hh, hh']
      · rw [hh]; exact hinj hd h' b' hb' hd' hi
    · split at hb'
      · rename_i hh'
        obtain rfl := Option.some.inj hb'
        rw [hh']; exact (hinj hd' h b hb hd hi.symm).symm
      · exact I.inj h h' b b' hb hb' hd hd' hi
  · intro h
    have := I.eqn h
    rw [pend_perm hp, pend_cons] at this
    simp only [hset, pend_append]
    have e : adds { t with tx := put t.tx task.hash a, nextIdx := next, pending := rest ++ more } h =
        if h = task.hash then a.additions else adds t h := by
      simp only [adds, get_put]
      by_cases hx : h = task.hash <;> simp [hx]
    rw [e]
    by_cases hh : h = task.hash
    · subst hh; simp only [if_true] at *; omega
    · simp only [hh, Ne.symm hh, if_false] at *; omega
  · intro h hh
    simp only [get_put]
    by_cases he : h = task.hash
    · left; simp [he]
    · rcases I.spawned h hh with h1 | h1
      · left; simpa [he] using h1
      · right
        have := hp.mem_iff.1 h1
        rcases List.mem_cons.1 this with h2 | h2
        · rw [← h2] at he; exact absurd rfl he
        · simp [h2]

theorem newSet_put_same {tx : Table Nat Added} {h : Nat} {a : Added} (hd : a.data.isSome = isNew (get tx h)) :
    newSet (put tx h a) = newSet tx := by
  ext x
  rw [mem_newSet, mem_newSet, get_put]
  split
  · rename_i hx; subst hx; simp [isNew, hd] 
  · rfl

theorem newSet_put_new {tx : Table Nat Added} {h : Nat} {a : Added} (hd : a.data.isSome) :
    newSet (put tx h a) = insert h (newSet tx) := by
  ext x
  rw [mem_newSet, Finset.mem_insert, mem_newSet, get_put]
  split
  · rename_i hx; subst hx; simp [isNew, hd]
  · rename_i hx; simp [hx]

theorem SInv.insert {w : World} {s : Store} {roots : Nat → Nat} {rcI : Counters.Rc} (J : Inv w s roots rcI)
    (hb : s.batch = none) {root : Nat} {t : StoreTx} {task : Task} {rest : List Task}
    (I : SInv w s root t) (hp : t.pending.Perm (task :: rest)) :
    SInv w s root (insertAndDescend w s { t with pending := rest } task) := by
  unfold insertAndDescend insertCell
  simp only
  cases hg : get t.tx task.hash with
  | some a =>
    simp only
    have hadd : adds t task.hash = a.additions := by simp [adds, hg]
    have := I.write hp { a with additions := a.additions + 1 } t.nextIdx [] (Nat.le_refl _) (by
        obtain ⟨h1, h2⟩ := I.ent _ a hg
        exact ⟨by simp, h2⟩) (by rw [hadd]) (by
        intro hd h' a' hg' hd' hi
        exact I.inj _ _ a a' hg hg' hd hd' hi) (by
        intro h
        rw [newSet_put_same (by simp [hg, isNew])]; simp [pend])
    simpa using this
  | none =>
    have hadd : adds t task.hash = 0 := by simp [adds, hg]
    rw [J.existing_eq hb]
    cases hr : rowIdx s task.hash with
    | some idx =>
      simp only
      have := I.write hp { idx, oldRc := Counters.get s.counters idx, additions := 1, data := none } t.nextIdx []
        (Nat.le_refl _) ⟨Nat.le_refl _, Or.inl ⟨idx, hr, rfl, rfl, rfl⟩⟩ (by rw [hadd]) (by
          intro hd; cases hd) (by
          intro h
          rw [newSet_put_same (by simp [hg, isNew])]; simp [pend])
      simpa using this
    | none =>
      simp only
      have := I.write hp { idx := t.nextIdx, oldRc := 0, additions := 1, data := some (w.refs task.hash) }
        (t.nextIdx + 1) (children (w.refs task.hash) task.depth)
        (by omega) ⟨Nat.le_refl _, Or.inr ⟨hr, I.le, by simp, rfl, rfl⟩⟩ (by rw [hadd]) (by
          intro _ h' a' hg' hd' hi
          obtain ⟨_, ⟨i, _, _, _, h5⟩ | ⟨_, _, h4, _⟩⟩ := I.ent _ a' hg'
          · rw [h5] at hd'; cases hd'
          · simp only at hi; omega) (by
          intro h
          rw [newSet_put_new rfl, inDeg_insert, pend_children, Nat.add_comm]
          rw [mem_newSet, hg]; simp [isNew])
      simpa using this

theorem SInv.step {w : World} {s : Store} {roots : Nat → Nat} {rcI : Counters.Rc} (J : Inv w s roots rcI)
    (hb : s.batch = none) {root : Nat} (split : Nat → Bool) {t : StoreTx} (I : SInv w s root t) (k : Nat) :
    SInv w s root (storeStep w split s t k) := by
  unfold storeStep
  split
  · exact I
  · rename_i task hk
    have hp := pick_perm hk
    unfold storeVisit
    split
    · rename_i hc
      simp only [Bool.and_eq_true, Bool.not_eq_true'] at hc
      exact I.delay hp hc.1
    · exact SInv.insert J hb I hp

theorem store_work {w : World} (split : Nat → Bool) (s : Store) (t : StoreTx) (k : Nat) (ht : t.pending ≠ []) :
    work w (storeStep w split s t k).pending < work w t.pending := by
  unfold storeStep
  have hlt : k % t.pending.length < t.pending.length := Nat.mod_lt _ (List.length_pos_iff.2 ht)
  cases hk : t.pending[k % t.pending.length]? with
  | none => rw [List.getElem?_eq_none_iff] at hk; omega
  | some task =>
    simp only
    have hp := pick_perm hk
    rw [work_perm w hp, work_cons]
    have h0 := size_pos w task.hash
    unfold storeVisit
    split
    · rename_i hc
      simp only [Bool.and_eq_true, Bool.not_eq_true'] at hc
      unfold delayAddition
      simp only
      split
      · simp only [work_append, work_cons, work_nil, hc.1, Bool.false_eq_true, if_false, if_true]; omega
      · simp only; split <;> omega
    · unfold insertAndDescend insertCell
      simp only
      have hch := work_children w task.hash task.depth
      cases get t.tx task.hash with
      | some a => simp only; split <;> omega
      | none =>
        simp only
        cases existing w s task.hash task.depth with
        | some i => simp only; split <;> omega
        | none => simp only [work_append]; split <;> omega

theorem storeStep_nil (w : World) (split : Nat → Bool) (s : Store) (t : StoreTx) (k : Nat) (ht : t.pending = []) :
    storeStep w split s t k = t := by
  unfold storeStep
  simp [ht]

theorem storeRun_inv {w : World} {s : Store} {roots : Nat → Nat} {rcI : Counters.Rc} (J : Inv w s roots rcI)
    (hb : s.batch = none) {root : Nat} (split : Nat → Bool) (n : Nat) (sched : Nat → Nat) {t : StoreTx}
    (I : SInv w s root t) : SInv w s root (storeRun w split s sched n t) := by
  induction n generalizing sched t with
  | zero => exact I
  | succ n ih => exact ih _ (I.step J hb split (sched 0))

theorem storeRun_ends (w : World) (split : Nat → Bool) (s : Store) (n : Nat) (sched : Nat → Nat) (t : StoreTx)
    (hw : work w t.pending ≤ n) : (storeRun w split s sched n t).pending = [] := by
  induction n generalizing sched t with
  | zero => exact work_zero (w := w) (by rw [storeRun]; omega)
  | succ n ih =>
    rw [storeRun]
    apply ih
    by_cases ht : t.pending = []
    · rw [storeStep_nil w split s t _ ht, ht]; simp [work_nil]
    · have := store_work (w := w) split s t (sched 0) ht; omega

end Tycho.CellStore
