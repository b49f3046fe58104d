import Verif.CellStore.StoreWalk

namespace Tycho.CellStore
open Tycho.Table

/-! ### The walk of `remove_cell_mt` -/

/-- References a transaction removed. -/
def rms (tx : Table Nat Removed) (h : Nat) : Nat := match get tx h with
  | some a => a.removes
  | none => 0

/-- Is every reference removed? -/
def isGone (o : Option Removed) : Bool := match o with
  | some a => decide (a.removes = a.oldRc)
  | none => false

/-- The cells whose last reference was removed. -/
def gone (tx : Table Nat Removed) : Finset Nat := (keys tx).filter (fun h => isGone (get tx h) = true)

theorem mem_gone (tx : Table Nat Removed) (h : Nat) : h ∈ gone tx ↔ isGone (get tx h) = true := by
  unfold gone
  rw [Finset.mem_filter, mem_keys]
  constructor
  · exact fun h => h.2
  · intro hn
    refine ⟨?_, hn⟩
    cases hg : get tx h with
    | none => rw [hg] at hn; cases hn
    | some a => rfl

/-- What an entry says about its cell. -/
structure GoneOk (w : World) (s : Store) (roots : Nat → Nat) (h : Nat) (a : Removed) : Prop where
  row : rowIdx s h = some a.idx
  src : a.fromNursery = (get s.nursery h).isSome
  old : a.oldRc = uses w s roots h
  pos : 1 ≤ a.removes
  le : a.removes ≤ a.oldRc
  refs : a.refs = w.refs h

structure RInv (w : World) (s : Store) (roots : Nat → Nat) (split : Nat → Bool) (root : Nat) (t : RemoveTx) : Prop where
  uTx : Uniq t.tx
  uDl : Uniq t.delayed
  ent : ∀ h a, get t.tx h = some a → GoneOk w s roots h a
  eqn : ∀ h, rms t.tx h + late t.delayed h + pend t.pending h = (if h = root then 1 else 0) + inDeg w (gone t.tx) h
  spawned : ∀ h, (get t.delayed h).isSome → (get t.tx h).isSome ∨ ⟨h, 0, true⟩ ∈ t.pending
  isSplit : ∀ h, (get t.delayed h).isSome → split h = true
  reachP : ∀ x ∈ t.pending, Reach w root x.hash
  reachT : ∀ h, (get t.tx h).isSome → Reach w root h

theorem RInv.start (w : World) (s : Store) (roots : Nat → Nat) (split : Nat → Bool) (root : Nat) :
    RInv w s roots split root (removeStart root) := by
  refine ⟨uniq_nil, uniq_nil, ?_, ?_, ?_, ?_, ?_, ?_⟩
  · intro h a hg; cases hg
  · intro h
    simp only [removeStart, rms, get_nil, late, Option.getD_none, pend_cons, gone, keys, List.map_nil,
      List.toFinset_nil, Finset.filter_empty, inDeg_empty, eq_comm (a := h)]
    simp [pend]
  · intro h hg; cases hg
  · intro h hg; cases hg
  · intro x hx
    simp only [removeStart, List.mem_singleton] at hx
    subst hx; exact .refl _
  · intro h hg; cases hg

section
variable {w : World} {s : Store} {roots : Nat → Nat} {rcI : Counters.Rc} {split : Nat → Bool} {root : Nat}
  {t : RemoveTx} {task : Task} {rest : List Task}

theorem RInv.gone_live (I : RInv w s roots split root t) : gone t.tx ⊆ live s := by
  intro h hh
  rw [mem_gone] at hh
  cases hg : get t.tx h with
  | none => rw [hg] at hh; cases hh
  | some a => rw [mem_live, (I.ent h a hg).row]; rfl

/-- Never more references than there are. -/
theorem RInv.le_uses (I : RInv w s roots split root t) (hr : 0 < roots root) (h : Nat) :
    rms t.tx h + late t.delayed h + pend t.pending h ≤ uses w s roots h := by
  rw [I.eqn h]
  have := inDeg_mono w h I.gone_live
  unfold uses
  by_cases hh : h = root
  · subst hh; simp only [if_true]; omega
  · simp only [hh, if_false]; omega

theorem RInv.delay (I : RInv w s roots split root t) (hp : t.pending.Perm (task :: rest)) (hs : task.spawned = false)
    (hsp : split task.hash = true) : RInv w s roots split root (delayRemove { t with pending := rest } task.hash) := by
  have hreach : ∀ x ∈ rest, Reach w root x.hash := fun x hx => I.reachP x (hp.mem_iff.2 (by simp [hx]))
  have htask : Reach w root task.hash := I.reachP task (hp.mem_iff.2 (by simp))
  unfold delayRemove
  simp only
  cases hg : get t.delayed task.hash with
  | none =>
    refine ⟨I.uTx, uniq_put _ _ _ I.uDl, I.ent, ?_, ?_, ?_, ?_, I.reachT⟩
    · intro h
      have := I.eqn h
      rw [pend_perm hp, pend_cons] at this
      simp only [late_put, pend_append, pend_cons]
      have hl : late t.delayed task.hash = 0 := by simp [late, hg]
      rw [← this]
      by_cases hh : h = task.hash
      · subst hh; simp [hl, pend]
      · simp [hh, Ne.symm hh, pend]
    · intro h hh
      simp only [get_put] at hh
      by_cases he : h = task.hash
      · right; subst he; simp
      · rw [if_neg he] at hh
        rcases I.spawned h hh with h1 | h1
        · exact Or.inl h1
        · right
          rcases List.mem_cons.1 (hp.mem_iff.1 h1) with h2 | h2
          · rw [← h2] at he; exact absurd rfl he
          · simp [h2]
    · intro h hh
      simp only [get_put] at hh
      by_cases he : h = task.hash
      · rw [he]; exact hsp
      · rw [if_neg he] at hh; exact I.isSplit h hh
    · intro x hx
      simp only [List.mem_append, List.mem_singleton] at hx
      rcases hx with hx | rfl
      · exact hreach x hx
      · exact htask
  | some n =>
    have h0 : ∀ h, (get (put t.delayed task.hash (n + 1)) h).isSome → (get t.delayed h).isSome := by
      intro h hh
      simp only [get_put] at hh
      by_cases he : h = task.hash
      · rw [he, hg]; rfl
      · rwa [if_neg he] at hh
    refine ⟨I.uTx, uniq_put _ _ _ I.uDl, I.ent, ?_, ?_, fun h hh => I.isSplit h (h0 h hh), hreach, I.reachT⟩
    · intro h
      have := I.eqn h
      rw [pend_perm hp, pend_cons] at this
      simp only [late_put]
      have hl : late t.delayed task.hash = n := by simp [late, hg]
      by_cases hh : h = task.hash
      · subst hh; simp only [if_true] at *; omega
      · simp only [hh, Ne.symm hh, if_false] at *; omega
    · intro h hh
      rcases I.spawned h (h0 h hh) with h1 | h1
      · exact Or.inl h1
      · right
        rcases List.mem_cons.1 (hp.mem_iff.1 h1) with h2 | h2
        · rw [← h2] at hs; cases hs
        · exact h2

theorem gone_put_new {tx : Table Nat Removed} {h : Nat} {a : Removed} (hd : a.removes = a.oldRc) :
    gone (put tx h a) = insert h (gone tx) := by
  ext x
  rw [mem_gone, Finset.mem_insert, mem_gone, get_put]
  split
  · rename_i hx; subst hx; simp [isGone, hd]
  · rename_i hx; simp [hx]

theorem gone_put_same {tx : Table Nat Removed} {h : Nat} {a : Removed} (hd : a.removes ≠ a.oldRc) (hn : h ∉ gone tx) :
    gone (put tx h a) = gone tx := by
  ext x
  rw [mem_gone, mem_gone, get_put]
  split
  · rename_i hx; subst hx
    rw [mem_gone] at hn
    simp [isGone, hd, hn]
    simpa [isGone] using hn
  · rfl

/-- An entry for the cell of a task is written. -/
theorem RInv.write (I : RInv w s roots split root t) (hp : t.pending.Perm (task :: rest)) (a : Removed)
    (more : List Task) (ha : GoneOk w s roots task.hash a) (hadd : a.removes = rms t.tx task.hash + 1)
    (hng : task.hash ∉ gone t.tx)
    (hmore : more = if a.removes = a.oldRc then children (w.refs task.hash) 0 else []) :
    RInv w s roots split root { t with tx := put t.tx task.hash a, pending := rest ++ more } := by
  have hreach : ∀ x ∈ rest, Reach w root x.hash := fun x hx => I.reachP x (hp.mem_iff.2 (by simp [hx]))
  have htask : Reach w root task.hash := I.reachP task (hp.mem_iff.2 (by simp))
  have hset : ∀ h, inDeg w (gone (put t.tx task.hash a)) h = inDeg w (gone t.tx) h + pend more h := by
    intro h
    by_cases hd : a.removes = a.oldRc
    · rw [gone_put_new hd, inDeg_insert w _ _ _ hng, hmore, if_pos hd, pend_children, Nat.add_comm]
    · rw [gone_put_same hd hng, hmore, if_neg hd]; simp [pend]
  refine ⟨uniq_put _ _ _ I.uTx, I.uDl, ?_, ?_, ?_, I.isSplit, ?_, ?_⟩
  · intro h b hb
    simp only [get_put] at hb
    split at hb
    · rename_i hh; subst hh
      obtain rfl := Option.some.inj hb
      exact ha
    · exact I.ent h b hb
  · intro h
    have := I.eqn h
    rw [pend_perm hp, pend_cons] at this
    simp only [hset, pend_append]
    have e : rms (put t.tx task.hash a) h = if h = task.hash then a.removes else rms t.tx h := by
      simp only [rms, get_put]
      by_cases hx : h = task.hash <;> simp [hx]
    rw [e]
    by_cases hh : h = task.hash
    · subst hh; simp only [if_true] at *; omega
    · simp only [hh, Ne.symm hh, if_false] at *; omega
  · intro h hh
    simp only [get_put]
    by_cases he : h = task.hash
    · left; simp [he]
    · rcases I.spawned h hh with h1 | h1
      · left; simpa [he] using h1
      · right
        rcases List.mem_cons.1 (hp.mem_iff.1 h1) with h2 | h2
        · rw [← h2] at he; exact absurd rfl he
        · simp [h2]
  · intro x hx
    rcases List.mem_append.1 hx with hx | hx
    · exact hreach x hx
    · rw [hmore] at hx
      split at hx
      · simp only [children, List.mem_map] at hx
        obtain ⟨c, hc, rfl⟩ := hx
        exact .step htask hc
      · cases hx
  · intro h hh
    simp only [get_put] at hh
    by_cases he : h = task.hash
    · rw [he]; exact htask
    · rw [if_neg he] at hh; exact I.reachT h hh

/-- Taking a child never fails and keeps the invariant. -/
theorem RInv.remove (J : Inv w s roots rcI) (hb : s.batch = none) (hr : 0 < roots root)
    (I : RInv w s roots split root t) (hp : t.pending.Perm (task :: rest)) :
    ∃ t', removeAndDescend s { t with pending := rest } task.hash = some t' ∧ RInv w s roots split root t' := by
  have hle := I.le_uses hr task.hash
  rw [pend_perm hp, pend_cons, if_pos rfl] at hle
  unfold removeAndDescend removeCell
  simp only
  cases hg : get t.tx task.hash with
  | some a =>
    have A := I.ent _ a hg
    have hrm : rms t.tx task.hash = a.removes := by simp [rms, hg]
    have hold := A.old
    have hlt : a.removes + 1 ≤ a.oldRc := by omega
    have hng : task.hash ∉ gone t.tx := by
      rw [mem_gone, hg]; simp [isGone]; omega
    have hW := I.write hp { a with removes := a.removes + 1 } _
      ⟨A.row, A.src, A.old, by simp, hlt, A.refs⟩ (by rw [hrm]) hng rfl
    simp only [addRemoves, if_neg (by omega : ¬ a.oldRc < a.removes + 1), Option.map_some]
    by_cases hd : a.oldRc = a.removes + 1
    · simp only [if_pos hd]
      refine ⟨_, rfl, ?_⟩
      simp only [if_pos hd.symm] at hW
      have e : a.refs = w.refs task.hash := A.refs
      rw [← e] at hW; exact hW
    · simp only [if_neg hd]
      refine ⟨_, rfl, ?_⟩
      simp only [if_neg (Ne.symm hd), List.append_nil] at hW
      exact hW
  | none =>
    have hrm : rms t.tx task.hash = 0 := by simp [rms, hg]
    have hlive : task.hash ∈ live s := (J.liveUses _).2 (by omega)
    rw [mem_live] at hlive
    obtain ⟨i, hi⟩ := Option.isSome_iff_exists.1 hlive
    have hc := (J.idx_lt hi).2.2
    simp only [J.rowForDelete_eq hb hi]
    have hng : task.hash ∉ gone t.tx := by
      rw [mem_gone, hg]; simp [isGone]
    have hW := I.write hp
      ⟨i, (get s.nursery task.hash).isSome, Counters.get s.counters i, 1, w.refs task.hash⟩ _
      ⟨hi, rfl, hc, Nat.le_refl _, by simp only; omega, rfl⟩ (by rw [hrm]) hng rfl
    by_cases hd : Counters.get s.counters i = 1
    · simp only [if_pos hd]
      refine ⟨_, rfl, ?_⟩
      simp only [if_pos hd.symm] at hW
      exact hW
    · simp only [if_neg hd]
      refine ⟨_, rfl, ?_⟩
      simp only [if_neg (Ne.symm hd), List.append_nil] at hW
      exact hW

theorem RInv.step (J : Inv w s roots rcI) (hb : s.batch = none) (hr : 0 < roots root)
    (I : RInv w s roots split root t) (k : Nat) :
    ∃ t', removeStep split s t k = some t' ∧ RInv w s roots split root t' := by
  unfold removeStep
  split
  · exact ⟨t, rfl, I⟩
  · rename_i task hk
    have hp := pick_perm hk
    unfold removeVisit
    split
    · rename_i hc
      simp only [Bool.and_eq_true, Bool.not_eq_true'] at hc
      exact ⟨_, rfl, I.delay hp hc.1 hc.2⟩
    · exact RInv.remove J hb hr I hp

theorem remove_work (J : Inv w s roots rcI) (hb : s.batch = none) (I : RInv w s roots split root t) (k : Nat)
    (ht : t.pending ≠ []) {t' : RemoveTx} (hs : removeStep split s t k = some t') :
    work w t'.pending < work w t.pending := by
  unfold removeStep at hs
  have hlt : k % t.pending.length < t.pending.length := Nat.mod_lt _ (List.length_pos_iff.2 ht)
  cases hk : t.pending[k % t.pending.length]? with
  | none => rw [List.getElem?_eq_none_iff] at hk; omega
  | some task =>
    rw [hk] at hs
    simp only at hs
    have hp := pick_perm hk
    rw [work_perm w hp, work_cons]
    have h0 := size_pos w task.hash
    unfold removeVisit at hs
    split at hs
    · rename_i hc
      simp only [Bool.and_eq_true, Bool.not_eq_true'] at hc
      obtain rfl := Option.some.inj hs
      unfold delayRemove
      simp only
      split
      · simp only [work_append, work_cons, work_nil, hc.1, Bool.false_eq_true, if_false, if_true]; omega
      · simp only; split <;> omega
    · have hch := work_children w task.hash 0
      have hrefs : ∀ tx refs, removeCell s t.tx task.hash = some (tx, some refs) → refs = w.refs task.hash := by
        intro tx refs hrc
        unfold removeCell at hrc
        cases hg : get t.tx task.hash with
        | some a =>
          rw [hg] at hrc
          simp only [addRemoves] at hrc
          split at hrc
          · cases hrc
          · simp only [Option.map_some, Option.some.injEq, Prod.mk.injEq] at hrc
            have := hrc.2
            split at this
            · injection this with this
              rw [← this, (I.ent _ a hg).refs]
            · cases this
        | none =>
          rw [hg] at hrc
          cases hi : rowIdx s task.hash with
          | some i =>
            rw [J.rowForDelete_eq hb hi] at hrc
            simp only [Option.some.injEq, Prod.mk.injEq] at hrc
            have := hrc.2
            split at this
            · injection this with this; exact this.symm
            · cases this
          | none =>
            have hd : durable s = s.cells := by unfold durable; rw [hb]
            have hnone : rowForDelete s task.hash = none := by
              unfold rowIdx at hi
              rw [hd] at hi
              cases hn : get s.nursery task.hash with
              | some e => rw [hn] at hi; cases hi
              | none =>
                rw [hn] at hi
                simp only [Option.map_eq_none_iff] at hi
                unfold rowForDelete
                rw [hn]
                simp only
                cases hc : get s.cache task.hash with
                | some r =>
                  have := J.cache _ r hc
                  rw [hd, hi] at this; cases this
                | none => simp [hi]
            rw [hnone] at hrc; cases hrc
      unfold removeAndDescend at hs
      simp only at hs
      cases hrc : removeCell s t.tx task.hash with
      | none => rw [hrc] at hs; cases hs
      | some p =>
        obtain ⟨tx, o⟩ := p
        rw [hrc] at hs
        cases o with
        | none =>
          obtain rfl := Option.some.inj hs
          simp only; split <;> omega
        | some refs =>
          obtain rfl := Option.some.inj hs
          rw [hrefs tx refs hrc]
          simp only [work_append]; split <;> omega

/-- The walk ends without an error. -/
theorem removeRun_ok (J : Inv w s roots rcI) (hb : s.batch = none) (hr : 0 < roots root) (n : Nat) (sched : Nat → Nat)
    (I : RInv w s roots split root t) (hw : work w t.pending ≤ n) :
    ∃ t', removeRun split s sched n t = some t' ∧ RInv w s roots split root t' ∧ t'.pending = [] := by
  induction n generalizing sched t with
  | zero => exact ⟨t, rfl, I, work_zero (w := w) (by omega)⟩
  | succ n ih =>
    obtain ⟨t1, h1, I1⟩ := I.step J hb hr (sched 0)
    rw [removeRun, h1]
    simp only
    apply ih _ I1
    by_cases ht : t.pending = []
    · have : removeStep split s t (sched 0) = some t := by
        unfold removeStep; simp [ht]
      rw [this] at h1
      obtain rfl := Option.some.inj h1
      rw [ht]; simp [work_nil]
    · have := remove_work J hb I (sched 0) ht h1; omega

/-- Nothing is delayed when the split points occur once. -/
theorem RInv.no_late (I : RInv w s roots split root t) (hso : SplitOnce w root split) (h : Nat) :
    late t.delayed h = 0 := by
  unfold late
  cases hg : get t.delayed h with
  | none => rfl
  | some n =>
    simp only [Option.getD_some]
    have hsome : (get t.delayed h).isSome := by rw [hg]; rfl
    have h1 := I.eqn h
    have hl : late t.delayed h = n := by simp [late, hg]
    have h2 : 1 ≤ rms t.tx h + pend t.pending h := by
      rcases I.spawned h hsome with h3 | h3
      · obtain ⟨a, ha⟩ := Option.isSome_iff_exists.1 h3
        have := (I.ent h a ha).pos
        simp only [rms, ha]; omega
      · have : 0 < pend t.pending h := by
          unfold pend
          rw [List.countP_pos_iff]
          exact ⟨_, h3, by simp⟩
        omega
    have hreach : ∀ c ∈ gone t.tx, Reach w root c := by
      intro c hc
      rw [mem_gone] at hc
      apply I.reachT
      cases hgc : get t.tx c with
      | none => rw [hgc] at hc; cases hc
      | some a => rfl
    have h3 : (if h = root then 1 else 0) + inDeg w (gone t.tx) h ≤ 1 := by
      by_cases hh : h = root
      · subst hh
        have : inDeg w (gone t.tx) h = 0 := by
          by_contra hc
          obtain ⟨c, hc1, hc2⟩ := (inDeg_pos w _ h).1 (Nat.pos_of_ne_zero hc)
          have := (hreach c hc1).size_le
          have := size_lt w hc2
          omega
        simp [this]
      · have := hso h (I.isSplit h hsome) (gone t.tx) hreach
        simp only [hh, if_false]; omega
    omega
end

end Tycho.CellStore
