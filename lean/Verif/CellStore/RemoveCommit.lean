import Verif.CellStore.RemoveWalk
import Verif.CellStore.StoreCommit

namespace Tycho.CellStore
open Tycho.Table

/-- The transaction at the end of a walk that removes a tree. -/
structure TxGone (w : World) (s : Store) (roots : Nat → Nat) (root : Nat) (tx : Table Nat Removed) : Prop where
  uTx : Uniq tx
  ent : ∀ h a, get tx h = some a → GoneOk w s roots h a
  eqn : ∀ h, rms tx h = (if h = root then 1 else 0) + inDeg w (gone tx) h
  sub : gone tx ⊆ live s

theorem applyRemovals_zero (tx : Table Nat Removed) (l : List (Nat × Nat)) (h : ∀ e ∈ l, e.2 = 0) :
    applyRemovals tx l = some tx := by
  unfold applyRemovals
  induction l with
  | nil => rfl
  | cons e l ih =>
    rw [List.foldl_cons]
    have h0 := h e (by simp)
    have : (some tx).bind (fun tx => applyRemoval tx e) = some tx := by
      simp [applyRemoval, h0]
    rw [this]
    exact ih (fun x hx => h x (by simp [hx]))

section
variable {w : World} {s : Store} {roots : Nat → Nat} {rcI : Counters.Rc} {root : Nat} {tx : Table Nat Removed}

theorem RInv.txGone {split : Nat → Bool} {t : RemoveTx} (I : RInv w s roots split root t) (hso : SplitOnce w root split)
    (hp : t.pending = []) : applyRemovals t.tx t.delayed = some t.tx ∧ TxGone w s roots root t.tx := by
  constructor
  · apply applyRemovals_zero
    intro e he
    have := I.no_late hso e.1
    unfold late at this
    rw [get_of_mem I.uDl he] at this
    exact this
  · refine ⟨I.uTx, I.ent, ?_, I.gone_live⟩
    intro h
    have h1 := I.eqn h
    rw [hp, I.no_late hso h] at h1
    simp only [pend, List.countP_nil] at h1
    omega

theorem TxGone.mem_dead (T : TxGone w s roots root tx) (b : Bool) (h : Nat) :
    h ∈ deadFrom tx b ↔ h ∈ gone tx ∧ (get s.nursery h).isSome = b := by
  unfold deadFrom
  rw [List.mem_map, mem_gone]
  constructor
  · rintro ⟨⟨x, a⟩, he, rfl⟩
    rw [List.mem_filter] at he
    obtain ⟨he, hc⟩ := he
    have hg := get_of_mem T.uTx he
    have A := T.ent _ _ hg
    simp only [Bool.and_eq_true, decide_eq_true_eq, beq_iff_eq] at hc
    have := A.le
    simp only at hg this ⊢
    rw [hg, ← A.src]
    refine ⟨?_, hc.2⟩
    simp only [isGone, decide_eq_true_eq]; omega
  · rintro ⟨h1, h2⟩
    cases hg : get tx h with
    | none => rw [hg] at h1; cases h1
    | some a =>
      rw [hg] at h1
      simp only [isGone, decide_eq_true_eq] at h1
      refine ⟨(h, a), ?_, rfl⟩
      rw [List.mem_filter]
      refine ⟨mem_of_get hg, ?_⟩
      have A := T.ent _ _ hg
      simp only [Bool.and_eq_true, decide_eq_true_eq, beq_iff_eq]
      refine ⟨by omega, ?_⟩
      rw [A.src]; exact h2

theorem TxGone.dead_nodup (T : TxGone w s roots root tx) (b : Bool) : (deadFrom tx b).Nodup :=
  T.uTx.sublist (List.filter_sublist.map _)

theorem TxGone.contract (J : Inv w s roots rcI) (T : TxGone w s roots root tx) :
    Counters.Contract rcI s.counters.nextIdx (tx.map (fun e => removedTransition e.2)) := by
  have hidx : ∀ e ∈ tx, ∀ e' ∈ tx, e.2.idx = e'.2.idx → e = e' := by
    intro e he e' he' hi
    have hg := get_of_mem T.uTx he
    have hg' := get_of_mem T.uTx he'
    have hk : e.1 = e'.1 := J.inj _ _ _ (T.ent _ _ hg).row (by rw [hi]; exact (T.ent _ _ hg').row)
    rw [hk, hg'] at hg
    exact Prod.ext hk (Option.some.inj hg).symm
  refine ⟨?_, ?_, ?_⟩
  · rw [List.map_map]
    have hnd : tx.Nodup := List.Nodup.of_map _ T.uTx
    exact (List.nodup_map_iff_inj_on hnd).2 hidx
  · intro t ht
    obtain ⟨e, he, rfl⟩ := List.mem_map.1 ht
    have A := T.ent _ _ (get_of_mem T.uTx he)
    show e.2.oldRc = rcI e.2.idx
    rw [J.rc _ _ A.row, A.old]
  · intro t ht
    obtain ⟨e, he, rfl⟩ := List.mem_map.1 ht
    exact (J.idx_lt (T.ent _ _ (get_of_mem T.uTx he)).row).1

theorem filterRemove_count (w : World) (hs : List Nat) (f : List Nat) (x : Nat) :
    f.count x ≤ (filterRemove w f hs).count x + hs.countP (fun h => decide (w.fp h = x)) := by
  unfold filterRemove
  induction hs generalizing f with
  | nil => simp
  | cons h hs ih =>
    rw [List.foldl_cons, List.countP_cons]
    have h1 := ih (f.erase (w.fp h))
    rw [List.count_erase] at h1
    by_cases hh : w.fp h = x
    · simp only [hh, beq_self_eq_true, if_true, decide_true] at h1 ⊢; omega
    · have : (w.fp h == x) = false := by simpa using hh
      simp only [this, Bool.false_eq_true, if_false, hh, decide_false] at h1 ⊢; omega

theorem removeCommit_inv (J : Inv w s roots rcI) (hb : s.batch = none) (hr : 0 < roots root)
    (T : TxGone w s roots root tx) :
    ∃ s' rcI', removeCommit w s tx = some s' ∧
      Inv w s' (fun h => if h = root then roots h - 1 else roots h) rcI' := by
  have hd : durable s = s.cells := by unfold durable; rw [hb]
  have hcb := TxGone.contract J T
  obtain ⟨hrep, hnext⟩ := Counters.runBatch_repr J.repr hcb
  let s' : Store :=
    { cells := s.cells
      batch := some { puts := [], deletes := deadFrom tx false }
      nursery := del s.nursery (fun h => (deadFrom tx true).contains h)
      byRound := s.byRound
      filter := filterRemove w s.filter (deadFrom tx false)
      cache := del s.cache (fun h => (deadFrom tx false).contains h)
      counters := Counters.runBatch s.counters (tx.map (fun e => removedTransition e.2)) }
  refine ⟨s', rcI.setAll (tx.map (fun e => removedTransition e.2)), rfl, ?_⟩
  have hd' : durable s' = del s.cells (fun h => (deadFrom tx false).contains h) := rfl
  have hgn : ∀ h, get s'.nursery h = if h ∈ gone tx then none else get s.nursery h := by
    intro h
    show get (del s.nursery _) h = _
    rw [get_del]
    cases hn : get s.nursery h with
    | none => simp
    | some e =>
      have := T.mem_dead true h
      rw [hn] at this
      by_cases hm : h ∈ gone tx
      · simp [hm, this]
      · simp [hm, this]
  have hgd : ∀ h, get (durable s') h = if h ∈ gone tx then none else get s.cells h := by
    intro h
    rw [hd', get_del]
    have hm := T.mem_dead false h
    cases hn : get s.nursery h with
    | none =>
      rw [hn] at hm
      by_cases hg : h ∈ gone tx
      · simp [hg, hm]
      · simp [hg, hm]
    | some e =>
      have := J.disj h (by rw [hn]; rfl)
      rw [hd] at this
      simp [this]
  have hrow : ∀ h, rowIdx s' h = if h ∈ gone tx then none else rowIdx s h := by
    intro h
    show (match get s'.nursery h with | some e => some e.idx | none => (get (durable s') h).map (fun r : Row => r.idx)) = _
    rw [hgn, hgd]
    by_cases hg : h ∈ gone tx
    · simp [hg]
    · simp only [hg, if_false]
      unfold rowIdx
      rw [hd]
      cases get s.nursery h <;> rfl
  have hlive : live s' = live s \ gone tx := by
    ext h
    rw [mem_live, Finset.mem_sdiff, mem_live, hrow]
    by_cases hg : h ∈ gone tx <;> simp [hg]
  have huses : ∀ h, uses w s' (fun h => if h = root then roots h - 1 else roots h) h + rms tx h = uses w s roots h := by
    intro h
    unfold uses
    rw [hlive, T.eqn h]
    have := inDeg_sdiff w h T.sub
    by_cases hh : h = root
    · subst hh; simp only [if_true]; omega
    · simp only [hh, if_false]; omega
  have hgone : ∀ h, h ∈ gone tx → uses w s roots h = rms tx h := by
    intro h hg
    rw [mem_gone] at hg
    cases hx : get tx h with
    | none => rw [hx] at hg; cases hg
    | some a =>
      rw [hx] at hg
      simp only [isGone, decide_eq_true_eq] at hg
      simp only [rms, hx]
      rw [hg, (T.ent h a hx).old]
  have hkept : ∀ h, h ∈ live s → h ∉ gone tx → rms tx h < uses w s roots h := by
    intro h hl hg
    rw [mem_gone] at hg
    cases hx : get tx h with
    | none => simp only [rms, hx]; exact (J.liveUses h).1 hl
    | some a =>
      rw [hx] at hg
      simp only [isGone, decide_eq_true_eq] at hg
      have A := T.ent h a hx
      have := A.le
      have := A.old
      simp only [rms, hx]; omega
  refine ⟨?_, ?_, ?_, ?_, ?_, ?_, ?_, ?_, ?_, ?_, ?_, ?_, ?_, ?_⟩
  · exact uniq_del _ _ J.uNur
  · exact J.uCells
  · intro h hs
    rw [hgn] at hs
    rw [hgd]
    by_cases hg : h ∈ gone tx
    · rw [if_pos hg]
    · rw [if_neg hg] at hs ⊢
      have := J.disj h hs
      rwa [hd] at this
  · intro b hbb e he
    injection hbb with hbb
    subst hbb
    cases he
  · intro h e he
    rw [hgn] at he
    split at he
    · cases he
    · exact J.nData h e he
  · intro h r hr
    rw [hgd] at hr
    split at hr
    · cases hr
    · exact J.cData h r (by rw [hd]; exact hr)
  · intro h
    rw [hlive, Finset.mem_sdiff]
    have hu := huses h
    constructor
    · rintro ⟨h1, h2⟩
      have := hkept h h1 h2
      omega
    · intro h1
      refine ⟨(J.liveUses h).2 (by omega), ?_⟩
      intro hg
      have := hgone h hg
      omega
  · intro h h' i h1 h2
    rw [hrow] at h1 h2
    split at h1
    · cases h1
    · split at h2
      · cases h2
      · exact J.inj h h' i h1 h2
  · exact hrep
  · intro h i hi
    rw [hrow] at hi
    split at hi
    · cases hi
    have hu := huses h
    cases hg : get tx h with
    | some a =>
      have A := T.ent h a hg
      have hii : a.idx = i := by have := A.row; rw [hi] at this; exact (Option.some.inj this).symm
      have hm : removedTransition a ∈ tx.map (fun e => removedTransition e.2) :=
        List.mem_map.2 ⟨(h, a), mem_of_get hg, rfl⟩
      have h1 := Counters.setAll_mem rcI hcb.once hm
      have h2 : (removedTransition a).idx = i := hii
      rw [h2] at h1
      rw [h1]
      show a.oldRc - a.removes = _
      have := A.old
      have := A.le
      simp only [rms, hg] at hu
      omega
    | none =>
      rw [Counters.setAll_not, J.rc h i hi]
      · simp only [rms, hg] at hu; omega
      · intro t ht hti
        obtain ⟨⟨x, a⟩, he, rfl⟩ := List.mem_map.1 ht
        have hx := get_of_mem T.uTx he
        have hti : a.idx = i := hti
        have : h = x := J.inj h x i hi (by rw [← hti]; exact (T.ent _ _ hx).row)
        subst this
        rw [hg] at hx; cases hx
  · intro i hi
    by_cases hm : ∃ t ∈ tx.map (fun e => removedTransition e.2), t.idx = i
    · obtain ⟨t, ht, rfl⟩ := hm
      have h1 := Counters.setAll_mem rcI hcb.once ht
      obtain ⟨⟨x, a⟩, he, rfl⟩ := List.mem_map.1 ht
      have hx := get_of_mem T.uTx he
      rw [h1] at hi
      have hi : 0 < a.oldRc - a.removes := hi
      refine ⟨x, ?_⟩
      rw [hrow]
      have hng : x ∉ gone tx := by
        rw [mem_gone]
        simp only at hx
        rw [hx]; simp only [isGone, decide_eq_true_eq]; omega
      rw [if_neg hng]
      exact (T.ent _ _ hx).row
    · rw [Counters.setAll_not rcI (fun t ht he => hm ⟨t, ht, he⟩)] at hi
      obtain ⟨h, hrr⟩ := J.own i hi
      refine ⟨h, ?_⟩
      rw [hrow]
      have hng : h ∉ gone tx := by
        intro hg
        rw [mem_gone] at hg
        cases hx : get tx h with
        | none => rw [hx] at hg; cases hg
        | some a =>
          have := (T.ent h a hx).row
          rw [hrr] at this
          exact hm ⟨removedTransition a, List.mem_map.2 ⟨(h, a), mem_of_get hx, rfl⟩, (Option.some.inj this).symm⟩
      rw [if_neg hng, hrr]
  · intro f
    have hsub : ∀ h ∈ deadFrom tx false, h ∈ keys s.cells := by
      intro h hh
      obtain ⟨h1, h2⟩ := (T.mem_dead false h).1 hh
      have h3 := (mem_live s h).1 (T.sub h1)
      rw [mem_keys]
      unfold rowIdx at h3
      rw [hd] at h3
      cases hn : get s.nursery h with
      | some e => rw [hn] at h2; cases h2
      | none => rw [hn] at h3; simpa using h3
    have hk : keys (durable s') = keys s.cells \ (deadFrom tx false).toFinset := by
      ext h
      rw [mem_keys, Finset.mem_sdiff, mem_keys, List.mem_toFinset, hd', get_del]
      by_cases hm : h ∈ deadFrom tx false <;> simp [hm]
    have h1 : ((keys (durable s')).filter (fun h => w.fp h = f)) =
        ((keys s.cells).filter (fun h => w.fp h = f)) \ ((deadFrom tx false).toFinset.filter (fun h => w.fp h = f)) := by
      rw [hk]
      ext h
      simp only [Finset.mem_filter, Finset.mem_sdiff]
      constructor
      · rintro ⟨⟨a, b⟩, c⟩; exact ⟨⟨a, c⟩, fun ⟨x, _⟩ => b x⟩
      · rintro ⟨⟨a, c⟩, b⟩; exact ⟨⟨a, fun x => b ⟨x, c⟩⟩, c⟩
    rw [h1, Finset.card_sdiff_of_subset (by
      intro h hh
      rw [Finset.mem_filter, List.mem_toFinset] at hh
      rw [Finset.mem_filter]
      exact ⟨hsub h hh.1, hh.2⟩)]
    have h2 := J.filt f
    rw [hd] at h2
    have h3 := filterRemove_count w (deadFrom tx false) s.filter f
    have h4 : ((deadFrom tx false).toFinset.filter (fun h => w.fp h = f)).card =
        (deadFrom tx false).countP (fun h => decide (w.fp h = f)) := by
      have he : ((deadFrom tx false).toFinset.filter (fun h => w.fp h = f)) =
          ((deadFrom tx false).filter (fun h => decide (w.fp h = f))).toFinset := by
        ext h; simp
      rw [List.countP_eq_length_filter, he, List.toFinset_card_of_nodup]
      exact (T.dead_nodup false).filter _
    show _ ≤ (filterRemove w s.filter (deadFrom tx false)).count f
    omega
  · intro h r hc
    have hc' : get (del s.cache (fun h => (deadFrom tx false).contains h)) h = some r := hc
    rw [get_del] at hc'
    split at hc'
    · cases hc'
    · rename_i hnd
      have h1 := J.cache h r hc'
      rw [hd] at h1
      rw [hgd]
      have hng : h ∉ gone tx := by
        intro hg
        have hnn := J.cached hc'
        apply hnd
        rw [List.contains_iff_mem]
        exact (T.mem_dead false h).2 ⟨hg, by rw [hnn]; rfl⟩
      rw [if_neg hng, h1]
  · intro h e he
    rw [hgn] at he
    split at he
    · cases he
    · exact J.rounds h e he

end

/-- `remove_cell_mt` of a stored tree succeeds under every schedule and keeps the invariant for one root less. -/
theorem remove_inv {w : World} {s : Store} {roots : Nat → Nat} {rcI : Counters.Rc} (J : Inv w s roots rcI)
    (hb : s.batch = none) (root : Nat) (hr : 0 < roots root) (split : Nat → Bool) (hso : SplitOnce w root split)
    (sched : Nat → Nat) :
    ∃ s' rcI', remove w s root split sched = some s' ∧
      Inv w s' (fun h => if h = root then roots h - 1 else roots h) rcI' := by
  obtain ⟨t, h1, I, hp⟩ := removeRun_ok J hb hr (fuel w root) sched (RInv.start w s roots split root) (by
    simp [removeStart, work_cons, work_nil, fuel])
  obtain ⟨h2, T⟩ := I.txGone hso hp
  obtain ⟨s', rcI', h3, h4⟩ := removeCommit_inv J hb hr T
  refine ⟨s', rcI', ?_, h4⟩
  unfold remove
  rw [h1]
  simp only
  rw [h2]
  exact h3

end Tycho.CellStore
