import Verif.CellStore.StoreWalk

namespace Tycho.CellStore
open Tycho.Table

/-! ### Delayed additions -/

theorem applyAdditions_cons (tx : Table Nat Added) (e : Nat × Nat) (l : List (Nat × Nat)) :
    applyAdditions tx (e :: l) = (applyAddition tx e).bind (fun tx => applyAdditions tx l) := by
  have key : ∀ (l : List (Nat × Nat)) (o : Option (Table Nat Added)),
      l.foldl (fun o e => o.bind (fun tx => applyAddition tx e)) o = o.bind (fun tx => applyAdditions tx l) := by
    intro l
    induction l with
    | nil => intro o; cases o <;> rfl
    | cons x l ih =>
      intro o
      rw [List.foldl_cons, ih]
      cases o with
      | none => rfl
      | some tx =>
        simp only [Option.bind_some, applyAdditions, List.foldl_cons]
        rw [ih]
        rfl
  rw [applyAdditions, List.foldl_cons, key]
  rfl

/-- An added cell with its delayed references. -/
def withLate (d : Nat) (a : Added) : Added := { a with additions := a.additions + d }

theorem applyAdditions_ok (l : Table Nat Nat) (tx : Table Nat Added) (hu : Uniq tx) (hl : Uniq l)
    (hm : ∀ e ∈ l, (get tx e.1).isSome) :
    ∃ tx', applyAdditions tx l = some tx' ∧ Uniq tx' ∧
      ∀ h, get tx' h = (get tx h).map (withLate (late l h)) := by
  induction l generalizing tx with
  | nil =>
    refine ⟨tx, rfl, hu, ?_⟩
    intro h
    cases hg : get tx h <;> simp [late, withLate, get_nil]
  | cons e l ih =>
    rw [applyAdditions_cons]
    simp only [Uniq, List.map_cons, List.nodup_cons] at hl
    have hnone : get l e.1 = none := by
      cases hg : get l e.1 with
      | none => rfl
      | some v => exact absurd (List.mem_map_of_mem (f := (·.1)) (mem_of_get hg)) hl.1
    have hlate : ∀ h, late (e :: l) h = if h = e.1 then e.2 else late l h := by
      intro h
      unfold late
      simp only [Table.get]
      by_cases hh : e.1 = h
      · simp [hh]
      · simp [hh, Ne.symm hh]
    obtain ⟨a, ha⟩ := Option.isSome_iff_exists.1 (hm e (by simp))
    unfold applyAddition
    split
    · rw [ha]
      simp only [Option.bind_some]
      obtain ⟨tx', h1, h2, h3⟩ := ih (put tx e.1 { a with additions := a.additions + e.2 }) (uniq_put _ _ _ hu) hl.2 (by
        intro x hx
        rw [get_put]
        split
        · rfl
        · exact hm x (by simp [hx]))
      refine ⟨tx', h1, h2, ?_⟩
      intro h
      rw [h3, get_put, hlate]
      by_cases hh : h = e.1
      · subst hh
        have : late l e.1 = 0 := by simp [late, hnone]
        simp [ha, withLate, this]
      · simp [hh]
    · rename_i hz
      simp only [Option.bind_some]
      obtain ⟨tx', h1, h2, h3⟩ := ih tx hu hl.2 (fun x hx => hm x (by simp [hx]))
      refine ⟨tx', h1, h2, ?_⟩
      intro h
      rw [h3, hlate]
      by_cases hh : h = e.1
      · subst hh
        have : late l e.1 = 0 := by simp [late, hnone]
        have : e.2 = 0 := by omega
        simp [*]
      · simp [hh]

/-! ### The nursery -/

theorem insertEntries_ok (n : Table Nat NEntry) (l : List (Nat × NEntry)) (hu : Uniq n) (hl : (l.map (·.1)).Nodup)
    (hn : ∀ e ∈ l, get n e.1 = none) :
    ∃ n', insertEntries n l = some n' ∧ Uniq n' ∧ (∀ e ∈ l, get n' e.1 = some e.2) ∧
      (∀ h, (∀ e ∈ l, e.1 ≠ h) → get n' h = get n h) := by
  induction l generalizing n with
  | nil => exact ⟨n, rfl, hu, by simp, by simp⟩
  | cons e l ih =>
    simp only [List.map_cons, List.nodup_cons] at hl
    have h0 := hn e (by simp)
    obtain ⟨n', h1, h2, h3, h4⟩ := ih (put n e.1 e.2) (uniq_put _ _ _ hu) hl.2 (by
      intro x hx
      have : x.1 ≠ e.1 := fun he => hl.1 (he ▸ List.mem_map_of_mem hx)
      rw [get_put, if_neg this]
      exact hn x (by simp [hx]))
    refine ⟨n', ?_, h2, ?_, ?_⟩
    · rw [insertEntries, h0]; exact h1
    · intro x hx
      rcases List.mem_cons.1 hx with rfl | hx
      · rw [h4 x.1 (fun y hy he => hl.1 (he ▸ List.mem_map_of_mem hy)), get_put, if_pos rfl]
      · exact h3 x hx
    · intro h hh
      rw [h4 h (fun x hx => hh x (by simp [hx])), get_put, if_neg (Ne.symm (hh e (by simp)))]

theorem mem_promoted {s : Store} {round h : Nat} {r : Row} :
    (h, r) ∈ promoted s round ↔ ∃ e, get s.nursery h = some e ∧ ripe round e.born = true ∧ (e.born, h) ∈ s.byRound ∧
      r = { idx := e.idx, refs := e.refs } := by
  unfold promoted
  simp only [List.mem_filterMap, List.mem_filter]
  constructor
  · rintro ⟨⟨b, x⟩, ⟨h1, h2⟩, h3⟩
    simp only at h2 h3
    cases hg : get s.nursery x with
    | none => rw [hg] at h3; cases h3
    | some e =>
      rw [hg] at h3
      simp only at h3
      split at h3
      · rename_i hb
        simp only [Option.some.injEq, Prod.mk.injEq] at h3
        obtain ⟨rfl, rfl⟩ := h3
        subst hb
        exact ⟨e, hg, h2, h1, rfl⟩
      · cases h3
  · rintro ⟨e, hg, h2, h3, rfl⟩
    exact ⟨(e.born, h), ⟨h3, h2⟩, by simp [hg]⟩

theorem promoted_key {s : Store} {round h : Nat} :
    h ∈ (promoted s round).map (·.1) ↔ ∃ e, get s.nursery h = some e ∧ ripe round e.born = true ∧
      (e.born, h) ∈ s.byRound := by
  rw [List.mem_map]
  constructor
  · rintro ⟨⟨x, r⟩, hm, rfl⟩
    obtain ⟨e, h1, h2, h3, _⟩ := mem_promoted.1 hm
    exact ⟨e, h1, h2, h3⟩
  · rintro ⟨e, h1, h2, h3⟩
    exact ⟨(h, ⟨e.idx, e.refs⟩), mem_promoted.2 ⟨e, h1, h2, h3, rfl⟩, rfl⟩

/-- A table after promoted rows are put into it. -/
theorem get_promoted (s : Store) (round : Nat) (t : Table Nat Row) (h : Nat) :
    get (putAll t (promoted s round)) h =
      if h ∈ (promoted s round).map (·.1) then (get s.nursery h).map (fun e => { idx := e.idx, refs := e.refs })
      else get t h := by
  split
  · rename_i hm
    obtain ⟨e, he, hk⟩ := List.mem_map.1 hm
    obtain ⟨v, hv, hg⟩ := get_putAll_key t (promoted s round) h ⟨e, he, hk⟩
    obtain ⟨e', h1, _, _, rfl⟩ := mem_promoted.1 hv
    rw [hg, h1]; rfl
  · rename_i hm
    apply get_putAll_not
    intro e he hk
    exact hm (List.mem_map.2 ⟨e, he, hk⟩)

theorem card_fp_le (fp : Nat → Nat) (f : Nat) (l : List Nat) :
    (l.toFinset.filter (fun h => fp h = f)).card ≤ (l.map fp).count f := by
  induction l with
  | nil => simp
  | cons x l ih =>
    rw [List.toFinset_cons, Finset.filter_insert, List.map_cons, List.count_cons]
    split
    · rename_i hx
      have := Finset.card_insert_le x (l.toFinset.filter (fun h => fp h = f))
      simp only [hx, beq_self_eq_true, if_true]
      omega
    · omega

/-! ### The commit -/

/-- The transaction handed to the commit. -/
structure TxOk (w : World) (s : Store) (root next : Nat) (tx : Table Nat Added) : Prop where
  uTx : Uniq tx
  ent : ∀ h a, get tx h = some a → EntryOk w s next h a
  le : s.counters.nextIdx ≤ next
  inj : ∀ h h' a a', get tx h = some a → get tx h' = some a' → a.data.isSome → a'.data.isSome → a.idx = a'.idx → h = h'
  eqn : ∀ h, (match get tx h with | some a => a.additions | none => 0) =
    (if h = root then 1 else 0) + inDeg w (newSet tx) h

theorem SInv.txOk {w : World} {s : Store} {root : Nat} {t : StoreTx} (I : SInv w s root t) (hp : t.pending = []) :
    ∃ tx, applyAdditions t.tx t.delayed = some tx ∧ TxOk w s root t.nextIdx tx := by
  obtain ⟨tx, h1, h2, h3⟩ := applyAdditions_ok t.delayed t.tx I.uTx I.uDl (by
    intro e he
    rcases I.spawned e.1 (by rw [get_of_mem I.uDl he]; rfl) with h | h
    · exact h
    · rw [hp] at h; simp at h)
  have hnew : newSet tx = newSet t.tx := by
    ext x
    rw [mem_newSet, mem_newSet, h3]
    cases get t.tx x <;> simp [isNew, withLate]
  refine ⟨tx, h1, h2, ?_, I.le, ?_, ?_⟩
  · intro h a ha
    rw [h3] at ha
    obtain ⟨b, hb, rfl⟩ := Option.map_eq_some_iff.1 ha
    obtain ⟨k1, k2⟩ := I.ent h b hb
    exact ⟨by simp only [withLate]; omega, k2⟩
  · intro h h' a a' ha ha' hd hd' hi
    rw [h3] at ha ha'
    obtain ⟨b, hb, rfl⟩ := Option.map_eq_some_iff.1 ha
    obtain ⟨b', hb', rfl⟩ := Option.map_eq_some_iff.1 ha'
    exact I.inj h h' b b' hb hb' hd hd' hi
  · intro h
    have := I.eqn h
    rw [hp] at this
    rw [hnew, ← this, h3]
    simp only [adds, pend, List.countP_nil]
    cases hg : get t.tx h with
    | some a => simp [withLate]
    | none =>
      have : late t.delayed h = 0 := by
        unfold late
        cases hd : get t.delayed h with
        | none => rfl
        | some n =>
          rcases I.spawned h (by rw [hd]; rfl) with k | k
          · rw [hg] at k; cases k
          · rw [hp] at k; simp at k
      simp [this]

theorem addedTransition_new {w : World} {s : Store} {next h : Nat} {a : Added} (he : EntryOk w s next h a) :
    (addedTransition a).newRaw = a.oldRc + a.additions := by
  unfold addedTransition
  obtain ⟨_, ⟨i, _, _, _, hd⟩ | ⟨_, _, _, h0, hd⟩⟩ := he
  · simp [hd]
  · simp [hd, h0]

theorem TxOk.contract {w : World} {s : Store} {roots : Nat → Nat} {rcI : Counters.Rc} (J : Inv w s roots rcI)
    {root next : Nat} {tx : Table Nat Added} (T : TxOk w s root next tx) :
    Counters.Contract rcI next (tx.map (fun e => addedTransition e.2)) := by
  have hidx : ∀ e ∈ tx, ∀ e' ∈ tx, e.2.idx = e'.2.idx → e = e' := by
    intro e he e' he' hi
    have hg := get_of_mem T.uTx he
    have hg' := get_of_mem T.uTx he'
    have hk : e.1 = e'.1 := by
      obtain ⟨_, ⟨i, h2, h3, _, _⟩ | ⟨h2, h3, h4, _, h5⟩⟩ := T.ent _ _ hg <;>
        obtain ⟨_, ⟨i', k2, k3, _, _⟩ | ⟨k2, k3, k4, _, k5⟩⟩ := T.ent _ _ hg'
      · exact J.inj _ _ i h2 (by rw [k2, ← k3, ← hi, h3])
      · have := (J.idx_lt h2).1; omega
      · have := (J.idx_lt k2).1; omega
      · exact T.inj _ _ _ _ hg hg' (by rw [h5]; rfl) (by rw [k5]; rfl) hi
    rw [hk, hg'] at hg
    exact Prod.ext hk (Option.some.inj hg).symm
  refine ⟨?_, ?_, ?_⟩
  · rw [List.map_map]
    have hnd : tx.Nodup := List.Nodup.of_map _ T.uTx
    exact (List.nodup_map_iff_inj_on hnd).2 hidx
  · intro t ht
    obtain ⟨e, he, rfl⟩ := List.mem_map.1 ht
    obtain ⟨_, ⟨i, h2, h3, h4, _⟩ | ⟨h2, h3, h4, h5, _⟩⟩ := T.ent _ _ (get_of_mem T.uTx he)
    · show e.2.oldRc = rcI e.2.idx
      rw [h4, h3, (J.idx_lt h2).2.2, J.rc _ i h2]
    · show e.2.oldRc = rcI e.2.idx
      rw [h5, J.repr.fresh _ h3]
  · intro t ht
    obtain ⟨e, he, rfl⟩ := List.mem_map.1 ht
    show e.2.idx < next
    obtain ⟨_, ⟨i, h2, h3, h4, _⟩ | ⟨h2, h3, h4, h5, _⟩⟩ := T.ent _ _ (get_of_mem T.uTx he)
    · have := (J.idx_lt h2).1
      have := T.le
      omega
    · exact h4

theorem grow_repr {c : Counters.Counters} {rc : Counters.Rc} (h : Counters.Repr c rc) {m : Nat} (hm : c.nextIdx ≤ m) :
    Counters.Repr { c with nextIdx := m } rc := by
  refine ⟨h.present, h.large, h.small, ?_, fun i hi => h.fresh i (by simp only at hi; omega), h.uniq⟩
  have hl := h.live
  simp only
  rw [hl]
  clear hl
  induction m, hm using Nat.le_induction with
  | base => rfl
  | succ m hm ih =>
    rw [ih]
    unfold Counters.liveCount
    rw [List.range_succ, List.filter_append, List.length_append]
    simp [h.fresh m hm]

/-- The nursery records of a transaction. -/
theorem inserts_mem {w : World} {s : Store} {root next : Nat} {tx : Table Nat Added} (T : TxOk w s root next tx)
    (round : Nat) (e : Nat × NEntry) :
    e ∈ tx.filterMap (addedEntry round) ↔ ∃ a, get tx e.1 = some a ∧ a.data.isSome ∧
      e.2 = { idx := a.idx, born := round, refs := w.refs e.1 } := by
  rw [List.mem_filterMap]
  constructor
  · rintro ⟨⟨h, a⟩, hm, hx⟩
    have hg := get_of_mem T.uTx hm
    simp only [addedEntry, Option.map_eq_some_iff] at hx
    obtain ⟨refs, hd, rfl⟩ := hx
    refine ⟨a, hg, by rw [hd]; rfl, ?_⟩
    obtain ⟨_, ⟨i, _, _, _, h5⟩ | ⟨_, _, _, _, h5⟩⟩ := T.ent _ _ hg
    · rw [hd] at h5; cases h5
    · rw [hd] at h5; injection h5 with h5; simp only at h5 ⊢; rw [h5]
  · rintro ⟨a, hg, hd, he⟩
    refine ⟨(e.1, a), mem_of_get hg, ?_⟩
    obtain ⟨_, ⟨i, _, _, _, h5⟩ | ⟨_, _, _, _, h5⟩⟩ := T.ent _ _ hg
    · rw [h5] at hd; cases hd
    · simp only [addedEntry, h5, Option.map_some, Option.some.injEq]
      exact Prod.ext rfl he.symm

theorem inserts_nodup {tx : Table Nat Added} (hu : Uniq tx) (round : Nat) :
    ((tx.filterMap (addedEntry round)).map (·.1)).Nodup := by
  have : ((tx.filterMap (addedEntry round)).map (·.1)).Sublist (tx.map (·.1)) := by
    clear hu
    induction tx with
    | nil => simp
    | cons e tx ih =>
      rw [List.filterMap_cons]
      cases hd : addedEntry round e with
      | none => simp only [List.map_cons]; exact ih.cons _
      | some x =>
        have : x.1 = e.1 := by
          simp only [addedEntry, Option.map_eq_some_iff] at hd
          obtain ⟨_, _, rfl⟩ := hd
          rfl
        simp only [List.map_cons, this]
        exact ih.cons₂ _
  exact hu.sublist this

/-- The state a commit leaves. -/
theorem storeCommit_inv {w : World} {s : Store} {roots : Nat → Nat} {rcI : Counters.Rc} (J : Inv w s roots rcI)
    (hb : s.batch = none) {root next : Nat} {tx : Table Nat Added} (T : TxOk w s root next tx) (round : Nat) :
    ∃ s' rcI', storeCommit w s next tx round = some s' ∧
      Inv w s' (fun h => if h = root then roots h + 1 else roots h) rcI' := by
  have hd : durable s = s.cells := by unfold durable; rw [hb]
  have hins := inserts_mem T round
  have hnd := inserts_nodup T.uTx round
  -- the entries of new cells are not in the nursery
  have hnew : ∀ h a, get tx h = some a → a.data.isSome → rowIdx s h = none := by
    intro h a hg hda
    obtain ⟨_, ⟨i, _, _, _, h5⟩ | ⟨h2, _⟩⟩ := T.ent _ _ hg
    · rw [h5] at hda; cases hda
    · exact h2
  have hnone : ∀ h, rowIdx s h = none → get s.nursery h = none ∧ get s.cells h = none := by
    intro h hr
    unfold rowIdx at hr
    rw [hd] at hr
    cases hg : get s.nursery h with
    | some e => rw [hg] at hr; cases hr
    | none => rw [hg] at hr; exact ⟨rfl, by simpa using hr⟩
  obtain ⟨n1, hn1, un1, in1, out1⟩ := insertEntries_ok s.nursery (tx.filterMap (addedEntry round)) J.uNur hnd (by
    intro e he
    obtain ⟨a, hg, hda, _⟩ := (hins e).1 he
    exact (hnone _ (hnew _ _ hg hda)).1)
  -- the nursery of the new state
  let prom := promoted s round
  have hnur : applyCommit s.nursery (tx.filterMap (addedEntry round)) (prom.map (·.1)) =
      some (del n1 (fun h => (prom.map (·.1)).contains h)) := by
    unfold applyCommit; rw [hn1]; rfl
  have hcb := TxOk.contract J T
  obtain ⟨hrep, hnext⟩ := Counters.runBatch_repr (grow_repr J.repr T.le) hcb
  let s' : Store :=
    { cells := s.cells
      batch := some { puts := prom, deletes := [] }
      nursery := del n1 (fun h => (prom.map (·.1)).contains h)
      byRound := s.byRound.filter (fun p => !ripe round p.1) ++
        (tx.filterMap (addedEntry round)).map (fun e => (e.2.born, e.1))
      filter := s.filter ++ prom.map (fun e => w.fp e.1)
      cache := putAll s.cache prom
      counters := Counters.runBatch { s.counters with nextIdx := next } (tx.map (fun e => addedTransition e.2)) }
  refine ⟨s', rcI.setAll (tx.map (fun e => addedTransition e.2)), ?_, ?_⟩
  · simp only [storeCommit]; rw [hnur]
  -- look-ups in the new state
  have hd' : durable s' = putAll s.cells prom := by
    show applyBatch s.cells { puts := prom, deletes := [] } = _
    unfold applyBatch
    have : del s.cells (fun h => ([] : List Nat).contains h) = s.cells := by simp [del]
    simp only
    rw [this]
  have hgd : ∀ h, get (durable s') h = if h ∈ prom.map (·.1) then
      (get s.nursery h).map (fun e => { idx := e.idx, refs := e.refs }) else get s.cells h := by
    intro h; rw [hd']; exact get_promoted s round s.cells h
  have hn1get : ∀ h, get n1 h = match get tx h with
      | some a => if a.data.isSome then some { idx := a.idx, born := round, refs := w.refs h } else get s.nursery h
      | none => get s.nursery h := by
    intro h
    cases hg : get tx h with
    | none =>
      apply out1
      rintro e he rfl
      obtain ⟨a, hg', _, _⟩ := (hins e).1 he
      rw [hg] at hg'; cases hg'
    | some a =>
      simp only
      split
      · rename_i hda
        exact in1 (h, _) ((hins _).2 ⟨a, hg, hda, rfl⟩)
      · rename_i hda
        apply out1
        rintro e he rfl
        obtain ⟨a', hg', hda', _⟩ := (hins e).1 he
        rw [hg] at hg'
        obtain rfl := Option.some.inj hg'
        exact hda hda'
  have hgn : ∀ h, get s'.nursery h = if h ∈ prom.map (·.1) then none else get n1 h := by
    intro h
    show get (del n1 _) h = _
    rw [get_del]
    simp only [List.contains_iff_mem]
  have hpromNur : ∀ h, h ∈ prom.map (·.1) → ∃ e, get s.nursery h = some e := by
    intro h hm
    obtain ⟨e, h1, _⟩ := promoted_key.1 hm
    exact ⟨e, h1⟩
  have hNurRow : ∀ h e, get s.nursery h = some e → rowIdx s h = some e.idx := by
    intro h e he; unfold rowIdx; rw [he]
  have hCellRow : ∀ h, get s.nursery h = none → rowIdx s h = (get s.cells h).map (·.idx) := by
    intro h he; unfold rowIdx; rw [he, hd]
  have hrow : ∀ h, rowIdx s' h = match rowIdx s h with
      | some i => some i
      | none => (get tx h).map (·.idx) := by
    intro h
    show (match get s'.nursery h with | some e => some e.idx | none => (get (durable s') h).map (fun r : Row => r.idx)) = _
    rw [hgn, hgd, hn1get]
    by_cases hm : h ∈ prom.map (·.1)
    · obtain ⟨e, he⟩ := hpromNur h hm
      simp [hm, he, hNurRow h e he]
    · simp only [hm, if_false]
      cases hg : get tx h with
      | none =>
        simp only
        cases hn : get s.nursery h with
        | some e => simp [hNurRow h e hn]
        | none =>
          rw [hCellRow h hn]
          cases get s.cells h <;> rfl
      | some a =>
        simp only
        obtain ⟨_, ⟨i, h2, h3, _, h5⟩ | ⟨h2, _, _, _, h5⟩⟩ := T.ent _ _ hg
        · rw [h2]
          simp only [h5, Option.isSome_none, Bool.false_eq_true, if_false]
          cases hn : get s.nursery h with
          | some e => have := hNurRow h e hn; rw [h2] at this; simpa using this.symm
          | none => have := hCellRow h hn; rw [h2] at this; simpa using this.symm
        · rw [h2]; simp [h5]
  have hlive : live s' = live s ∪ newSet tx := by
    ext h
    rw [mem_live, Finset.mem_union, mem_live, mem_newSet, hrow]
    cases hr : rowIdx s h with
    | some i => simp
    | none =>
      simp only [Option.isSome_none, Bool.false_eq_true, false_or, isNew]
      cases hg : get tx h with
      | none => simp
      | some a =>
        obtain ⟨_, ⟨i, h2, _⟩ | ⟨h2, _, _, _, h5⟩⟩ := T.ent _ _ hg
        · rw [hr] at h2; cases h2
        · simp [h5]
  have hdisj : ∀ h ∈ live s, h ∉ newSet tx := by
    intro h hl hn
    rw [mem_live] at hl
    rw [mem_newSet] at hn
    cases hg : get tx h with
    | none => rw [hg] at hn; cases hn
    | some a =>
      rw [hg] at hn
      rw [hnew h a hg hn] at hl
      cases hl
  have huses : ∀ h, uses w s' (fun h => if h = root then roots h + 1 else roots h) h =
      uses w s roots h + (match get tx h with | some a => a.additions | none => 0) := by
    intro h
    unfold uses
    rw [hlive, inDeg_union w _ _ _ hdisj, T.eqn h]
    by_cases hh : h = root <;> simp [hh] <;> omega
  have hnl : ∀ h, rowIdx s h = none → uses w s roots h = 0 := by
    intro h hr
    by_contra hc
    have := (J.liveUses h).2 (by omega)
    rw [mem_live, hr] at this
    cases this
  refine ⟨?_, ?_, ?_, ?_, ?_, ?_, ?_, ?_, ?_, ?_, ?_, ?_, ?_, ?_⟩
  · exact uniq_del _ _ un1
  · exact J.uCells
  · intro h hs
    rw [hgn] at hs
    rw [hgd]
    by_cases hm : h ∈ prom.map (·.1)
    · rw [if_pos hm] at hs; cases hs
    · rw [if_neg hm] at hs ⊢
      rw [hn1get] at hs
      cases hg : get tx h with
      | none =>
        rw [hg] at hs
        have := J.disj h hs
        rwa [hd] at this
      | some a =>
        rw [hg] at hs
        by_cases hda : a.data.isSome
        · exact (hnone h (hnew h a hg hda)).2
        · simp only [hda, Bool.false_eq_true, if_false] at hs
          have := J.disj h hs
          rwa [hd] at this
  · rintro b hbb ⟨h, r⟩ he
    injection hbb with hbb
    subst hbb
    obtain ⟨e, h1, _⟩ := mem_promoted.1 he
    have := J.disj h (by rw [h1]; rfl)
    rwa [hd] at this
  · intro h e he
    rw [hgn] at he
    split at he
    · cases he
    · rw [hn1get] at he
      cases hg : get tx h with
      | none => rw [hg] at he; exact J.nData h e he
      | some a =>
        rw [hg] at he
        simp only at he
        split at he
        · obtain rfl := Option.some.inj he; rfl
        · exact J.nData h e he
  · intro h r hr
    rw [hgd] at hr
    split at hr
    · obtain ⟨e, he, rfl⟩ := Option.map_eq_some_iff.1 hr
      exact J.nData h e he
    · exact J.cData h r (by rw [hd]; exact hr)
  · intro h
    rw [huses, hlive, Finset.mem_union, J.liveUses h, mem_newSet]
    cases hg : get tx h with
    | none => simp [isNew]
    | some a =>
      have := (T.ent h a hg).1
      simp only [isNew]
      constructor
      · intro _; omega
      · intro _
        obtain ⟨_, ⟨i, h2, _⟩ | ⟨h2, _, _, _, h5⟩⟩ := T.ent _ _ hg
        · left
          apply (J.liveUses h).1
          rw [mem_live, h2]; rfl
        · right; rw [h5]; rfl
  · intro h h' i hr hr'
    rw [hrow] at hr hr'
    cases h1 : rowIdx s h with
    | some j =>
      rw [h1] at hr
      obtain rfl := Option.some.inj hr
      cases h2 : rowIdx s h' with
      | some j' =>
        rw [h2] at hr'
        obtain rfl := Option.some.inj hr'
        exact J.inj h h' j' h1 h2
      | none =>
        rw [h2] at hr'
        obtain ⟨a, ha, hai⟩ := Option.map_eq_some_iff.1 hr'
        obtain ⟨_, ⟨k, k2, _⟩ | ⟨_, k3, _⟩⟩ := T.ent _ _ ha
        · rw [h2] at k2; cases k2
        · have := (J.idx_lt h1).1; omega
    | none =>
      rw [h1] at hr
      obtain ⟨a, ha, hai⟩ := Option.map_eq_some_iff.1 hr
      obtain ⟨_, ⟨k, k2, _⟩ | ⟨_, k3, _, _, k5⟩⟩ := T.ent _ _ ha
      · rw [h1] at k2; cases k2
      cases h2 : rowIdx s h' with
      | some j' =>
        rw [h2] at hr'
        obtain rfl := Option.some.inj hr'
        have := (J.idx_lt h2).1; omega
      | none =>
        rw [h2] at hr'
        obtain ⟨a', ha', hai'⟩ := Option.map_eq_some_iff.1 hr'
        obtain ⟨_, ⟨k', k2', _⟩ | ⟨_, k3', _, _, k5'⟩⟩ := T.ent _ _ ha'
        · rw [h2] at k2'; cases k2'
        · exact T.inj h h' a a' ha ha' (by rw [k5]; rfl) (by rw [k5']; rfl) (by omega)
  · exact hrep
  · intro h i hr
    rw [huses]
    have hmem : ∀ a, get tx h = some a → rcI.setAll (tx.map (fun e => addedTransition e.2)) a.idx =
        a.oldRc + a.additions := by
      intro a ha
      have hm : addedTransition a ∈ tx.map (fun e => addedTransition e.2) :=
        List.mem_map.2 ⟨(h, a), mem_of_get ha, rfl⟩
      have := Counters.setAll_mem rcI hcb.once hm
      rw [addedTransition_new (T.ent h a ha)] at this
      exact this
    rw [hrow] at hr
    cases h1 : rowIdx s h with
    | some j =>
      rw [h1] at hr
      obtain rfl := Option.some.inj hr
      cases hg : get tx h with
      | some a =>
        have hma := hmem a hg
        obtain ⟨_, ⟨k, k2, k3, k4, _⟩ | ⟨k2, _⟩⟩ := T.ent _ _ hg
        · rw [h1] at k2
          obtain rfl := Option.some.inj k2
          rw [← k3, hma, k4, (J.idx_lt h1).2.2]
        · rw [h1] at k2; cases k2
      | none =>
        rw [Counters.setAll_not, J.rc h j h1]
        · simp
        · intro t ht hti
          obtain ⟨⟨x, a⟩, he, rfl⟩ := List.mem_map.1 ht
          have hx := get_of_mem T.uTx he
          have hti : a.idx = j := hti
          obtain ⟨_, ⟨k, k2, k3, _, _⟩ | ⟨_, k3, _⟩⟩ := T.ent _ _ hx
          · have : h = x := J.inj h x j h1 (by rw [k2, ← k3]; simp only; rw [hti])
            subst this
            rw [hg] at hx; cases hx
          · have := (J.idx_lt h1).1
            simp only at k3
            omega
    | none =>
      rw [h1] at hr
      obtain ⟨a, ha, rfl⟩ := Option.map_eq_some_iff.1 hr
      rw [hmem a ha, ha, hnl h h1]
      obtain ⟨_, ⟨k, k2, _⟩ | ⟨_, _, _, k4, _⟩⟩ := T.ent _ _ ha
      · rw [h1] at k2; cases k2
      · simp only
        omega
  · intro i hi
    by_cases hm : ∃ t ∈ tx.map (fun e => addedTransition e.2), t.idx = i
    · obtain ⟨t, ht, rfl⟩ := hm
      obtain ⟨⟨x, a⟩, he, rfl⟩ := List.mem_map.1 ht
      have hx := get_of_mem T.uTx he
      refine ⟨x, ?_⟩
      rw [hrow]
      obtain ⟨_, ⟨k, k2, k3, _⟩ | ⟨k2, _⟩⟩ := T.ent _ _ hx
      · simp only at k2 k3 ⊢
        rw [k2]; exact congrArg some k3.symm
      · simp only at k2 hx ⊢
        rw [k2, hx]; rfl
    · rw [Counters.setAll_not rcI (fun t ht he => hm ⟨t, ht, he⟩)] at hi
      obtain ⟨h, hr⟩ := J.own i hi
      exact ⟨h, by rw [hrow, hr]⟩
  · intro f
    have hk : keys (durable s') = keys s.cells ∪ (prom.map (·.1)).toFinset := by
      ext h
      rw [mem_keys, Finset.mem_union, mem_keys, List.mem_toFinset, hgd]
      by_cases hm : h ∈ prom.map (·.1)
      · obtain ⟨e, he⟩ := hpromNur h hm
        simp [hm, he]
      · simp [hm]
    rw [hk, Finset.filter_union]
    have h1 := Finset.card_union_le ((keys s.cells).filter (fun h => w.fp h = f))
      ((prom.map (·.1)).toFinset.filter (fun h => w.fp h = f))
    have h2 := card_fp_le w.fp f (prom.map (·.1))
    have h3 := J.filt f
    rw [hd] at h3
    show _ ≤ (s.filter ++ prom.map (fun e => w.fp e.1)).count f
    rw [List.count_append]
    rw [List.map_map] at h2
    have h4 : (List.map (w.fp ∘ fun x => x.1) prom) = prom.map (fun e => w.fp e.1) := rfl
    rw [h4] at h2
    omega
  · intro h r hr
    rw [hgd]
    have hg := get_promoted s round s.cache h
    have hr' : get (putAll s.cache prom) h = some r := hr
    rw [hg] at hr'
    by_cases hm : h ∈ prom.map (·.1)
    · rw [if_pos hm] at hr' ⊢; exact hr'
    · rw [if_neg hm] at hr' ⊢
      have := J.cache h r hr'
      rwa [hd] at this
  · intro h e he
    rw [hgn] at he
    show (e.born, h) ∈ s.byRound.filter (fun p => !ripe round p.1) ++ _
    split at he
    · cases he
    · rename_i hm
      rw [hn1get] at he
      rw [List.mem_append]
      have hold : get s.nursery h = some e → (e.born, h) ∈ s.byRound.filter (fun p => !ripe round p.1) := by
        intro hn
        rw [List.mem_filter]
        refine ⟨J.rounds h e hn, ?_⟩
        cases hrp : ripe round e.born with
        | false => rfl
        | true => exact absurd (promoted_key.2 ⟨e, hn, hrp, J.rounds h e hn⟩) hm
      cases hg : get tx h with
      | none => rw [hg] at he; exact Or.inl (hold he)
      | some a =>
        rw [hg] at he
        simp only at he
        split at he
        · rename_i hda
          right
          obtain rfl := Option.some.inj he
          exact List.mem_map.2 ⟨_, (hins (h, _)).2 ⟨a, hg, hda, rfl⟩, rfl⟩
        · exact Or.inl (hold he)

/-- `store_cell_mt` succeeds under every schedule and keeps the invariant for one more root. -/
theorem store_inv {w : World} {s : Store} {roots : Nat → Nat} {rcI : Counters.Rc} (J : Inv w s roots rcI)
    (hb : s.batch = none) (root : Nat) (split : Nat → Bool) (sched : Nat → Nat) (round : Nat) :
    ∃ s' rcI', store w s root split sched round = some s' ∧
      Inv w s' (fun h => if h = root then roots h + 1 else roots h) rcI' := by
  have hI := storeRun_inv J hb split (fuel w root) sched (SInv.start w s root)
  have hp := storeRun_ends w split s (fuel w root) sched (storeStart s root) (by
    simp [storeStart, work_cons, work_nil, fuel])
  obtain ⟨tx, h1, h2⟩ := hI.txOk hp
  obtain ⟨s', rcI', h3, h4⟩ := storeCommit_inv J hb h2 round
  refine ⟨s', rcI', ?_, h4⟩
  simp only [store]
  rw [h1]
  exact h3

end Tycho.CellStore
