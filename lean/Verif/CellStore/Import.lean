import Verif.CellStore.Flush

/-! The import of a tree from the temporary table. -/
namespace Tycho.CellStore
open Tycho.Table

/-- What is on the stack, as tasks. -/
def stackTasks (st : List (List Nat)) : List Task := st.flatten.map (fun c => ⟨c, 4, false⟩)

/-- The transaction as one of `store_cell_mt`. -/
def ImportTx.asStore (t : ImportTx) : StoreTx := { tx := t.tx, delayed := [], nextIdx := t.nextIdx, pending := stackTasks t.stack }

theorem SInv.pending {w : World} {s : Store} {root n : Nat} {tx : Table Nat Added} {p p' : List Task} (I : SInv w s root ⟨tx, [], n, p⟩)
    (h : ∀ x, pend p x = pend p' x) : SInv w s root ⟨tx, [], n, p'⟩ := by
  refine ⟨I.uTx, I.uDl, I.ent, I.le, I.inj, ?_, ?_⟩
  · intro x
    have := I.eqn x
    simp only [adds] at this ⊢
    rw [← h x]
    exact this
  · intro x hx; cases hx

theorem pend_tasks (l : List Nat) (x : Nat) : pend (l.map (fun c => (⟨c, 4, false⟩ : Task))) x = l.count x := by
  unfold pend
  rw [List.countP_map, List.count]
  rfl

/-- What the walk keeps. -/
structure IInv (w : World) (s : Store) (root : Nat) (t : ImportTx) : Prop where
  sinv : SInv w s root t.asStore
  rows : ∀ h, get (putAll t.cells t.batch) h = match get t.tx h with
    | some a => (match a.data with | some refs => some { idx := a.idx, refs } | none => get s.cells h)
    | none => get s.cells h
  old : ∀ h, get t.tx h = none → get t.cells h = get s.cells h
  uCells : Uniq t.cells
  sub : ∀ f, f ∈ s.filter → f ∈ t.filter
  filt : ∀ f, s.filter.count f + ((newSet t.tx).filter (fun h => w.fp h = f)).card ≤ t.filter.count f
  reach : ∀ l ∈ t.stack, ∀ h ∈ l, Reach w root h

section
variable {w : World} {s : Store} {roots : Nat → Nat} {rcI : Counters.Rc}

theorem IInv.start (hu : Uniq s.cells) (root : Nat) : IInv w s root (importStart s root) := by
  refine ⟨?_, ?_, ?_, hu, fun _ h => h, ?_, ?_⟩
  · have := SInv.start w s root
    unfold storeStart at this
    exact this.pending (fun x => by simp [stackTasks, importStart, pend])
  · intro h; rfl
  · intro h _; rfl
  · intro f; simp [importStart, newSet, keys]
  · intro l hl h hh
    simp only [importStart, List.mem_singleton] at hl
    subst hl
    simp only [List.mem_singleton] at hh
    subst hh
    exact .refl _

theorem importExisting_eq (J : Inv w s roots rcI) (hb : s.batch = none) (hn : s.nursery = []) {root : Nat} {t : ImportTx} (I : IInv w s root t) {h : Nat}
    (hg : get t.tx h = none) : importExisting w s t h = rowIdx s h := by
  have hd : durable s = s.cells := by unfold durable; rw [hb]
  have hrow : rowIdx s h = (get s.cells h).map (·.idx) := by unfold rowIdx; rw [hn, hd]; rfl
  rw [hrow]
  unfold importExisting
  rw [I.old h hg]
  cases hc : get s.cells h with
  | none =>
    have : get s.cache h = none := by
      cases hk : get s.cache h with
      | none => rfl
      | some r => have := J.cache h r hk; rw [hd, hc] at this; cases this
    rw [this]
    simp
  | some r =>
    have h1 := J.filterHas (h := h) (by rw [hd, hc]; rfl)
    unfold filterContains at h1
    have h2 : t.filter.contains (w.fp h) = true := by
      rw [List.contains_iff_mem] at h1 ⊢
      exact I.sub _ h1
    rw [if_pos h2]
    cases hk : get s.cache h with
    | none => rfl
    | some r' =>
      have := J.cache h r' hk
      rw [hd, hc] at this
      obtain rfl := Option.some.inj this
      rfl

theorem putAll_append {ν : Type} (t : Table Nat ν) (a b : List (Nat × ν)) : putAll t (a ++ b) = putAll (putAll t a) b := by
  unfold putAll; rw [List.foldl_append]

/-- The flush of a batch changes nothing that matters. -/
theorem IInv.flush {root : Nat} {t : ImportTx} (I : IInv w s root t) (limit : Nat) : IInv w s root (importFlush limit t) := by
  unfold importFlush
  split
  · refine ⟨I.sinv, ?_, ?_, uniq_putAll _ _ I.uCells, I.sub, I.filt, I.reach⟩
    · intro h; exact I.rows h
    · intro h hg
      have h1 := I.rows h
      simp only at hg
      rw [hg] at h1
      exact h1
  · exact I

theorem importFlush_tx (limit : Nat) (t : ImportTx) : (importFlush limit t).stack = t.stack ∧ (importFlush limit t).tx = t.tx := by
  unfold importFlush; split <;> exact ⟨rfl, rfl⟩

theorem importFlush_stack (limit : Nat) (t : ImportTx) (st : List (List Nat)) :
    { importFlush limit t with stack := st } = importFlush limit { t with stack := st } := by
  unfold importFlush; split <;> rfl

/-- One reference of the cell on top of the stack. -/
theorem IInv.cell (J : Inv w s roots rcI) (hb : s.batch = none) (hn : s.nursery = []) {root : Nat} {temp : Nat → Option (List Nat)}
    (ht : ∀ h, Reach w root h → temp h = some (w.refs h)) (limit : Nat) {t : ImportTx} (I : IInv w s root t) {c : Nat} {cs : List Nat} {rest : List (List Nat)}
    (hst : t.stack = (c :: cs) :: rest) : ∃ o t', importCell w s temp limit t c = some (o, t') ∧
      ((o = none ∧ IInv w s root { t' with stack := cs :: rest }) ∨ (o = some (w.refs c) ∧ IInv w s root { t' with stack := w.refs c :: cs :: rest })) := by
  have hrc : Reach w root c := I.reach _ (by rw [hst]; exact List.mem_cons_self) c List.mem_cons_self
  have hreach1 : ∀ l ∈ cs :: rest, ∀ h ∈ l, Reach w root h := by
    intro l hl h hh
    rcases List.mem_cons.1 hl with rfl | hl
    · exact I.reach _ (by rw [hst]; exact List.mem_cons_self) h (List.mem_cons_of_mem _ hh)
    · exact I.reach l (by rw [hst]; exact List.mem_cons_of_mem _ hl) h hh
  have hreach2 : ∀ l ∈ w.refs c :: cs :: rest, ∀ h ∈ l, Reach w root h := by
    intro l hl h hh
    rcases List.mem_cons.1 hl with rfl | hl
    · exact .step hrc hh
    · exact hreach1 l hl h hh
  have hI := I.sinv
  have hp : t.asStore.pending = (⟨c, 4, false⟩ : Task) :: stackTasks (cs :: rest) := by
    unfold ImportTx.asStore stackTasks
    rw [hst]; rfl
  have hins := SInv.insert J hb (task := ⟨c, 4, false⟩) (rest := stackTasks (cs :: rest)) hI (by rw [hp])
  unfold insertAndDescend insertCell at hins
  unfold importCell
  cases hg : get t.tx c with
  | some a =>
    have hg' : get t.asStore.tx c = some a := hg
    simp only [hg'] at hins
    refine ⟨none, _, rfl, Or.inl ⟨rfl, hins, ?_, ?_, I.uCells, I.sub, ?_, hreach1⟩⟩
    · intro h
      simp only [get_put]
      rw [I.rows h]
      by_cases he : h = c
      · subst he; rw [hg, if_pos rfl]
      · rw [if_neg he]
    · intro h hh
      simp only [get_put] at hh
      split at hh
      · cases hh
      · exact I.old h hh
    · intro f
      simp only []
      rw [newSet_put_same (by simp [isNew, hg])]
      exact I.filt f
  | none =>
    have hg' : get t.asStore.tx c = none := hg
    rw [importExisting_eq J hb hn I hg]
    simp only [hg', J.existing_eq hb] at hins
    cases hr : rowIdx s c with
    | some i =>
      simp only [hr] at hins
      refine ⟨none, _, rfl, Or.inl ⟨rfl, hins, ?_, ?_, I.uCells, I.sub, ?_, hreach1⟩⟩
      · intro h
        simp only [get_put]
        rw [I.rows h]
        by_cases he : h = c
        · subst he; rw [hg, if_pos rfl]
        · rw [if_neg he]
      · intro h hh
        simp only [get_put] at hh
        split at hh
        · cases hh
        · exact I.old h hh
      · intro f
        simp only []
        rw [newSet_put_same (by simp [isNew, hg])]
        exact I.filt f
    | none =>
      simp only [hr] at hins
      rw [ht c hrc]
      refine ⟨some (w.refs c), _, rfl, Or.inr ⟨rfl, ?_⟩⟩
      rw [importFlush_stack]
      apply IInv.flush
      refine ⟨?_, ?_, ?_, I.uCells, ?_, ?_, hreach2⟩
      · apply SInv.pending (p := stackTasks (cs :: rest) ++ children (w.refs c) 4) hins
        intro x
        rw [pend_append, pend_children]
        change _ = pend (stackTasks (w.refs c :: cs :: rest)) x
        unfold stackTasks
        rw [pend_tasks, pend_tasks, List.flatten_cons (l := w.refs c), List.count_append]
        omega
      · intro h
        simp only []
        rw [putAll_append]
        change get (put (putAll t.cells t.batch) c _) h = _
        rw [get_put, get_put]
        split
        · rfl
        · exact I.rows h
      · intro h hh
        simp only [get_put] at hh
        split at hh
        · cases hh
        · exact I.old h hh
      · intro f hf; exact List.mem_append_left _ (I.sub f hf)
      · intro f
        simp only []
        rw [newSet_put_new rfl, List.count_append, Finset.filter_insert]
        have := I.filt f
        split
        · next he =>
          have h1 := Finset.card_insert_le c ((newSet t.tx).filter (fun h => w.fp h = f))
          rw [he]
          simp only [List.count_singleton_self]
          omega
        · omega

/-- Enough turns for what is on the stack. -/
def stackWork (w : World) (st : List (List Nat)) : Nat := (st.map (fun l => 1 + (l.map (fun c => 2 * w.size c)).sum)).sum

theorem refs_work (w : World) (c : Nat) : 1 + ((w.refs c).map (fun c => 2 * w.size c)).sum < 2 * w.size c := by
  have h1 := w.size_spec c
  have h2 : ∀ l : List Nat, (l.map (fun c => 2 * w.size c)).sum + 2 * l.length = 2 * (l.map (fun c => w.size c + 1)).sum := by
    intro l
    induction l with
    | nil => rfl
    | cons x l ih => simp only [List.map_cons, List.sum_cons, List.length_cons]; omega
  have := h2 (w.refs c)
  omega

theorem IInv.step (J : Inv w s roots rcI) (hb : s.batch = none) (hn : s.nursery = []) {root : Nat} {temp : Nat → Option (List Nat)}
    (ht : ∀ h, Reach w root h → temp h = some (w.refs h)) (limit : Nat) {t : ImportTx} (I : IInv w s root t) :
    ∃ t', importStep w s temp limit t = some t' ∧ IInv w s root t' ∧ (t.stack ≠ [] → stackWork w t'.stack < stackWork w t.stack) ∧
      (t.stack = [] → t' = t) := by
  unfold importStep
  match hst : t.stack with
  | [] => exact ⟨t, rfl, I, fun h => absurd rfl h, fun _ => rfl⟩
  | [] :: rest =>
    refine ⟨{ t with stack := rest }, rfl, ⟨?_, I.rows, I.old, I.uCells, I.sub, I.filt, ?_⟩, ?_, fun h => by cases h⟩
    · have := I.sinv
      unfold ImportTx.asStore stackTasks at this ⊢
      rw [hst] at this
      exact this
    · intro l hl; exact I.reach l (by rw [hst]; exact List.mem_cons_of_mem _ hl)
    · intro _; simp [stackWork]
  | (c :: cs) :: rest =>
    obtain ⟨o, t', h1, h2⟩ := I.cell J hb hn ht limit hst
    simp only [h1]
    rcases h2 with ⟨rfl, h2⟩ | ⟨rfl, h2⟩
    · refine ⟨_, rfl, h2, fun _ => ?_, fun h => by cases h⟩
      have := size_pos w c
      simp only [stackWork, List.map_cons, List.sum_cons]
      omega
    · refine ⟨_, rfl, h2, fun _ => ?_, fun h => by cases h⟩
      have := refs_work w c
      simp only [stackWork, List.map_cons, List.sum_cons]
      omega

theorem importRun_inv (J : Inv w s roots rcI) (hb : s.batch = none) (hn : s.nursery = []) {root : Nat} {temp : Nat → Option (List Nat)}
    (ht : ∀ h, Reach w root h → temp h = some (w.refs h)) (limit n : Nat) : ∀ {t : ImportTx}, IInv w s root t → stackWork w t.stack ≤ n →
    ∃ t', importRun w s temp limit n t = some t' ∧ IInv w s root t' ∧ t'.stack = [] := by
  induction n with
  | zero =>
    intro t I h
    refine ⟨t, rfl, I, ?_⟩
    cases hst : t.stack with
    | nil => rfl
    | cons l st => rw [hst] at h; simp only [stackWork, List.map_cons, List.sum_cons] at h; omega
  | succ n ih =>
    intro t I h
    obtain ⟨t1, h1, h2, h3, h4⟩ := I.step J hb hn ht limit
    have h5 : stackWork w t1.stack ≤ n := by
      by_cases hst : t.stack = []
      · rw [h4 hst, hst]; simp [stackWork]
      · have := h3 hst; omega
    obtain ⟨t', h6, h7⟩ := ih h2 h5
    exact ⟨t', by unfold importRun; rw [h1, Option.bind_some, h6], h7⟩

/-- Two stores with empty nurseries and the same rows. -/
theorem Inv.rowsSame {s s' : Store} (J : Inv w s roots rcI) (hb : s.batch = none) (hb' : s'.batch = none) (hn : s.nursery = []) (hn' : s'.nursery = [])
    (hg : ∀ h, get s'.cells h = get s.cells h) (hu : Uniq s'.cells) (hc : s'.counters = s.counters)
    (hfl : ∀ f, ((keys s.cells).filter (fun h => w.fp h = f)).card ≤ s'.filter.count f)
    (hca : ∀ h r, get s'.cache h = some r → get s.cells h = some r) : Inv w s' roots rcI := by
  have hd : durable s = s.cells := by unfold durable; rw [hb]
  have hd' : durable s' = s'.cells := by unfold durable; rw [hb']
  have hr : ∀ h, rowIdx s' h = rowIdx s h := by intro h; unfold rowIdx; rw [hn, hn', hd, hd', hg]
  have hl : live s' = live s := by ext h; rw [mem_live, mem_live, hr]
  have hk : keys s'.cells = keys s.cells := by ext h; rw [mem_keys, mem_keys, hg]
  have hus : ∀ h, uses w s' roots h = uses w s roots h := by intro h; unfold uses; rw [hl]
  refine ⟨by rw [hn']; exact uniq_nil, hu, ?_, ?_, ?_, ?_, ?_, ?_, ?_, ?_, ?_, ?_, ?_, ?_⟩
  · intro h hh; rw [hn'] at hh; cases hh
  · intro b hbb; rw [hb'] at hbb; cases hbb
  · intro h e he; rw [hn'] at he; cases he
  · intro h r; rw [hd', hg]; have := J.cData h r; rw [hd] at this; exact this
  · intro h; rw [hl, hus]; exact J.liveUses h
  · intro h h' i; rw [hr, hr]; exact J.inj h h' i
  · rw [hc]; exact J.repr
  · intro h i; rw [hr, hus]; exact J.rc h i
  · intro i hi; obtain ⟨h, hh⟩ := J.own i hi; exact ⟨h, by rw [hr]; exact hh⟩
  · intro f; rw [hd', hk]; exact hfl f
  · intro h r; rw [hd', hg]; exact hca h r
  · intro h e he; rw [hn'] at he; cases he

theorem newSet_entry {root next : Nat} {tx : Table Nat Added} (T : TxOk w s root next tx) (h : Nat) :
    h ∈ newSet tx ↔ ∃ a, get tx h = some a ∧ a.data = some (w.refs h) ∧ rowIdx s h = none := by
  rw [mem_newSet]
  constructor
  · intro hm
    cases hg : get tx h with
    | none => rw [hg] at hm; cases hm
    | some a =>
      rw [hg] at hm
      obtain ⟨_, ⟨i, _, _, _, hd⟩ | ⟨h1, _, _, _, h5⟩⟩ := T.ent h a hg
      · simp only [isNew] at hm; rw [hd] at hm; cases hm
      · exact ⟨a, rfl, h5, h1⟩
  · rintro ⟨a, hg, hd, _⟩
    rw [hg]
    simp [isNew, hd]

/-- An import succeeds and adds the tree. -/
theorem import_inv' (J : Inv w s roots rcI) (hb : s.batch = none) (hn : s.nursery = []) (root : Nat) (temp : Nat → Option (List Nat))
    (ht : ∀ h, Reach w root h → temp h = some (w.refs h)) (limit : Nat) :
    ∃ s' rcI', importTree w s root temp limit = some s' ∧ Inv w s' (fun h => if h = root then roots h + 1 else roots h) rcI' ∧
      (∀ x r, get s.cells x = some r → get s'.cells x = some r) := by
  have hd : durable s = s.cells := by unfold durable; rw [hb]
  obtain ⟨t, h1, I, h2⟩ := importRun_inv J hb hn ht limit (fuel w root + 1) (IInv.start (w := w) J.uCells root)
    (by simp [stackWork, importStart, fuel]; omega)
  unfold importTree
  rw [h1]
  simp only [h2, List.isEmpty_nil, if_true]
  obtain ⟨tx, h3, T⟩ := I.sinv.txOk (by simp [ImportTx.asStore, stackTasks, h2])
  have htx : tx = t.tx := by
    have : applyAdditions t.tx [] = some tx := h3
    simp only [applyAdditions, List.foldl_nil, Option.some.injEq] at this
    exact this.symm
  subst htx
  have T' : TxOk w s root t.nextIdx t.tx := T
  clear T h3
  obtain ⟨s1, rcI', h4, J1⟩ := storeCommit_inv J hb T' 0
  refine ⟨_, rcI', rfl, ?_, fun x r hx => ?_⟩
  rotate_left
  · rw [I.rows x]
    cases hg : get t.tx x with
    | none => exact hx
    | some a =>
      obtain ⟨_, ⟨i, _, _, _, h9⟩ | ⟨h9, _, _, _, _⟩⟩ := T'.ent x a hg
      · simp only [h9]; exact hx
      · unfold rowIdx at h9
        rw [hn, hd, hx] at h9
        cases h9
  -- the store after a commit, a write and a flush
  have hprom : promoted s 0 = [] := by
    unfold promoted
    rw [List.filterMap_eq_nil_iff]
    intro p _
    rw [hn]
    rfl
  obtain ⟨n', h5, h6, h7, h8⟩ := insertEntries_ok s.nursery (t.tx.filterMap (addedEntry 0)) J.uNur (inserts_nodup T'.uTx 0) (by
    intro e _; rw [hn]; rfl)
  have hs1 : s1 = {
      cells := s.cells
      batch := some { puts := [], deletes := [] }
      nursery := del n' (fun h => ([] : List Nat).contains h)
      byRound := s.byRound.filter (fun p => !ripe 0 p.1) ++ (t.tx.filterMap (addedEntry 0)).map (fun e => (e.2.born, e.1))
      filter := s.filter ++ []
      cache := s.cache
      counters := Counters.runBatch { s.counters with nextIdx := t.nextIdx } (t.tx.map (fun e => addedTransition e.2)) } := by
    unfold storeCommit applyCommit at h4
    rw [hprom] at h4
    simp only [h5, Option.map_some, List.map_nil, Option.some.injEq] at h4
    rw [← h4]
    rfl
  have J2 := flush_inv (write_inv J1) (by rw [hs1]; rfl)
  have hcells : (write s1).cells = del s.cells (fun h => ([] : List Nat).contains h) := by rw [hs1]; rfl
  have hnur : (write s1).nursery = del n' (fun h => ([] : List Nat).contains h) := by rw [hs1]; rfl
  have hcnt : (flush w (write s1)).counters = Counters.runBatch { s.counters with nextIdx := t.nextIdx } (t.tx.map (fun e => importTransition e.2)) := by
    rw [hs1]
    show Counters.runBatch { s.counters with nextIdx := t.nextIdx } (t.tx.map (fun e => addedTransition e.2)) = _
    congr 1
    apply List.map_congr_left
    intro e he
    have h9 := addedTransition_new (T'.ent e.1 e.2 (get_of_mem T'.uTx he))
    unfold importTransition
    rw [← h9]
    rfl
  have hget : ∀ h, get (putAll t.cells t.batch) h = get (flush w (write s1)).cells h := by
    intro h
    have hf : get (flush w (write s1)).cells h = match get (write s1).nursery h with
      | some e => some { idx := e.idx, refs := e.refs }
      | none => get (write s1).cells h := get_flush (by rw [hnur]; exact uniq_del _ _ h6) h
    rw [hf, hnur, hcells, get_del, get_del, I.rows h]
    simp only [List.contains_nil, Bool.false_eq_true, if_false]
    cases hg : get t.tx h with
    | none =>
      rw [h8 h (by
        intro e he hk
        obtain ⟨a, ha, _⟩ := (inserts_mem T' 0 e).1 he
        rw [hk, hg] at ha; cases ha), hn]
      rfl
    | some a =>
      cases hda : a.data with
      | none =>
        simp only [hda]
        rw [h8 h (by
          intro e he hk
          obtain ⟨a', ha, hdd, _⟩ := (inserts_mem T' 0 e).1 he
          rw [hk, hg] at ha
          obtain rfl := Option.some.inj ha
          rw [hda] at hdd; cases hdd), hn]
        rfl
      | some refs =>
        simp only [hda]
        obtain ⟨_, ⟨i, _, _, _, hx⟩ | ⟨_, _, _, _, hx⟩⟩ := T'.ent h a hg
        · rw [hda] at hx; cases hx
        · have := h7 (h, { idx := a.idx, born := 0, refs := w.refs h }) ((inserts_mem T' 0 _).2 ⟨a, hg, by rw [hda]; rfl, rfl⟩)
          rw [this]
          rw [hda] at hx
          obtain rfl := Option.some.inj hx
          rfl
  apply J2.rowsSame (s := flush w (write s1))
  · rw [hs1]; rfl
  · exact hb
  · rfl
  · exact hn
  · exact hget
  · exact uniq_putAll _ _ I.uCells
  · exact hcnt.symm
  · intro f
    have hk : keys (flush w (write s1)).cells ⊆ keys s.cells ∪ newSet t.tx := by
      intro h hm
      rw [mem_keys, ← hget, I.rows h] at hm
      rw [Finset.mem_union, mem_keys, mem_newSet]
      cases hg : get t.tx h with
      | none => rw [hg] at hm; exact Or.inl hm
      | some a =>
        rw [hg] at hm
        cases hda : a.data with
        | none => simp only [hda] at hm; exact Or.inl hm
        | some refs => exact Or.inr (by simp [isNew, hda])
    have h9 := Finset.card_le_card (Finset.filter_subset_filter (fun h => w.fp h = f) hk)
    rw [Finset.filter_union] at h9
    have h10 := Finset.card_union_le ((keys s.cells).filter (fun h => w.fp h = f)) ((newSet t.tx).filter (fun h => w.fp h = f))
    have h11 := J.filt f
    rw [hd] at h11
    have h12 := I.filt f
    change _ ≤ t.filter.count f
    omega
  · intro h r hr
    have h9 : get s.cache h = some r := hr
    have h10 := J.cache h r h9
    rw [hd] at h10
    rw [← hget, I.rows h]
    cases hg : get t.tx h with
    | none => exact h10
    | some a =>
      obtain ⟨_, ⟨i, _, _, _, hx⟩ | ⟨hx, _, _, _, _⟩⟩ := T'.ent h a hg
      · simp only [hx]; exact h10
      · unfold rowIdx at hx
        rw [hn, hd, h10] at hx
        cases hx

theorem import_inv (J : Inv w s roots rcI) (hb : s.batch = none) (hn : s.nursery = []) (root : Nat) (temp : Nat → Option (List Nat))
    (ht : ∀ h, Reach w root h → temp h = some (w.refs h)) (limit : Nat) :
    ∃ s' rcI', importTree w s root temp limit = some s' ∧ Inv w s' (fun h => if h = root then roots h + 1 else roots h) rcI' := by
  obtain ⟨s', rcI', h1, h2, _⟩ := import_inv' J hb hn root temp ht limit
  exact ⟨s', rcI', h1, h2⟩

end

end Tycho.CellStore
