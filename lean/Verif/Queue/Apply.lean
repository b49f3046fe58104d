import Verif.Queue.Lemmas

/-!
C13: applying a queue diff. `apply db d s n h st c` is the call `apply_diff(diff, (shard, seqno), hash, statistics,
check_sequence)`; `none` is a returned error (nothing written), `some db'` is success with the new contents `db'`.
-/
namespace Tycho.Queue
open Tycho.Table

/-- Applying the same diff again succeeds and changes nothing. -/
theorem apply_twice (db db' : DB) (d : Diff) (s : Shard) (n h : Nat) (st : Stats) (c : Option Zone)
    (ha : apply db d s n h st c = some db') : apply db' d s n h st c = some db' := by
  unfold apply at ha
  split at ha
  · cases ha
  · rename_i hp
    simp only [Option.some.injEq] at ha
    subst ha
    unfold apply; rw [hp]
  · rename_i tx hp
    simp only [Option.some.injEq] at ha
    obtain ⟨_, _, _, hb⟩ := prepare_ready hp
    obtain ⟨_, _, _, _, hi⟩ := buildTx_fields hb
    have hg : get db'.infos (s, n) = some tx.info.2 := by
      rw [← ha]; simp only [DB.write, hi, get_put]; simp
    unfold apply prepare
    rw [getInfo_both, hg]
    simp [hi]

/-- Once a diff is recorded for a block, a diff with another hash for that block is an error, whatever it contains and
whatever sequence check is asked for. -/
theorem apply_conflict (db db' : DB) (d d' : Diff) (s : Shard) (n h h' : Nat) (st st' : Stats) (c c' : Option Zone)
    (hnew : get db.infos (s, n) = none) (ha : apply db d s n h st c = some db')
    (hw : (get db'.infos (s, n)).isSome) (hne : h ≠ h') : apply db' d' s n h' st' c' = none := by
  unfold apply at ha
  split at ha
  · cases ha
  · simp only [Option.some.injEq] at ha
    subst ha
    rw [hnew] at hw; simp at hw
  · rename_i tx hp
    simp only [Option.some.injEq] at ha
    obtain ⟨_, _, _, hb⟩ := prepare_ready hp
    obtain ⟨_, _, _, _, hi⟩ := buildTx_fields hb
    have hg : get db'.infos (s, n) = some tx.info.2 := by
      rw [← ha]; simp only [DB.write, hi, get_put]; simp
    unfold apply prepare
    rw [getInfo_both, hg]
    simp [hi, hne]

/-- A diff with a message at or below the commit pointer of its shard is never written. -/
theorem apply_below_pointer (db db' : DB) (d : Diff) (s : Shard) (n h : Nat) (st : Stats) (c : Option Zone)
    (ho : d.Ordered) (p : Nat × Nat) (hp : get db.ptrs s = some p) (m : Nat × Msg) (hm : m ∈ d.msgs) (hle : m.1 ≤ p.1)
    (ha : apply db d s n h st c = some db') : db' = db := by
  unfold apply at ha
  split at ha
  · cases ha
  · simpa using ha.symm
  · rename_i tx hpr
    obtain ⟨_, _, hb, _⟩ := prepare_ready hpr
    have := belowPointer_false hb ho hp m hm
    omega

/-- ... and it is an error unless the block is already recorded or overtaken. -/
theorem apply_below_pointer_error (db : DB) (d : Diff) (s : Shard) (n h : Nat) (st : Stats)
    (ho : d.Ordered) (p : Nat × Nat) (hp : get db.ptrs s = some p) (m : Nat × Msg) (hm : m ∈ d.msgs) (hle : m.1 ≤ p.1)
    (hnew : get db.infos (s, n) = none) : apply db d s n h st none = none := by
  have hb : belowPointer db s d = true := by
    cases hx : belowPointer db s d with
    | true => rfl
    | false => have := belowPointer_false hx ho hp m hm; omega
  unfold apply prepare
  rw [getInfo_both, hnew]
  simp [seqCheck, hb]

/-- Recorded diffs carry the seqno of their block (kept by every operation: `run_wf`). -/
def SeqnoOk (db : DB) : Prop := ∀ s n i, get db.infos (s, n) = some i → i.seqno = n ∧ n < u32Max

/-- With the sequence check on, only the direct successor of the last recorded block of the shard is written; a gap is
an error. -/
theorem apply_gap (db : DB) (d : Diff) (s : Shard) (n h m : Nat) (st : Stats) (hok : SeqnoOk db)
    (hm : (get db.infos (s, m)).isSome) (hmax : ∀ k, (get db.infos (s, k)).isSome → k ≤ m) (hne : n ≠ m + 1) :
    (m < n → apply db d s n h st (some .both) = none) ∧
    (∀ db', apply db d s n h st (some .both) = some db' → db' = db) := by
  have hl : lastApplied db s = some m := by
    have hs := lastApplied_spec db s
    obtain ⟨i, hi⟩ := Option.isSome_iff_exists.mp hm
    have hlt := (hok s m i hi).2
    split at hs
    · rw [hs m hlt] at hi; cases hi
    · rename_i k hk
      obtain ⟨hk1, hk2, hk3⟩ := hs
      have a := hmax k hk2
      have b := hk3 m hlt hm
      rw [hk]; congr 1; omega
  obtain ⟨i, hi⟩ := Option.isSome_iff_exists.mp hm
  have hseq := (hok s m i hi).1
  have hsc : seqCheck db s n (some .both) = if n ≤ m then some .already else some .error := by
    unfold seqCheck
    simp only [hl, getInfo_both, hi, hseq]
    split
    · rfl
    · simp [hne]
  constructor
  · intro hlt
    have hnone : get db.infos (s, n) = none := by
      cases hx : get db.infos (s, n) with
      | none => rfl
      | some j => have := hmax n (by rw [hx]; rfl); omega
    unfold apply prepare
    rw [getInfo_both, hnone, hsc]
    simp only
    rw [if_neg (by omega)]
  · intro db' ha
    unfold apply at ha
    split at ha
    · cases ha
    · simpa using ha.symm
    · rename_i tx hpr
      obtain ⟨_, hs, _, _⟩ := prepare_ready hpr
      rw [hsc] at hs
      split at hs <;> cases hs

/-- The result of an apply: error, unchanged, or exactly the diff's entries are added. When entries are added, the block
was not recorded before, no entry at or below the commit pointer of the shard is touched and nothing of another shard
or of another diff is. -/
theorem apply_effect (db db' : DB) (d : Diff) (s : Shard) (n h : Nat) (minM maxM : Nat) (c : Option Zone)
    (ho : d.Ordered) (ha : apply db d s n h (statsOf d s minM maxM) c = some db') :
    db' = db ∨
    (get db.infos (s, n) = none ∧
     (∀ m ∈ d.msgs, get db'.msgs (d.router.partition m.2.src m.2.dst, s, m.1) = some m.2) ∧
     (∀ k, (∀ m ∈ d.msgs, k ≠ (d.router.partition m.2.src m.2.dst, s, m.1)) → get db'.msgs k = get db.msgs k) ∧
     (∀ p, get db.ptrs s = some p → ∀ part k, k ≤ p.1 → get db'.msgs (part, s, k) = get db.msgs (part, s, k)) ∧
     (∀ k, k ≠ (s, n) → get db'.infos k = get db.infos k) ∧
     (get db'.infos (s, n) = some ⟨minM, maxM, h, d.processedTo, d.router, n⟩) ∧
     (∀ k, k ≠ (s, maxM) → get db'.tails k = get db.tails k) ∧ get db'.tails (s, maxM) = some n ∧
     db'.ptrs = db.ptrs ∧ db'.lastMc = db.lastMc) := by
  unfold apply at ha
  split at ha
  · cases ha
  · left; simpa using ha.symm
  · rename_i tx hpr
    right
    simp only [Option.some.injEq] at ha
    obtain ⟨h0, _, hb, hbt⟩ := prepare_ready hpr
    obtain ⟨_, hmsgs, _, htail, hinfo⟩ := buildTx_fields hbt
    subst ha
    have hnd : (tx.msgs.map (·.1)).Nodup := by
      rw [hmsgs, List.map_map]
      unfold Diff.Ordered at ho
      unfold List.Nodup
      rw [List.pairwise_map]
      refine ho.imp ?_
      intro a b hab heq
      simp only [Function.comp, Prod.mk.injEq] at heq
      omega
    have other : ∀ k, (∀ m ∈ d.msgs, k ≠ (d.router.partition m.2.src m.2.dst, s, m.1)) →
        get (putAll db.msgs tx.msgs) k = get db.msgs k := by
      intro k hk
      apply get_putAll_not
      intro e he
      rw [hmsgs] at he
      obtain ⟨m, hm, rfl⟩ := List.mem_map.mp he
      exact Ne.symm (hk m hm)
    refine ⟨h0, ?_, other, ?_, ?_, ?_, ?_, ?_, rfl, rfl⟩
    · intro m hm
      have : ((d.router.partition m.2.src m.2.dst, s, m.1), m.2) ∈ tx.msgs := by
        rw [hmsgs]; exact List.mem_map_of_mem (f := fun m : Nat × Msg => ((d.router.partition m.2.src m.2.dst, s, m.1), m.2)) hm
      exact get_putAll_mem _ _ hnd _ this
    · intro p hp part k hk
      apply other
      intro m hm heq
      have := belowPointer_false hb ho hp m hm
      simp only [Prod.mk.injEq] at heq
      omega
    · intro k hk
      simp only [DB.write, hinfo, get_put, if_neg hk]
    · simp only [DB.write, hinfo, get_put]; rfl
    · intro k hk
      simp only [DB.write, htail, get_put]
      exact if_neg hk
    · simp only [DB.write, htail, get_put]; simp [statsOf]

/-! ### stored statistics -/

theorem get_bump {κ : Type} [DecidableEq κ] (t : Table κ Nat) (k j : κ) :
    (get (bump t k) j).getD 0 = (get t j).getD 0 + if j = k then 1 else 0 := by
  unfold bump
  rw [get_put]
  split
  · rename_i h; subst h
    cases get t j <;> simp
  · simp

theorem bump_ne_zero {κ : Type} [DecidableEq κ] (t : Table κ Nat) (k j : κ) (h : ∀ j, get t j ≠ some 0) :
    get (bump t k) j ≠ some 0 := by
  unfold bump
  rw [get_put]
  split
  · simp
  · exact h j

theorem counts_fold {α κ : Type} [DecidableEq κ] (f : α → κ) (l : List α) (t : Table κ Nat) (j : κ) :
    (get (l.foldl (fun t m => bump t (f m)) t) j).getD 0 = (get t j).getD 0 + (l.filter (fun m => decide (f m = j))).length := by
  induction l generalizing t with
  | nil => simp
  | cons x l ih =>
    simp only [List.foldl_cons, ih, get_bump, List.filter_cons]
    by_cases hx : f x = j
    · subst hx; simp; omega
    · simp [hx, Ne.symm hx]

theorem counts_uniq {α κ : Type} [DecidableEq κ] (f : α → κ) (l : List α) (t : Table κ Nat) (h : Uniq t) :
    Uniq (l.foldl (fun t m => bump t (f m)) t) := by
  induction l generalizing t with
  | nil => exact h
  | cons x l ih => exact ih _ (uniq_put _ _ _ h)

theorem counts_pos {α κ : Type} [DecidableEq κ] (f : α → κ) (l : List α) (t : Table κ Nat) (h : ∀ j, get t j ≠ some 0)
    (j : κ) : get (l.foldl (fun t m => bump t (f m)) t) j ≠ some 0 := by
  induction l generalizing t with
  | nil => exact h j
  | cons x l ih => exact ih _ (fun j => bump_ne_zero _ _ _ h)

theorem mapM_mem {α β : Type} {f : α → Option β} {l : List α} {r : List β} (h : l.mapM f = some r) (b : β) :
    b ∈ r ↔ ∃ a ∈ l, f a = some b := by
  induction l generalizing r with
  | nil =>
    simp only [List.mapM_nil, Option.pure_def, Option.some.injEq] at h
    subst h; simp
  | cons x l ih =>
    rw [List.mapM_cons] at h
    cases hx : f x with
    | none => rw [hx] at h; simp at h
    | some y =>
      cases hl : l.mapM f with
      | none => rw [hx, hl] at h; simp at h
      | some ys =>
        rw [hx, hl] at h
        simp at h
        subst h
        simp [ih hl, hx, eq_comm]

theorem statPut_some {st : Stats} {x : (Part × IntAddr) × Nat} {e} (h : statPut st x = some e) :
    ∃ p d c, e = ((st.shard, p, st.maxMessage, d), c) ∧ x = ((p, IntAddr.std d), c) := by
  obtain ⟨⟨p, a⟩, c⟩ := x
  cases a with
  | std d =>
    simp only [statPut, IntAddr.router, Option.some.injEq] at h
    exact ⟨p, d, c, h.symm, rfl⟩
  | var w i => simp [statPut, IntAddr.router] at h

theorem statPuts_mem {st : Stats} {r} (h : statPuts st = some r) (e) :
    e ∈ r ↔ ∃ p d c, e = ((st.shard, p, st.maxMessage, d), c) ∧ ((p, IntAddr.std d), c) ∈ st.counts := by
  unfold statPuts at h
  rw [mapM_mem h]
  constructor
  · rintro ⟨x, ha, hf⟩
    obtain ⟨p, d, c, he, rfl⟩ := statPut_some hf
    exact ⟨p, d, c, he, ha⟩
  · rintro ⟨p, d, c, rfl, hm⟩
    exact ⟨((p, .std d), c), hm, rfl⟩

theorem mapM_nodup {α β γ δ : Type} {f : α → Option β} {k : α → γ} {j : β → δ}
    (hinj : ∀ x y x' y', f x = some x' → f y = some y' → j x' = j y' → k x = k y) {l : List α} {r : List β}
    (h : l.mapM f = some r) (hu : (l.map k).Nodup) : (r.map j).Nodup := by
  induction l generalizing r with
  | nil => simp at h; subst h; simp
  | cons x l ih =>
    rw [List.mapM_cons] at h
    cases hx : f x with
    | none => rw [hx] at h; simp at h
    | some y =>
      cases hl : l.mapM f with
      | none => rw [hx, hl] at h; simp at h
      | some ys =>
        rw [hx, hl] at h
        simp at h
        subst h
        simp only [List.map_cons, List.nodup_cons] at hu ⊢
        refine ⟨?_, ih hl hu.2⟩
        intro hm
        obtain ⟨z, hz, hj⟩ := List.mem_map.mp hm
        obtain ⟨w, hw, hfw⟩ := (mapM_mem hl z).mp hz
        apply hu.1
        rw [hinj x w y z hx hfw hj.symm]
        exact List.mem_map_of_mem hw

theorem statPuts_nodup {st : Stats} {r} (h : statPuts st = some r) (hu : Uniq st.counts) : (r.map (·.1)).Nodup := by
  refine mapM_nodup ?_ h hu
  intro x y x' y' hx hy hj
  obtain ⟨p, d, c, rfl, rfl⟩ := statPut_some hx
  obtain ⟨p', d', c', rfl, rfl⟩ := statPut_some hy
  simp only [Prod.mk.injEq, true_and] at hj ⊢
  exact ⟨hj.1, by rw [hj.2]⟩

/-- The statistics stored with a diff count its messages: for every partition and destination account, the number stored
under the diff's greatest message is the number of its messages routed to the partition with that destination. -/
theorem apply_statistics (db db' : DB) (d : Diff) (s : Shard) (n h : Nat) (minM maxM : Nat) (c : Option Zone)
    (hw : get db.infos (s, n) = none) (ha : apply db d s n h (statsOf d s minM maxM) c = some db')
    (hw' : (get db'.infos (s, n)).isSome) (hfresh : ∀ p a, get db.stats (s, p, maxM, a) = none) (p : Part) (a : Dest) :
    (get db'.stats (s, p, maxM, a)).getD 0 =
      (d.msgs.filter (fun m => decide (d.router.partition m.2.src m.2.dst = p ∧ m.2.dst = .std a))).length := by
  unfold apply at ha
  split at ha
  · cases ha
  · simp only [Option.some.injEq] at ha
    subst ha
    rw [hw] at hw'; simp at hw'
  · rename_i tx hpr
    simp only [Option.some.injEq] at ha
    obtain ⟨_, _, _, hbt⟩ := prepare_ready hpr
    obtain ⟨_, _, hst, _, _⟩ := buildTx_fields hbt
    subst ha
    have hu : Uniq (statsOf d s minM maxM).counts := counts_uniq _ _ _ uniq_nil
    have hcount := counts_fold (fun m : Nat × Msg => (d.router.partition m.2.src m.2.dst, m.2.dst)) d.msgs [] (p, .std a)
    have hpos := counts_pos (fun m : Nat × Msg => (d.router.partition m.2.src m.2.dst, m.2.dst)) d.msgs []
      (by simp [Table.get]) (p, .std a)
    simp only [Table.get, Option.getD_none, Nat.zero_add, Prod.mk.injEq] at hcount
    rw [← hcount]
    have hnd := statPuts_nodup hst hu
    simp only [DB.write]
    cases hg : get (statsOf d s minM maxM).counts (p, .std a) with
    | some v =>
      have hm : ((s, p, maxM, a), v) ∈ tx.stats := by
        rw [statPuts_mem hst]
        exact ⟨p, a, v, rfl, mem_of_get _ _ _ hg⟩
      rw [get_putAll_mem _ _ hnd _ hm]
      simp only [statsOf] at hg
      rw [hg]
    | none =>
      have hno : ∀ e ∈ tx.stats, e.1 ≠ (s, p, maxM, a) := by
        intro e he heq
        rw [statPuts_mem hst] at he
        obtain ⟨p', d', c', rfl, hc⟩ := he
        simp only [Prod.mk.injEq] at heq
        obtain ⟨_, rfl, _, rfl⟩ := heq
        rw [mem_iff_get _ hu, hg] at hc
        cases hc
      rw [get_putAll_not _ _ _ hno, hfresh]
      simp only [statsOf] at hg
      rw [hg]

/-! ### all histories -/

/-- What every reachable state satisfies: recorded diffs carry their own seqno; prepared diffs belong to pairwise
distinct shards, are not recorded yet, and their messages lie above the commit pointer. -/
structure WF (σ : Sys) : Prop where
  seqno : ∀ s n i, get σ.db.infos (s, n) = some i → i.seqno = n
  pend1 : (σ.pend.map (·.shard)).Nodup
  pendInfo : ∀ t ∈ σ.pend, t.info.1.1 = t.shard ∧ t.info.2.seqno = t.info.1.2 ∧ get σ.db.infos t.info.1 = none
  pendMsg : ∀ t ∈ σ.pend, ∀ e ∈ t.msgs, e.1.2.1 = t.shard ∧
    ∀ p, get σ.db.ptrs t.shard = some p → p.1 < e.1.2.2
  pendMsgNodup : ∀ t ∈ σ.pend, (t.msgs.map (·.1)).Nodup

/-- Diffs handed to `prepare_diff` are B-tree maps. -/
def Op.Ordered : Op → Prop
  | .prepare d _ _ _ _ _ => d.Ordered
  | _ => True

theorem wf_init : WF Sys.init := by
  constructor <;> simp [Sys.init, DB.empty, Table.get]

theorem wf_write (σ : Sys) (hw : WF σ) (tx : Tx) (htx : tx ∈ σ.pend) (s : Shard) (hs : tx.shard = s) :
    WF { σ with db := σ.db.write tx, pend := σ.pend.filter (fun t => !decide (t.shard = s)) } := by
  obtain ⟨h1, h2, h3, h4, h5⟩ := hw
  refine ⟨?_, ?_, ?_, ?_, ?_⟩
  · intro s' n i hi
    simp only [DB.write, get_put] at hi
    split at hi
    · rename_i heq
      simp only [Option.some.injEq] at hi
      subst hi
      rw [(h3 tx htx).2.1, ← heq]
    · exact h1 _ _ _ hi
  · exact List.Nodup.sublist (List.Sublist.map _ List.filter_sublist) h2
  · intro t ht
    simp only [List.mem_filter, Bool.not_eq_true', decide_eq_false_iff_not] at ht
    obtain ⟨ha, hb, hc⟩ := h3 t ht.1
    refine ⟨ha, hb, ?_⟩
    simp only [DB.write, get_put]
    rw [if_neg, hc]
    intro heq
    apply ht.2
    rw [← ha, heq, (h3 tx htx).1, hs]
  · intro t ht
    exact h4 t (List.mem_filter.mp ht).1
  · intro t ht
    exact h5 t (List.mem_filter.mp ht).1

theorem delete_seqno (db : DB) (rs : List Range)
    (h : ∀ s n i, get db.infos (s, n) = some i → i.seqno = n) :
    ∀ s n i, get (delete db rs).infos (s, n) = some i → i.seqno = n := by
  intro s n i hi
  rw [delete_infos] at hi
  split at hi
  · cases hi
  · exact h _ _ _ hi

theorem wf_step (zs : Nat) (σ : Sys) (hw : WF σ) (op : Op) (ho : op.Ordered) : WF (step zs σ op) := by
  cases op with
  | «prepare» d s n h st c =>
    simp only [step]; unfold doPrepare
    split
    · exact hw
    · rename_i hany
      split
      · rename_i tx hp
        obtain ⟨h0, _, hb, hbt⟩ := prepare_ready hp
        obtain ⟨hsh, hmsgs, _, _, hinfo⟩ := buildTx_fields hbt
        obtain ⟨h1, h2, h3, h4, h5⟩ := hw
        simp only [List.any_eq_true, decide_eq_true_eq, not_exists, not_and] at hany
        refine ⟨h1, ?_, ?_, ?_, ?_⟩
        · simp only [List.map_cons, List.nodup_cons]
          refine ⟨?_, h2⟩
          intro hm
          obtain ⟨t, ht, he⟩ := List.mem_map.mp hm
          exact hany t ht (by rw [he, hsh])
        · intro t ht
          rcases List.mem_cons.mp ht with rfl | ht
          · rw [hinfo]; exact ⟨hsh.symm, rfl, h0⟩
          · exact h3 t ht
        · intro t ht
          rcases List.mem_cons.mp ht with rfl | ht
          · intro e he
            rw [hmsgs] at he
            obtain ⟨m, hm, rfl⟩ := List.mem_map.mp he
            refine ⟨hsh.symm, ?_⟩
            intro p hp
            rw [hsh] at hp
            exact belowPointer_false hb ho hp m hm
          · exact h4 t ht
        · intro t ht
          rcases List.mem_cons.mp ht with rfl | ht
          · rw [hmsgs, List.map_map]
            simp only [Op.Ordered, Diff.Ordered] at ho
            unfold List.Nodup
            rw [List.pairwise_map]
            refine ho.imp ?_
            intro a b hab heq
            simp only [Function.comp, Prod.mk.injEq] at heq
            omega
          · exact h5 t ht
      · exact hw
  | write s =>
    simp only [step]; unfold doWrite
    split
    · exact hw
    · rename_i tx hf
      have hm := List.mem_of_find?_eq_some hf
      have hs := List.find?_some hf
      simp only [decide_eq_true_eq] at hs
      exact wf_write σ hw tx hm s hs
  | drop s =>
    obtain ⟨h1, h2, h3, h4, h5⟩ := hw
    exact ⟨h1, List.Nodup.sublist (List.Sublist.map _ List.filter_sublist) h2,
      fun t ht => h3 t (List.mem_filter.mp ht).1, fun t ht => h4 t (List.mem_filter.mp ht).1,
      fun t ht => h5 t (List.mem_filter.mp ht).1⟩
  | commit tops parts =>
    simp only [step]; unfold doCommit
    split
    · exact hw
    · rename_i hp
      simp only [ne_eq, Decidable.not_not] at hp
      split
      · exact hw
      · rename_i r hr
        have hi : r.1.infos = σ.db.infos := (commit_tables hr).1
        constructor
        · intro s n i h
          simp only [hi] at h
          exact hw.seqno _ _ _ h
        all_goals simp [hp]
  | clear parts tops =>
    simp only [step]; unfold doClear
    split
    · exact hw
    · rename_i hp
      simp only [ne_eq, Decidable.not_not] at hp
      constructor
      · exact delete_seqno _ _ hw.seqno
      all_goals simp [hp]
  | gcTick =>
    simp only [step]; unfold doGcTick
    split
    · obtain ⟨h1, h2, h3, h4, h5⟩ := hw
      exact ⟨h1, h2, h3, h4, h5⟩
    · exact hw
  | gcPlan =>
    obtain ⟨h1, h2, h3, h4, h5⟩ := hw
    simp only [step]; unfold doGcPlan
    split
    · exact ⟨h1, h2, h3, h4, h5⟩
    · split
      · exact ⟨h1, h2, h3, h4, h5⟩
      · split <;> exact ⟨h1, h2, h3, h4, h5⟩
  | gcWrite =>
    obtain ⟨h1, h2, h3, h4, h5⟩ := hw
    simp only [step]; unfold doGcWrite
    split
    · exact ⟨h1, h2, h3, h4, h5⟩
    · rename_i d _
      refine ⟨?_, h2, ?_, h4, h5⟩
      · intro s n i hi
        simp only [execDel_infos] at hi
        split at hi
        · cases hi
        · exact h1 _ _ _ hi
      · intro t ht
        obtain ⟨ha, hb, hc⟩ := h3 t ht
        refine ⟨ha, hb, ?_⟩
        simp only [execDel_infos, hc]
        split <;> rfl
  | gcFail =>
    obtain ⟨h1, h2, h3, h4, h5⟩ := hw
    exact ⟨h1, h2, h3, h4, h5⟩
  | restart => exact ⟨hw.seqno, by simp [step, Sys.init], by simp [step, Sys.init], by simp [step, Sys.init],
      by simp [step, Sys.init]⟩

theorem run_wf (zs : Nat) (σ : Sys) (hw : WF σ) (ops : List Op) (ho : ∀ op ∈ ops, op.Ordered) : WF (run zs σ ops) := by
  induction ops generalizing σ with
  | nil => exact hw
  | cons op ops ih =>
    simp only [run, List.foldl_cons]
    exact ih _ (wf_step zs σ hw op (ho op (by simp))) (fun o h => ho o (by simp [h]))

/-- In every history, whatever the interleaving of callers, garbage collection and restarts: only clearing the uncommitted state
and the garbage collector remove a recorded diff, and nothing ever replaces one. -/
theorem recorded_diff_is_final (zs : Nat) (ops : List Op) (op : Op) (ho : ∀ o ∈ ops ++ [op], o.Ordered)
    (s : Shard) (n : Nat) (i : Info) (hi : get (run zs Sys.init ops).db.infos (s, n) = some i) :
    get (run zs Sys.init (ops ++ [op])).db.infos (s, n) = some i ∨
    (get (run zs Sys.init (ops ++ [op])).db.infos (s, n) = none ∧ (op = .gcWrite ∨ ∃ p t, op = .clear p t)) := by
  have hw : WF (run zs Sys.init ops) := run_wf zs _ wf_init ops (fun o h => ho o (by simp [h]))
  have hr : run zs Sys.init (ops ++ [op]) = step zs (run zs Sys.init ops) op := by simp [run]
  rw [hr]
  generalize run zs Sys.init ops = σ at *
  cases op with
  | «prepare» d s' n' h st c =>
    left; simp only [step]; unfold doPrepare; split
    · exact hi
    · split <;> exact hi
  | write s' =>
    left
    simp only [step]; unfold doWrite
    split
    · exact hi
    · rename_i tx hf
      have hm := List.mem_of_find?_eq_some hf
      simp only [DB.write, get_put]
      rw [if_neg]
      · exact hi
      · intro heq
        rw [heq, (hw.pendInfo tx hm).2.2] at hi
        cases hi
  | drop s' => left; exact hi
  | commit tops parts =>
    left
    simp only [step]; unfold doCommit
    split
    · exact hi
    · split
      · exact hi
      · rename_i r hr'
        have : r.1.infos = σ.db.infos := (commit_tables hr').1
        simp only [this]; exact hi
  | clear p t =>
    simp only [step]; unfold doClear
    split
    · exact Or.inl hi
    · simp only [clear, delete_infos]
      split
      · right; exact ⟨rfl, Or.inr ⟨p, t, rfl⟩⟩
      · left; exact hi
  | gcTick => left; simp only [step]; unfold doGcTick; split <;> exact hi
  | gcPlan =>
    left
    simp only [step]; unfold doGcPlan
    split
    · exact hi
    · split
      · exact hi
      · split <;> exact hi
  | gcWrite =>
    simp only [step]; unfold doGcWrite
    split
    · exact Or.inl hi
    · simp only [execDel_infos]
      split
      · right; exact ⟨rfl, Or.inl trivial⟩
      · left; exact hi
  | gcFail => left; exact hi
  | restart => left; exact hi

end Tycho.Queue
