import Verif.Rpc.TxProps

namespace Tycho.Rpc
open Tycho.Table

theorem mem_putRow (t : Rows) (k : Key) (v : Tx) (e : Key × Tx) : e ∈ putRow t k v ↔ e = (k, v) ∨ (e ∈ t ∧ e.1 ≠ k) := by
  unfold putRow
  simp only [List.mem_append, List.mem_filter, List.mem_cons]
  constructor
  · rintro (⟨h1, h2⟩ | h | ⟨h1, h2⟩)
    · refine .inr ⟨h1, fun h => ?_⟩
      rw [h, before_irrefl] at h2; cases h2
    · exact .inl h
    · refine .inr ⟨h1, fun h => ?_⟩
      rw [h, before_irrefl] at h2; cases h2
  · rintro (h | ⟨h1, h2⟩)
    · exact .inr (.inl h)
    · rcases before_total e.1 k with h | h | h
      · exact .inl ⟨h1, h⟩
      · exact absurd h h2
      · exact .inr (.inr ⟨h1, h⟩)

theorem ordered_putRow {t : Rows} (h : Ordered t) (k : Key) (v : Tx) : Ordered (putRow t k v) := by
  unfold putRow Ordered
  rw [List.pairwise_append]
  refine ⟨List.Pairwise.filter _ h, List.pairwise_cons.2 ⟨fun e he => (List.mem_filter.1 he).2, List.Pairwise.filter _ h⟩, ?_⟩
  intro a ha b hb
  have h1 := (List.mem_filter.1 ha).2
  rcases List.mem_cons.1 hb with rfl | hb
  · exact h1
  · exact before_trans h1 (List.mem_filter.1 hb).2

theorem ordered_uniq {t : Rows} (h : Ordered t) : Uniq t := by
  unfold Uniq
  rw [List.nodup_iff_pairwise_ne, List.pairwise_map]
  refine List.Pairwise.imp ?_ h
  intro a b hab he
  rw [he, before_irrefl] at hab; cases hab

/-- Rows after a batch: those not covered by an operation of it. -/
theorem mem_write_txs (d : Db) (l : List Op) (e : Key × Tx) : e ∈ (d.write l).txs ↔ e ∈ d.txs ∧ ∀ op ∈ l, ¬ coverOp e.1 op := by
  unfold Db.write
  induction l generalizing d with
  | nil => simp
  | cons op l ih =>
    rw [List.foldl_cons, ih]
    have h1 : e ∈ (d.op op).txs ↔ e ∈ d.txs ∧ ¬ coverOp e.1 op := by
      cases op with
      | tx k => simp [Db.op, coverOp]
      | range a b => simp only [Db.op, coverOp, List.mem_filter]; cases e.1.before a <;> cases e.1.before b <;> simp
      | hash h => simp [Db.op, coverOp]
      | msg m => simp [Db.op, coverOp]
    rw [h1]
    simp only [List.mem_cons, forall_eq_or_imp]
    exact and_assoc

theorem write_txs_filter (d : Db) (l : List Op) : ∃ p : Key × Tx → Bool, (d.write l).txs = d.txs.filter p := by
  unfold Db.write
  induction l generalizing d with
  | nil => exact ⟨fun _ => true, (List.filter_eq_self.2 (fun _ _ => rfl)).symm⟩
  | cons op l ih =>
    obtain ⟨p, hp⟩ := ih (d.op op)
    rw [List.foldl_cons, hp]
    cases op with
    | tx k => exact ⟨_, List.filter_filter⟩
    | range a b => exact ⟨_, List.filter_filter⟩
    | hash h => exact ⟨p, rfl⟩
    | msg m => exact ⟨p, rfl⟩

theorem ordered_write {d : Db} (h : Ordered d.txs) (l : List Op) : Ordered (d.write l).txs := by
  obtain ⟨p, hp⟩ := write_txs_filter d l
  rw [hp]
  exact List.Pairwise.filter _ h

theorem get_write_hash (d : Db) (l : List Op) (h : Nat) : get (d.write l).byHash h = if Op.hash h ∈ l then none else get d.byHash h := by
  unfold Db.write
  induction l generalizing d with
  | nil => simp
  | cons op l ih =>
    rw [List.foldl_cons, ih]
    cases op with
    | tx k => simp [Db.op]
    | range a b => simp [Db.op]
    | msg m => simp [Db.op]
    | hash h' =>
      simp only [Db.op, get_del, List.mem_cons, Op.hash.injEq]
      by_cases h1 : Op.hash h ∈ l <;> by_cases h2 : h = h' <;> simp [h1, h2]

theorem get_write_msg (d : Db) (l : List Op) (h : Nat) : get (d.write l).byMsg h = if Op.msg h ∈ l then none else get d.byMsg h := by
  unfold Db.write
  induction l generalizing d with
  | nil => simp
  | cons op l ih =>
    rw [List.foldl_cons, ih]
    cases op with
    | tx k => simp [Db.op]
    | range a b => simp [Db.op]
    | hash m => simp [Db.op]
    | msg h' =>
      simp only [Db.op, get_del, List.mem_cons, Op.msg.injEq]
      by_cases h1 : Op.msg h ∈ l <;> by_cases h2 : h = h' <;> simp [h1, h2]

theorem writes_flatten (d : Db) (l : List (List Op)) : d.writes l = d.write l.flatten := by
  unfold Db.writes
  induction l generalizing d with
  | nil => rfl
  | cons x l ih =>
    rw [List.foldl_cons, ih, List.flatten_cons]
    unfold Db.write
    rw [List.foldl_append]

/-- **The collection removes exactly the old transactions.** Rows which are older than the bound and not among the newest `keep` of their account are gone,
all others are unchanged and in the same order; entries of the indices are removed for exactly the removed rows. The number of removed rows must not be
a multiple of the size of a batch: see `gc_leaves_rows`. -/
theorem gc_exact (d : Db) (size keep minLt fuel : Nat) (bs : List (List Op)) (ho : Ordered d.txs) (hsz : 0 < size)
    (hr : gcRun size keep minLt fuel d.txs = some bs)
    (hm : oldCount d.txs keep minLt d.txs % size ≠ 0 ∨ oldCount d.txs keep minLt d.txs = 0) :
    (d.writes bs).txs = d.txs.filter (fun e => !decide (Old d.txs keep minLt e.1)) ∧
    (∀ h, get (d.writes bs).byHash h = if ∃ e ∈ d.txs, Old d.txs keep minLt e.1 ∧ e.2.hash = h then none else get d.byHash h) ∧
    (∀ m, get (d.writes bs).byMsg m = if ∃ e ∈ d.txs, Old d.txs keep minLt e.1 ∧ e.2.msg = some m then none else get d.byMsg m) := by
  have hw := gc_written d.txs size keep minLt fuel bs ho hsz hr
  rw [writes_flatten]
  refine ⟨?_, fun h => ?_, fun m => ?_⟩
  · obtain ⟨p, hp⟩ := write_txs_filter d bs.flatten
    rw [hp]
    apply List.filter_congr
    intro e he
    have h1 := mem_write_txs d bs.flatten e
    rw [hp, List.mem_filter] at h1
    cases hpe : p e with
    | true =>
      have h2 := (h1.1 ⟨he, hpe⟩).2
      have : ¬ Old d.txs keep minLt e.1 := by
        intro h
        obtain ⟨op, h3, h4⟩ := hw.complete hm e he h
        exact h2 op h3 h4
      simp [this]
    | false =>
      have : Old d.txs keep minLt e.1 := by
        by_cases h : Old d.txs keep minLt e.1
        · exact h
        · have := (h1.2 ⟨he, fun op hop hc => h (hw.sound op hop _ hc)⟩).2
          rw [hpe] at this; cases this
      simp [this]
  · rw [get_write_hash]
    simp only [hw.hash]
  · rw [get_write_msg]
    simp only [hw.msg]

end Tycho.Rpc
