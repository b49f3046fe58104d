import Verif.Rpc.TxMain

namespace Tycho.Rpc
open Tycho.Table

theorem newer_sublist {a b : Rows} (h : a.Sublist b) (k : Key) : newer a k ≤ newer b k := by
  unfold newer
  exact (h.filter _).length_le

theorem kept_count (desc : Rows) (hd : Desc desc) (keep : Nat) (done rest : Rows) (h : desc = done ++ rest) (a : Nat) :
    min keep (countAcct done a) ≤ countAcct (done.filter (fun e => decide (newer desc e.1 < keep))) a := by
  induction done using List.reverseRecOn generalizing rest with
  | nil => simp [countAcct]
  | append_singleton done x ih =>
    obtain ⟨k, v⟩ := x
    have hs : desc = done ++ (k, v) :: rest := by rw [h]; simp
    have := ih _ hs
    have hn := newer_split hd hs
    rw [List.filter_append, countAcct_append, countAcct_append]
    by_cases hk : k.acct = a
    · subst hk
      have h1 : countAcct [(k, v)] k.acct = 1 := by simp [countAcct]
      by_cases hc : countAcct done k.acct < keep
      · have : [(k, v)].filter (fun e => decide (newer desc e.1 < keep)) = [(k, v)] := by
          simp [hn, hc]
        rw [this]; omega
      · omega
    · have h1 : countAcct [(k, v)] a = 0 := by simp [countAcct, hk]
      omega

theorem newer_desc_count (desc : Rows) (hd : Desc desc) (k : Key) :
    ∃ done rest, desc = done ++ rest ∧ newer desc k = countAcct done k.acct ∧ ∀ e ∈ done, e.1.acct = k.acct → k.lt < e.1.lt := by
  refine ⟨desc.filter (fun e => k.before e.1), desc.filter (fun e => !k.before e.1), ?_, ?_, ?_⟩
  · induction desc with
    | nil => rfl
    | cons e l ih =>
      have h := List.pairwise_cons.1 hd
      cases hb : k.before e.1 with
      | true => rw [List.filter_cons_of_pos (by simpa using hb), List.filter_cons_of_neg (by simp [hb]), List.cons_append, ← ih h.2]
      | false =>
        have hz : l.filter (fun e => k.before e.1) = [] := by
          rw [List.filter_eq_nil_iff]
          intro x hx hkx
          have h1 := h.1 x hx
          rw [before_trans hkx h1] at hb; cases hb
        have h2 := ih h.2
        rw [hz, List.nil_append] at h2
        rw [List.filter_cons_of_neg (by simp [hb]), hz, List.filter_cons_of_pos (by simp [hb]), List.nil_append, ← h2]
  · unfold newer countAcct
    rw [List.filter_filter]
    congr 1
    apply List.filter_congr
    intro e _
    by_cases ha : e.1.acct = k.acct
    · simp [ha, Key.before]
    · simp [ha]
  · intro e he ha
    have := (List.mem_filter.1 he).2
    rw [before_iff] at this
    omega

/-- **What is to be removed does not change while it is being removed**: for the rows left, in whichever order old rows are removed. -/
theorem old_stable (t t' : Rows) (keep minLt : Nat) (ho : Ordered t) (hsub : t'.Sublist t) (hkeep : ∀ e ∈ t, e ∉ t' → Old t keep minLt e.1) (k : Key) :
    Old t' keep minLt k ↔ Old t keep minLt k := by
  constructor
  · rintro ⟨h1, h2⟩
    exact ⟨h1, Nat.le_trans h2 (newer_sublist hsub k)⟩
  · rintro ⟨h1, h2⟩
    refine ⟨h1, ?_⟩
    have hd := desc_reverse ho
    obtain ⟨done, rest, hs, hn, hdone⟩ := newer_desc_count t.reverse hd k
    have hc := kept_count t.reverse hd keep done rest hs k.acct
    rw [newer_reverse] at hn
    rw [← hn, Nat.min_eq_left h2] at hc
    refine Nat.le_trans hc ?_
    unfold newer countAcct
    -- the kept rows are rows of `t'`
    have hnd : (((done.filter (fun e => decide (newer t.reverse e.1 < keep))).filter (fun e => decide (e.1.acct = k.acct)))).Nodup := by
      have h3 : t.reverse.Nodup := by
        rw [(List.reverse_perm t).nodup_iff]
        exact List.Nodup.of_map _ (ordered_uniq ho)
      refine List.Nodup.sublist ?_ h3
      exact (List.filter_sublist.trans List.filter_sublist).trans (by rw [hs]; exact List.sublist_append_left _ _)
    refine (List.subperm_of_subset hnd ?_).length_le
    intro e he
    simp only [List.mem_filter, decide_eq_true_eq] at he
    obtain ⟨⟨h3, h4⟩, h5⟩ := he
    rw [newer_reverse] at h4
    have het : e ∈ t := List.mem_reverse.1 (by rw [hs]; exact List.mem_append_left _ h3)
    simp only [List.mem_filter, Bool.and_eq_true, decide_eq_true_eq]
    refine ⟨?_, h5, hdone e h3 h5⟩
    by_cases h6 : e ∈ t'
    · exact h6
    · have := (hkeep e het h6).2
      omega

theorem ops_prefix_allowed (snap : Rows) (size keep minLt fuel n : Nat) (ho : Ordered snap) (hsz : 0 < size) (bs : List (List Op))
    (hr : gcRun size keep minLt fuel snap = some bs) (op : Op) (hop : op ∈ (bs.take n).flatten) (x : Key) (hx : coverOp x op) : Old snap keep minLt x := by
  have hw := gc_written snap size keep minLt fuel bs ho hsz hr
  refine hw.sound op ?_ x hx
  rw [List.mem_flatten] at *
  obtain ⟨y, h1, h2⟩ := hop
  exact ⟨y, List.mem_of_mem_take h1, h2⟩

/-- **A collection which was interrupted can be repeated**: after any number of its batches a collection with the same parameters leaves the same
transactions as one which was not interrupted. -/
theorem gc_rerun (d : Db) (size keep minLt fuel n : Nat) (bs : List (List Op)) (ho : Ordered d.txs) (hsz : 0 < size)
    (hr : gcRun size keep minLt fuel d.txs = some bs) (d' : Db) (hd' : d' = d.writes (bs.take n))
    (hm : oldCount d'.txs keep minLt d'.txs % size ≠ 0 ∨ oldCount d'.txs keep minLt d'.txs = 0) :
    ∃ fuel' bs', gcRun size keep minLt fuel' d'.txs = some bs' ∧
      (d'.writes bs').txs = d.txs.filter (fun e => !decide (Old d.txs keep minLt e.1)) := by
  have hfl : d' = d.write (bs.take n).flatten := by rw [hd', writes_flatten]
  obtain ⟨p, hp⟩ := write_txs_filter d (bs.take n).flatten
  have hsub : d'.txs.Sublist d.txs := by rw [hfl, hp]; exact List.filter_sublist
  have ho' : Ordered d'.txs := by rw [hfl]; exact ordered_write ho _
  have hgone : ∀ e ∈ d.txs, e ∉ d'.txs → Old d.txs keep minLt e.1 := by
    intro e he hne
    by_cases h : ∀ op ∈ (bs.take n).flatten, ¬ coverOp e.1 op
    · exact absurd (by rw [hfl]; exact (mem_write_txs _ _ _).2 ⟨he, h⟩) hne
    · simp only [Classical.not_forall, Classical.not_not] at h
      obtain ⟨op, hop, hc⟩ := h
      exact ops_prefix_allowed d.txs size keep minLt fuel n ho hsz bs hr op hop _ hc
  have hst := old_stable d.txs d'.txs keep minLt ho hsub hgone
  have hends : ∃ fuel bs, gcRun size keep minLt fuel d'.txs = some bs := by
    rw [gc_ends_iff _ _ _ _ ho' hsz]
    have h1 := (gc_ends_iff _ _ _ _ ho hsz).1 ⟨fuel, bs, hr⟩
    rintro ⟨e, he, h2, h3, h4⟩
    exact h1 ⟨e, hsub.subset he, h2, h3, Nat.le_trans h4 (newer_sublist hsub _)⟩
  obtain ⟨fuel', bs', h1⟩ := hends
  refine ⟨fuel', bs', h1, ?_⟩
  rw [(gc_exact d' size keep minLt fuel' bs' ho' hsz h1 hm).1, hfl, hp, List.filter_filter]
  apply List.filter_congr
  intro e he
  have h2 : decide (Old d'.txs keep minLt e.1) = decide (Old d.txs keep minLt e.1) := decide_eq_decide.2 (hst e.1)
  rw [← hp, ← hfl, h2]
  by_cases ho : Old d.txs keep minLt e.1
  · simp [ho]
  · have h3 : p e = true := by
      have : e ∈ d'.txs := by
        by_cases h : e ∈ d'.txs
        · exact h
        · exact absurd (hgone e he h) ho
      rw [hfl, hp, List.mem_filter] at this
      exact this.2
    simp [ho, h3]

end Tycho.Rpc
