import Verif.BlocksGc.Inv
import Mathlib.Data.List.Perm.Subperm

namespace Tycho.BlocksGc
open Tycho.Table Tycho.BlockMeta

/-- A stored database: ids in key order, one block per shard and seqno, root hashes are unique and not zero. -/
structure Wf (db : Db) : Prop where
  sorted : db.ids.Pairwise Before
  roots : (db.ids.map (·.root)).Nodup
  nonzero : ∀ k ∈ db.ids, 0 < k.root
  types : ∀ e ∈ db.data, e.ty < 3

theorem data_inRange (sh a b ty : Nat) (e : Entry) (h : 0 < e.key.root) : dataRange sh a b ty e = inRange sh a b e.key := by
  have hf : ∀ n, fromKey sh n ty e = decide (sh < e.key.shard ∨ (sh = e.key.shard ∧ n ≤ e.key.seqno)) := by
    intro n
    unfold fromKey
    rw [Bool.eq_iff_iff]
    simp only [h, decide_true, Bool.true_or, Bool.and_true, Bool.or_eq_true, decide_eq_true_eq, Bool.and_eq_true, beq_iff_eq]
    omega
  rw [Bool.eq_iff_iff, mem_inRange]
  unfold dataRange
  rw [hf, hf]
  simp only [Bool.and_eq_true, decide_eq_true_eq, Bool.not_eq_eq_eq_not, Bool.not_true, decide_eq_false_iff_not]
  omega

theorem in_range_iff (p : Params) (db0 : Db) (k : Key) (hk : k ∈ db0.ids) (sh a b : Nat) (ho : RangeOut p db0 sh a b)
    (hkeep : keeps p db0 k = true) : inRange sh a b k = false := by
  cases hr : inRange sh a b k with
  | false => rfl
  | true => rw [ho k hk hr] at hkeep; cases hkeep

/-- The blocks that stay are exactly those that are to be kept: by position (the target masterchain block and newer, top
shard blocks and newer, zerostates) or by flag (key blocks, persistent states, pending saves). Everything of the others goes:
id, connections, handle and data. -/
theorem removes_exactly (p : Params) (db : Db) (hw : Wf db) :
    (run p db).db.ids = db.ids.filter (keeps p db) ∧
    (∀ k ∈ db.ids, k ∈ db.conns → (k ∈ (run p db).db.conns ↔ keeps p db k = true)) ∧
    (∀ k ∈ db.ids, get (run p db).db.handles k.root = if keeps p db k then get db.handles k.root else none) ∧
    (∀ e ∈ db.data, e.key ∈ db.ids → (e ∈ (run p db).db.data ↔ keeps p db e.key = true)) := by
  obtain ⟨W, D, h, hr, hb⟩ := inv_run p db hw.sorted hw.roots
  have hcov : ∀ k ∈ db.ids, keeps p db k = false → ∃ sh a b, .delIds sh a b ∈ W ∧ .delConns sh a b ∈ W ∧ inRange sh a b k = true := by
    intro k hk hk'
    have := h.covered k hk hk'
    rw [hb, List.append_nil] at this
    rcases this with h' | ⟨sh, a, b, h', _⟩
    · exact h'
    · rw [hr] at h'; cases h'
  have hids : ∀ k ∈ db.ids, k ∈ (run p db).db.ids ↔ keeps p db k = true := by
    intro k hk
    rw [h.reached.ids]
    constructor
    · rintro ⟨_, hn⟩
      cases hkp : keeps p db k with
      | true => rfl
      | false =>
        obtain ⟨sh, a, b, h1, _, h2⟩ := hcov k hk hkp
        rw [hn sh a b h1] at h2; cases h2
    · intro hkp
      exact ⟨hk, fun sh a b hm => in_range_iff p db k hk sh a b (h.safeW.ids sh a b hm).1 hkp⟩
  refine ⟨?_, ?_, ?_, ?_⟩
  · have hsub := h.reached.sub
    have hnd : db.ids.Nodup := hw.roots.of_map
    -- a sublist of a list without repetitions is the filter of its members
    have := hsub.filter (fun k => keeps p db k)
    have e1 : (run p db).db.ids.filter (fun k => keeps p db k) = (run p db).db.ids := by
      rw [List.filter_eq_self]
      intro k hk
      exact (hids k (hsub.subset hk)).1 hk
    rw [e1] at this
    refine this.eq_of_length_le ?_
    apply List.Subperm.length_le
    apply List.subperm_of_subset (hnd.filter _)
    intro k hk
    obtain ⟨h1, h2⟩ := List.mem_filter.1 hk
    exact (hids k h1).2 h2
  · intro k hk hc
    rw [h.reached.conns]
    constructor
    · rintro ⟨_, hn⟩
      cases hkp : keeps p db k with
      | true => rfl
      | false =>
        obtain ⟨sh, a, b, _, h1, h2⟩ := hcov k hk hkp
        rw [hn sh a b h1] at h2; cases h2
    · intro hkp
      exact ⟨hc, fun sh a b hm => in_range_iff p db k hk sh a b (h.safeW.conns sh a b hm) hkp⟩
  · intro k hk
    obtain ⟨h1, h2⟩ := h.reached.handles k.root
    cases hkp : keeps p db k with
    | true =>
      rw [if_pos rfl]
      apply h2
      intro hm
      obtain ⟨j, hj, hjr, hjk⟩ := h.safeW.handles _ hm
      have : j = k := List.inj_on_of_nodup_map hw.roots hj hk hjr
      rw [this, hkp] at hjk; cases hjk
    | false =>
      rw [if_neg (by simp)]
      apply h1
      have := h.handle k hk hkp
      rwa [hb, List.append_nil] at this
  · intro e he hk
    rw [h.reached.data]
    have hnz := hw.nonzero _ hk
    constructor
    · rintro ⟨_, hn⟩
      cases hkp : keeps p db e.key with
      | true => rfl
      | false =>
        obtain ⟨sh, a, b, h1, _, h2⟩ := hcov _ hk hkp
        have := hn sh a b 0 ((h.safeW.ids sh a b h1).2.2 0 (by omega))
        rw [data_inRange _ _ _ _ _ hnz, h2] at this; cases this
    · intro hkp
      refine ⟨he, fun sh a b ty hm => ?_⟩
      rw [data_inRange _ _ _ _ _ hnz]
      exact in_range_iff p db _ hk sh a b (h.safeD sh a b ty hm).1 hkp

/-- Wherever the collection stops (crash, cancellation), everything of the kept blocks is there. -/
theorem kept_at_every_point (p : Params) (db : Db) (hw : Wf db) (d : Db) (hd : d ∈ (run p db).trace) (k : Key) (hk : k ∈ db.ids)
    (hkeep : keeps p db k = true) :
    k ∈ d.ids ∧ (k ∈ db.conns → k ∈ d.conns) ∧ get d.handles k.root = get db.handles k.root ∧
    (∀ e ∈ db.data, e.key = k → e ∈ d.data) := by
  obtain ⟨_, _, h, _, _⟩ := inv_run p db hw.sorted hw.roots
  obtain ⟨W, D, hr, hs, hsd⟩ := h.trace d hd
  refine ⟨(hr.ids k).2 ⟨hk, fun sh a b hm => in_range_iff p db k hk sh a b (hs.ids sh a b hm).1 hkeep⟩, ?_, ?_, ?_⟩
  · intro hc
    exact (hr.conns k).2 ⟨hc, fun sh a b hm => in_range_iff p db k hk sh a b (hs.conns sh a b hm) hkeep⟩
  · apply (hr.handles k.root).2
    intro hm
    obtain ⟨j, hj, hjr, hjk⟩ := hs.handles _ hm
    have : j = k := List.inj_on_of_nodup_map hw.roots hj hk hjr
    rw [this, hkeep] at hjk; cases hjk
  · intro e he hek
    refine (hr.data e).2 ⟨he, fun sh a b ty hm => ?_⟩
    rw [data_inRange _ _ _ _ _ (by rw [hek]; exact hw.nonzero _ hk), hek]
    exact in_range_iff p db k hk sh a b (hsd sh a b ty hm).1 hkeep

/-- Wherever it stops, nothing is left behind that a later collection does not see: a block without an id has no handle and no
data. -/
theorem nothing_leaks (p : Params) (db : Db) (hw : Wf db) (d : Db) (hd : d ∈ (run p db).trace) (k : Key) (hk : k ∈ db.ids)
    (hgone : k ∉ d.ids) : get d.handles k.root = none ∧ ∀ e ∈ d.data, e.key ≠ k := by
  obtain ⟨_, _, h, _, _⟩ := inv_run p db hw.sorted hw.roots
  obtain ⟨W, D, hr, hs, hsd⟩ := h.trace d hd
  have : ∃ sh a b, .delIds sh a b ∈ W ∧ inRange sh a b k = true := by
    by_contra hc
    apply hgone
    refine (hr.ids k).2 ⟨hk, fun sh a b hm => ?_⟩
    cases hx : inRange sh a b k with
    | false => rfl
    | true => exact absurd ⟨sh, a, b, hm, hx⟩ hc
  obtain ⟨sh, a, b, hm, hx⟩ := this
  obtain ⟨_, h1, h2⟩ := hs.ids sh a b hm
  refine ⟨(hr.handles _).1 (h1 k hk hx), fun e he hek => ?_⟩
  have := ((hr.data e).1 he).2 sh a b 0 (h2 0 (by omega))
  rw [data_inRange _ _ _ _ _ (by rw [hek]; exact hw.nonzero _ hk), hek, hx] at this
  cases this

/-- Wherever it stops, the flags decide as before. -/
theorem keeps_after (p : Params) (db : Db) (hw : Wf db) (d : Db) (hd : d ∈ (run p db).trace) (k : Key) (hk : k ∈ db.ids) :
    keeps p d k = keeps p db k := by
  cases hkp : keeps p db k with
  | true =>
    have := (kept_at_every_point p db hw d hd k hk hkp).2.2.1
    unfold keeps flagged at hkp ⊢
    rw [this]; exact hkp
  | false =>
    obtain ⟨_, _, h, _, _⟩ := inv_run p db hw.sorted hw.roots
    obtain ⟨W, D, hr, hs, hsd⟩ := h.trace d hd
    obtain ⟨h1, h2⟩ := hr.handles k.root
    by_cases hm : Op.delHandle k.root ∈ W
    · unfold keeps flagged at hkp ⊢
      rw [h1 hm]
      simp only [Bool.or_eq_false_iff] at hkp ⊢
      exact ⟨hkp.1, trivial⟩
    · unfold keeps flagged at hkp ⊢
      rw [h2 hm]; exact hkp

/-- A collection after an interrupted one ends with the blocks and handles of one that was not interrupted. -/
theorem resumes (p : Params) (db : Db) (hw : Wf db) (d : Db) (hd : d ∈ (run p db).trace) :
    Wf d ∧ (run p d).db.ids = (run p db).db.ids ∧
    (∀ k ∈ db.ids, get (run p d).db.handles k.root = get (run p db).db.handles k.root) ∧
    (∀ e ∈ db.data, e.key ∈ db.ids → (e ∈ (run p d).db.data ↔ e ∈ (run p db).db.data)) := by
  obtain ⟨_, _, h, _, _⟩ := inv_run p db hw.sorted hw.roots
  obtain ⟨W, D, hr, hs, hsd⟩ := h.trace d hd
  have hwd : Wf d := by
    refine ⟨hw.sorted.sublist hr.sub, List.Nodup.sublist (hr.sub.map _) hw.roots, fun k hk => hw.nonzero k (hr.sub.subset hk), ?_⟩
    intro e he; exact hw.types e ((hr.data e).1 he).1
  obtain ⟨a1, a2, a3, a4⟩ := removes_exactly p db hw
  obtain ⟨b1, b2, b3, b4⟩ := removes_exactly p d hwd
  obtain ⟨W2, D2, hrun, _, _⟩ := inv_run p d hwd.sorted hwd.roots
  have hka : ∀ k ∈ d.ids, keeps p d k = keeps p db k := fun k hk => keeps_after p db hw d hd k (hr.sub.subset hk)
  refine ⟨hwd, ?_, ?_, ?_⟩
  · rw [a1, b1, List.filter_congr hka]
    have hnd : db.ids.Nodup := hw.roots.of_map
    refine (hr.sub.filter _).eq_of_length_le ?_
    apply List.Subperm.length_le
    apply List.subperm_of_subset (hnd.filter _)
    intro k hk
    obtain ⟨h1, h2⟩ := List.mem_filter.1 hk
    exact List.mem_filter.2 ⟨(kept_at_every_point p db hw d hd k h1 h2).1, h2⟩
  · intro k hk
    rw [a3 k hk]
    by_cases hkd : k ∈ d.ids
    · rw [b3 k hkd, hka k hkd]
      split
      · rename_i hkp; exact (kept_at_every_point p db hw d hd k hk hkp).2.2.1
      · rfl
    · have hkp : keeps p db k = false := by
        cases hx : keeps p db k with
        | false => rfl
        | true => exact absurd (kept_at_every_point p db hw d hd k hk hx).1 hkd
      have hz := (nothing_leaks p db hw d hd k hk hkd).1
      rw [hkp, if_neg (by simp)]
      obtain ⟨x, y⟩ := hrun.reached.handles k.root
      by_cases hm : Op.delHandle k.root ∈ W2
      · exact x hm
      · rw [y hm]; exact hz
  · intro e he hk
    rw [a4 e he hk]
    by_cases hed : e ∈ d.data
    · by_cases hkd : e.key ∈ d.ids
      · rw [b4 e hed hkd, hka _ hkd]
      · exact absurd rfl ((nothing_leaks p db hw d hd _ hk hkd).2 e hed)
    · have hkp : keeps p db e.key = false := by
        cases hx : keeps p db e.key with
        | false => rfl
        | true => exact absurd ((kept_at_every_point p db hw d hd _ hk hx).2.2.2 e he rfl) hed
      rw [hkp]
      constructor
      · intro h'; exact absurd ((hrun.reached.data e).1 h').1 hed
      · intro h'; cases h'

end Tycho.BlocksGc
