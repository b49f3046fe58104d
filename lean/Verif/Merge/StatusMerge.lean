import Verif.Merge.StatusProps

/-! ## Point statuses: the merge does not depend on the grouping, and what it means -/
namespace Tycho.Merge
open Tycho.Bytes Tycho.Codec

/-- What a list of values amounts to: highest kind, or of second bytes, or of anchor flags, greatest commit part. -/
structure Fields where
  kind : Nat
  second : Nat
  anchor : Nat
  commit : List Nat
  deriving DecidableEq, Repr

def fieldsOf (ops : List (List Nat)) : Fields :=
  { kind := topKind ops
    second := orSecond (ops.filter readable)
    anchor := orAnchor (ops.filter readable)
    commit := maxCommit (ops.filter readable) }

/-- The combination of two. -/
def Fields.join (a b : Fields) : Fields :=
  { kind := max a.kind b.kind, second := a.second ||| b.second, anchor := a.anchor ||| b.anchor, commit := max a.commit b.commit }

theorem fieldsOf_append (a b : List (List Nat)) : fieldsOf (a ++ b) = (fieldsOf a).join (fieldsOf b) := by
  unfold fieldsOf Fields.join
  simp only [topKind_append, List.filter_append, orSecond_append, orAnchor_append]
  rw [maxCommit_append _ _ (fun x hx => (List.mem_filter.1 hx).2) (fun x hx => (List.mem_filter.1 hx).2)]

/-- The merge of values, field by field; its rest is that of a value of the highest kind. -/
theorem mergeStatus_some {ops : List (List Nat)} {v : List Nat} (h : mergeStatus ops = some v) :
    readable v = true ∧ fieldsOf [v] = fieldsOf ops ∧ v.getD 0 0 = topKind ops ∧
      ∃ m ∈ ops, readable m = true ∧ m.getD 0 0 = topKind ops ∧ tailOf v = tailOf m := by
  unfold mergeStatus at h
  simp only [Option.map_eq_some_iff] at h
  obtain ⟨m, hm, rfl⟩ := h
  have hl : ∀ a ∈ ops.filter readable, readable a = true := fun a ha => (List.mem_filter.1 ha).2
  obtain ⟨h1, h2, h3, h4, h5, h6, h7⟩ := mergeResult_fields hl hm
  obtain ⟨hmem, hmax⟩ := maxBytes_some hm
  have htop : m.getD 0 0 = topKind ops := by
    unfold topKind
    refine (foldl_max_spec _ (fun a => a.getD 0 0) hmem ?_).symm
    intro a ha
    apply head_le _ (hmax a ha)
    intro he
    have := (readable_iff.1 (hl a ha)).1
    rw [he] at this; simp at this
  generalize hv : mergeResult m (orSecond (ops.filter readable)) (orAnchor (ops.filter readable))
    (maxCommit (ops.filter readable)) = v at *
  refine ⟨h1, ?_, by rw [h2]; exact htop, m, (List.mem_filter.1 hmem).1, (List.mem_filter.1 hmem).2, htop, h7⟩
  have hf : [v].filter readable = [v] := by simp [h1]
  unfold fieldsOf
  rw [hf]
  congr 1
  · unfold topKind
    rw [hf]
    simp only [List.foldl_cons, List.foldl_nil]
    rw [h2]
    unfold topKind at htop
    omega
  · simp only [orSecond, List.foldl_cons, List.foldl_nil, Nat.zero_or]
    exact h3
  · rw [orAnchor_eq]
    simp only [List.foldl_cons, List.foldl_nil, Nat.zero_or]
    exact h5
  · rw [maxCommit_eq _ (by simpa using h1)]
    simp only [List.foldl_cons, List.foldl_nil]
    rw [max_eq_right (zero_le_commitOf h1)]
    exact h6

theorem mergeStatus_isSome (ops : List (List Nat)) : (mergeStatus ops).isSome ↔ ∃ a ∈ ops, readable a = true := by
  unfold mergeStatus
  rw [Option.isSome_map, maxBytes_isSome]
  constructor
  · intro h
    obtain ⟨a, ha⟩ := List.exists_mem_of_ne_nil _ h
    exact ⟨a, (List.mem_filter.1 ha).1, (List.mem_filter.1 ha).2⟩
  · rintro ⟨a, ha, hr⟩ h
    have : a ∈ ops.filter readable := List.mem_filter.2 ⟨ha, hr⟩
    rw [h] at this; cases this

/-- Readable values with the same fields and the same rest are the same bytes. -/
theorem readable_ext {v w : List Nat} (hv : readable v = true) (hw : readable w = true) (hf : fieldsOf [v] = fieldsOf [w])
    (ht : tailOf v = tailOf w) : v = w := by
  have fields : ∀ x, readable x = true → fieldsOf [x] = ⟨x.getD 0 0, x.getD 1 0, anchorOf x, commitOf x⟩ := by
    intro x hx
    have hxf : [x].filter readable = [x] := by simp [hx]
    unfold fieldsOf
    rw [hxf]
    congr 1
    · unfold topKind; rw [hxf]; simp
    · simp [orSecond]
    · rw [orAnchor_eq]; simp
    · rw [maxCommit_eq _ (by simpa using hx)]
      simp only [List.foldl_cons, List.foldl_nil]
      exact max_eq_right (zero_le_commitOf hx)
  rw [fields v hv, fields w hw] at hf
  simp only [Fields.mk.injEq] at hf
  obtain ⟨f1, f2, f3, f4⟩ := hf
  have split : ∀ x, readable x = true → x = [x.getD 0 0, x.getD 1 0] ++
      (if isCommittable x then [anchorOf x] ++ commitOf x ++ tailOf x else tailOf x) := by
    intro x hx
    obtain ⟨hl, _⟩ := readable_iff.1 hx
    cases hc : isCommittable x with
    | false =>
      match x, hl with
      | a :: b :: x, _ => simp [tailOf, hc]
    | true =>
      have hl := committable_length hx hc
      match x, hl with
      | a :: b :: c :: x, hl =>
        simp only [tailOf, anchorOf, commitOf, hc, if_true, commitPart]
        simp only [List.getD_cons_zero, List.getD_cons_succ, List.drop_succ_cons, List.drop_zero, List.cons_append,
          List.nil_append, List.take_append_drop]
  have hc : isCommittable v = isCommittable w := by unfold isCommittable; rw [f1]
  rw [split v hv, split w hw, f1, f2, f3, f4, ht, hc]

/-- However RocksDB groups the merges of a point: the result has the same kind, flags, anchor flags and commit part, and its rest is
that of an operand of the highest kind. -/
theorem status_regroup {ops ops' : List (List Nat)} (hr : Regroup mergeStatus ops ops') :
    (mergeStatus ops').isSome = (mergeStatus ops).isSome ∧
    ∀ v w, mergeStatus ops = some v → mergeStatus ops' = some w →
      fieldsOf [w] = fieldsOf [v] ∧ ∃ m ∈ ops, readable m = true ∧ m.getD 0 0 = topKind ops ∧ tailOf w = tailOf m := by
  have key : fieldsOf ops' = fieldsOf ops ∧ ((∃ a ∈ ops', readable a = true) ↔ ∃ a ∈ ops, readable a = true) ∧
      ∀ x ∈ ops', readable x = true → ∃ m ∈ ops, readable m = true ∧ m.getD 0 0 = x.getD 0 0 ∧ tailOf x = tailOf m := by
    refine Regroup.inv (fun l => fieldsOf l = fieldsOf ops ∧ ((∃ a ∈ l, readable a = true) ↔ ∃ a ∈ ops, readable a = true) ∧
      ∀ x ∈ l, readable x = true → ∃ m ∈ ops, readable m = true ∧ m.getD 0 0 = x.getD 0 0 ∧ tailOf x = tailOf m) ?_ hr
      ⟨rfl, Iff.rfl, fun x hx h => ⟨x, hx, h, rfl, rfl⟩⟩
    rintro a g b v _ hf ⟨h1, h2, h3⟩
    obtain ⟨s1, s2, s3, m, hm, hm1, hm2, hm3⟩ := mergeStatus_some hf
    refine ⟨?_, ?_, ?_⟩
    · simp only [fieldsOf_append, s2] at h1 ⊢; exact h1
    · rw [← h2]
      constructor
      · intro _; exact ⟨m, by simp [hm], hm1⟩
      · intro _; exact ⟨v, by simp, s1⟩
    · intro x hx hxr
      simp only [List.mem_append, List.mem_singleton] at hx
      rcases hx with (hx | rfl) | hx
      · exact h3 x (by simp [hx]) hxr
      · obtain ⟨m', hm', q1, q2, q3⟩ := h3 m (by simp [hm]) hm1
        exact ⟨m', hm', q1, by rw [q2, hm2, s3], by rw [hm3, q3]⟩
      · exact h3 x (by simp [hx]) hxr
  obtain ⟨k1, k2, k3⟩ := key
  constructor
  · rw [Bool.eq_iff_iff, mergeStatus_isSome, mergeStatus_isSome]; exact k2
  · intro v w hv hw
    obtain ⟨_, v2, _⟩ := mergeStatus_some hv
    obtain ⟨w1, w2, w3, m, hm, hm1, hm2, hm3⟩ := mergeStatus_some hw
    refine ⟨by rw [w2, k1, v2], ?_⟩
    obtain ⟨m', hm', q1, q2, q3⟩ := k3 m hm hm1
    have : topKind ops' = topKind ops := congrArg Fields.kind k1
    exact ⟨m', hm', q1, by rw [q2, hm2, this], by rw [hm3, q3]⟩

/-- If the operands of the highest kind agree on the rest (the author of a point is fixed by its digest; a node computes one cause
for a point), the merged bytes do not depend on the grouping. -/
theorem status_regroup_eq {ops ops' : List (List Nat)} (hr : Regroup mergeStatus ops ops')
    (hs : ∀ a ∈ ops, ∀ b ∈ ops, readable a = true → readable b = true → a.getD 0 0 = topKind ops → b.getD 0 0 = topKind ops →
      tailOf a = tailOf b) : mergeStatus ops' = mergeStatus ops := by
  obtain ⟨h1, h2⟩ := status_regroup hr
  cases hv : mergeStatus ops with
  | none =>
    rw [hv] at h1
    cases hw : mergeStatus ops' with
    | none => rfl
    | some w => rw [hw] at h1; cases h1
  | some v =>
    rw [hv] at h1
    cases hw : mergeStatus ops' with
    | none => rw [hw] at h1; cases h1
    | some w =>
      obtain ⟨f, m', hm', q1, q2, q3⟩ := h2 v w hv hw
      obtain ⟨v1, _, _, m, hm, hm1, hm2, hm3⟩ := mergeStatus_some hv
      obtain ⟨w1, _⟩ := mergeStatus_some hw
      rw [readable_ext w1 v1 f (by rw [q3, hm3]; exact hs m' hm' m hm q1 hm1 q2 hm2)]

/-- Nor on the order of the operands. -/
theorem status_perm {ops ops' : List (List Nat)} (hp : ops.Perm ops')
    (hs : ∀ a ∈ ops, ∀ b ∈ ops, readable a = true → readable b = true → a.getD 0 0 = topKind ops → b.getD 0 0 = topKind ops →
      tailOf a = tailOf b) : mergeStatus ops' = mergeStatus ops := by
  have hf : ∀ {a b : List (List Nat)}, a.Perm b → fieldsOf a = fieldsOf b := by
    intro a b h
    induction h with
    | nil => rfl
    | cons x _ ih =>
      rw [show ∀ l : List (List Nat), x :: l = [x] ++ l from fun _ => rfl, fieldsOf_append, ih, ← fieldsOf_append]; rfl
    | swap x y l =>
      have e1 : y :: x :: l = [y] ++ ([x] ++ l) := rfl
      have e2 : x :: y :: l = [x] ++ ([y] ++ l) := rfl
      rw [e1, e2]
      simp only [fieldsOf_append, Fields.join, Fields.mk.injEq]
      refine ⟨by omega, ?_, ?_, ?_⟩
      · rw [← Nat.or_assoc, ← Nat.or_assoc, Nat.or_comm (fieldsOf [y]).second]
      · rw [← Nat.or_assoc, ← Nat.or_assoc, Nat.or_comm (fieldsOf [y]).anchor]
      · exact max_left_comm _ _ _
    | trans _ _ ih1 ih2 => rw [ih1, ih2]
  have hff := hf hp
  have hk : topKind ops' = topKind ops := (congrArg Fields.kind hff).symm
  cases hv : mergeStatus ops with
  | none =>
    cases hw : mergeStatus ops' with
    | none => rfl
    | some w =>
      obtain ⟨_, _, _, m, hm, hm1, _⟩ := mergeStatus_some hw
      have := (mergeStatus_isSome ops).2 ⟨m, hp.mem_iff.2 hm, hm1⟩
      rw [hv] at this; cases this
  | some v =>
    obtain ⟨v1, v2, _, m, hm, hm1, hm2, hm3⟩ := mergeStatus_some hv
    cases hw : mergeStatus ops' with
    | none =>
      have := (mergeStatus_isSome ops').2 ⟨m, hp.mem_iff.1 hm, hm1⟩
      rw [hw] at this; cases this
    | some w =>
      obtain ⟨w1, w2, _, m', hm', hm1', hm2', hm3'⟩ := mergeStatus_some hw
      rw [readable_ext w1 v1 (by rw [w2, v2, hff]) (by
        rw [hm3, hm3']
        exact hs m' (hp.mem_iff.2 hm') m hm hm1' hm1 (by rw [hm2', hk]) hm2)]

end Tycho.Merge
