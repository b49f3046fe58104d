import Verif.Common.Bytes
import Verif.Merge.Spec

/-!
# Reference counts (`storage/src/kv/refcount.rs`) and archive data

`i64` sums are integers; the theorem is about histories whose counts fit.
-/
namespace Tycho.Merge
open Tycho.Bytes

/-- `i64::to_le_bytes`. -/
def encI64 (z : Int) : List Nat := leBytes 8 (z % 2 ^ 64).toNat
/-- `i64::from_le_bytes`. -/
def decI64 (b : List Nat) : Int := if ofLe b < 2 ^ 63 then (ofLe b : Int) else (ofLe b : Int) - 2 ^ 64

/-- `decode_value_with_rc` (refcount.rs:35-48). -/
def decodeRc (b : List Nat) : Int × Option (List Nat) :=
  if b.length < 8 then (0, none)
  else if decI64 (b.take 8) ≤ 0 ∨ b.length = 8 then (decI64 (b.take 8), none)
  else (decI64 (b.take 8), some (b.drop 8))

/-- One operand (refcount.rs:16-21). -/
def accRc (s : Int × Option (List Nat)) (b : List Nat) : Int × Option (List Nat) :=
  (s.1 + (decodeRc b).1, if s.2.isNone ∧ 0 < (decodeRc b).1 then (decodeRc b).2 else s.2)

/-- The result (refcount.rs:23-32). -/
def outRc (s : Int × Option (List Nat)) : List Nat :=
  if s.1 < 0 then encI64 s.1
  else if s.1 = 0 then []
  else encI64 s.1 ++ s.2.getD []

/-- `merge_operator` (refcount.rs:10-33): stored value and operands. -/
def mergeRc (stored : Option (List Nat)) (ops : List (List Nat)) : Option (List Nat) :=
  some (outRc (ops.foldl accRc (match stored with | some b => decodeRc b | none => (0, none))))

/-- `strip_refcount` (refcount.rs:51-60). -/
def stripRc (b : List Nat) : Option (List Nat) :=
  if b.length < 8 then none
  else if 0 < decI64 (b.take 8) then some (b.drop 8) else none

/-- What callers write. -/
inductive RcOp
  /-- `add_positive_refount(rc, data)` (refcount.rs:62-67) -/
  | add (n : Nat) (data : Option (List Nat))
  /-- `encode_negative_refcount(rc)` (refcount.rs:73-75) -/
  | sub (n : Nat)

def RcOp.enc : RcOp → List Nat
  | .add n data => encI64 n ++ data.getD []
  | .sub n => encI64 (-(n : Int))

/-- The effect on the count. -/
def RcOp.delta : RcOp → Int
  | .add n _ => n
  | .sub n => -(n : Int)

/-- A history of one key with payload `P`: the count `c` never goes below zero nor beyond `i64`, a reference to a missing cell brings
its data, data is always `P`. -/
def RcHistory (P : List Nat) : Int → List RcOp → Prop
  | _, [] => True
  | c, op :: ops => 0 ≤ c + op.delta ∧ c + op.delta < 2 ^ 63 ∧
      (match op with
       | .add n data => (c = 0 → 0 < n → data.getD [] = P) ∧ ∀ q, data = some q → q = P
       | .sub _ => True) ∧ RcHistory P (c + op.delta) ops

/-- The references of a history. -/
def rcTotal (ops : List RcOp) : Int := (ops.map RcOp.delta).sum

/-! ### Proof -/

theorem ofLe_lt' (b : List Nat) (h : ∀ x ∈ b, x < 256) : ofLe b < 256 ^ b.length := by
  induction b with
  | nil => simp [ofLe]
  | cons x b ih =>
    have h1 := ih (fun y hy => h y (by simp [hy]))
    have h2 := h x (by simp)
    simp only [ofLe, List.length_cons, Nat.pow_succ]
    omega

theorem encI64_length (z : Int) : (encI64 z).length = 8 := by simp [encI64]

theorem decI64_encI64 {z : Int} (h1 : -2 ^ 63 ≤ z) (h2 : z < 2 ^ 63) : decI64 (encI64 z) = z := by
  have e : ofLe (encI64 z) = (z % 2 ^ 64).toNat := by
    apply ofLe_leBytes
    have : (256 : Nat) ^ 8 = 2 ^ 64 := by decide
    omega
  unfold decI64
  rw [e]
  omega

theorem decodeRc_out {s : Int × Option (List Nat)} (h1 : -2 ^ 63 ≤ s.1) (h2 : s.1 < 2 ^ 63) :
    (decodeRc (outRc s)).1 = s.1 ∧ (s.1 ≤ 0 → (decodeRc (outRc s)).2 = none) ∧
      (0 < s.1 → (decodeRc (outRc s)).2.getD [] = s.2.getD [] ∧ ((decodeRc (outRc s)).2.isSome → s.2.isSome)) := by
  obtain ⟨r, p⟩ := s
  simp only at *
  unfold outRc
  simp only
  by_cases hr : r < 0
  · rw [if_pos hr]
    unfold decodeRc
    rw [if_neg (by rw [encI64_length]; omega), if_pos (Or.inr (encI64_length r)),
      List.take_of_length_le (by simp [encI64_length]), decI64_encI64 h1 h2]
    exact ⟨rfl, fun _ => rfl, fun h => by omega⟩
  · rw [if_neg hr]
    by_cases h0 : r = 0
    · rw [if_pos h0]; subst h0
      exact ⟨rfl, fun _ => rfl, fun h => by omega⟩
    · rw [if_neg h0]
      have ht : (encI64 r ++ p.getD []).take 8 = encI64 r := by
        rw [List.take_append_of_le_length (by simp [encI64_length]), List.take_of_length_le (by simp [encI64_length])]
      have hd : (encI64 r ++ p.getD []).drop 8 = p.getD [] := by
        rw [List.drop_append_of_le_length (by simp [encI64_length]), List.drop_of_length_le (by simp [encI64_length]), List.nil_append]
      unfold decodeRc
      rw [if_neg (by rw [List.length_append, encI64_length]; omega), ht, hd, decI64_encI64 h1 h2]
      by_cases hp : (encI64 r ++ p.getD []).length = 8
      · rw [if_pos (Or.inr hp)]
        refine ⟨rfl, fun _ => rfl, fun _ => ⟨?_, fun h => by cases h⟩⟩
        rw [List.length_append, encI64_length] at hp
        have : p.getD [] = [] := List.eq_nil_of_length_eq_zero (by omega)
        rw [this]; rfl
      · rw [if_neg (by omega)]
        refine ⟨rfl, fun h => by omega, fun _ => ⟨rfl, fun _ => ?_⟩⟩
        cases p with
        | some _ => rfl
        | none => simp [encI64_length] at hp

/-- The condition on byte operands that merging keeps. -/
def OkFrom (P : List Nat) : Int → List (List Nat) → Prop
  | _, [] => True
  | c, v :: vs => 0 ≤ c + (decodeRc v).1 ∧ c + (decodeRc v).1 < 2 ^ 63 ∧
      (c = 0 → 0 < (decodeRc v).1 → (decodeRc v).2.getD [] = P) ∧ (∀ q, (decodeRc v).2 = some q → q = P) ∧
      OkFrom P (c + (decodeRc v).1) vs

def sumRc (vs : List (List Nat)) : Int := (vs.map (fun v => (decodeRc v).1)).sum

theorem OkFrom.append {P : List Nat} {c : Int} {a b : List (List Nat)} :
    OkFrom P c (a ++ b) ↔ OkFrom P c a ∧ OkFrom P (c + sumRc a) b := by
  induction a generalizing c with
  | nil => simp [OkFrom, sumRc]
  | cons v a ih =>
    simp only [List.cons_append, OkFrom, ih, sumRc, List.map_cons, List.sum_cons, ← Int.add_assoc]
    constructor
    · rintro ⟨h1, h2, h3, h4, h5, h6⟩; exact ⟨⟨h1, h2, h3, h4, h5⟩, h6⟩
    · rintro ⟨⟨h1, h2, h3, h4, h5⟩, h6⟩; exact ⟨h1, h2, h3, h4, h5, h6⟩

/-- The fold over good operands. -/
theorem fold_ok {P : List Nat} {c : Int} (g : List (List Nat)) (s : Int × Option (List Nat)) (hg : OkFrom P (c + s.1) g)
    (hs1 : ∀ q, s.2 = some q → q = P) (hs2 : c = 0 → 0 < s.1 → s.2.getD [] = P) (hc : 0 ≤ c + s.1 ∧ c + s.1 < 2 ^ 63) :
    (g.foldl accRc s).1 = s.1 + sumRc g ∧ (∀ q, (g.foldl accRc s).2 = some q → q = P) ∧
      (c = 0 → 0 < (g.foldl accRc s).1 → (g.foldl accRc s).2.getD [] = P) ∧
      0 ≤ c + (g.foldl accRc s).1 ∧ c + (g.foldl accRc s).1 < 2 ^ 63 := by
  induction g generalizing s with
  | nil => exact ⟨by simp [sumRc], hs1, hs2, hc⟩
  | cons v g ih =>
    obtain ⟨h1, h2, h3, h4, h5⟩ := hg
    rw [List.foldl_cons]
    have hacc1 : (accRc s v).1 = s.1 + (decodeRc v).1 := rfl
    have hacc2 : (accRc s v).2 = if s.2.isNone ∧ 0 < (decodeRc v).1 then (decodeRc v).2 else s.2 := rfl
    have hq : ∀ q, (accRc s v).2 = some q → q = P := by
      intro q hq
      rw [hacc2] at hq
      split at hq
      · exact h4 q hq
      · exact hs1 q hq
    have := ih (accRc s v) (by rw [hacc1, ← Int.add_assoc]; exact h5) hq (by
      intro hc0 hpos
      rw [hacc1] at hpos
      rw [hacc2]
      split
      · rename_i hcond
        by_cases hs : 0 < s.1
        · have he := hs2 hc0 hs
          have : s.2 = none := by simpa using hcond.1
          rw [this] at he
          cases hv : (decodeRc v).2 with
          | none => exact he
          | some q => exact h4 q hv
        · exact h3 (by omega) hcond.2
      · rename_i hcond
        cases hv : s.2 with
        | some q => exact hs1 q hv
        | none =>
          have hle : ¬ 0 < (decodeRc v).1 := fun h => hcond ⟨by rw [hv]; rfl, h⟩
          rw [← hs2 hc0 (by omega), hv]) (by rw [hacc1, ← Int.add_assoc]; exact ⟨h1, h2⟩)
    refine ⟨?_, this.2⟩
    rw [this.1, hacc1]
    simp only [sumRc, List.map_cons, List.sum_cons]
    omega

theorem okFrom_bounds {P : List Nat} {c : Int} (g : List (List Nat)) (h : OkFrom P c g) (hc : 0 ≤ c ∧ c < 2 ^ 63) :
    0 ≤ c + sumRc g ∧ c + sumRc g < 2 ^ 63 := by
  have := fold_ok (P := P) (c := c) g (0, none) (by simpa using h) (by simp) (by simp) (by simpa using hc)
  rw [this.1] at this
  simpa using this.2.2.2

theorem okFrom_merge {P : List Nat} {c : Int} (g : List (List Nat)) (h : OkFrom P c g) (hc : 0 ≤ c ∧ c < 2 ^ 63) {v : List Nat}
    (hv : mergeRc none g = some v) : OkFrom P c [v] ∧ (decodeRc v).1 = sumRc g := by
  obtain ⟨h1, h2, h3, h4⟩ := fold_ok (P := P) (c := c) g (0, none) (by simpa using h) (by simp) (by simp) (by simpa using hc)
  obtain rfl := Option.some.inj hv
  simp only at h1
  obtain ⟨d1, d2, d3⟩ := decodeRc_out (s := g.foldl accRc (0, none)) (by omega) (by omega)
  refine ⟨⟨by rw [d1]; exact h4.1, by rw [d1]; exact h4.2, ?_, ?_, trivial⟩, by rw [d1, h1]; omega⟩
  · intro hc0 hpos
    rw [d1] at hpos
    rw [(d3 hpos).1]
    exact h3 hc0 hpos
  · intro q hq
    by_cases hpos : 0 < (g.foldl accRc (0, none)).1
    · obtain ⟨e1, e2⟩ := d3 hpos
      have hsome : (g.foldl accRc (0, none)).2.isSome := e2 (by rw [hq]; rfl)
      obtain ⟨q', hq'⟩ := Option.isSome_iff_exists.1 hsome
      rw [hq, hq'] at e1
      simp only [Option.getD_some] at e1
      rw [e1]
      exact h2 q' hq'
    · rw [d2 (by omega)] at hq; cases hq

theorem decode_enc {op : RcOp} (h : -2 ^ 63 ≤ op.delta) (h2 : op.delta < 2 ^ 63) :
    (decodeRc op.enc).1 = op.delta ∧ ∀ q, (decodeRc op.enc).2 = some q → ∃ n, op = .add n (some q) := by
  cases op with
  | sub n =>
    simp only [RcOp.delta] at h h2
    simp only [RcOp.enc]
    unfold decodeRc
    rw [if_neg (by rw [encI64_length]; omega), if_pos (Or.inr (encI64_length _)),
      List.take_of_length_le (by simp [encI64_length]), decI64_encI64 h h2]
    exact ⟨rfl, fun q hq => by cases hq⟩
  | add n data =>
    simp only [RcOp.delta] at h h2
    simp only [RcOp.enc]
    have ht : (encI64 (n : Int) ++ data.getD []).take 8 = encI64 n := by
      rw [List.take_append_of_le_length (by simp [encI64_length]), List.take_of_length_le (by simp [encI64_length])]
    have hd : (encI64 (n : Int) ++ data.getD []).drop 8 = data.getD [] := by
      rw [List.drop_append_of_le_length (by simp [encI64_length]), List.drop_of_length_le (by simp [encI64_length]), List.nil_append]
    unfold decodeRc
    rw [if_neg (by rw [List.length_append, encI64_length]; omega), ht, hd, decI64_encI64 h h2]
    split
    · exact ⟨rfl, fun q hq => by cases hq⟩
    · rename_i hn
      refine ⟨rfl, ?_⟩
      intro q hq
      refine ⟨n, ?_⟩
      cases data with
      | none => simp [encI64_length] at hn
      | some d => simp only [Option.getD_some, Option.some.injEq] at hq; rw [hq]

theorem decode_add_getD (n : Nat) (data : Option (List Nat)) (h : (n : Int) < 2 ^ 63) (hn : 0 < n) :
    (decodeRc (RcOp.add n data).enc).2.getD [] = data.getD [] := by
  simp only [RcOp.enc]
  have ht : (encI64 (n : Int) ++ data.getD []).take 8 = encI64 n := by
    rw [List.take_append_of_le_length (by simp [encI64_length]), List.take_of_length_le (by simp [encI64_length])]
  have hd : (encI64 (n : Int) ++ data.getD []).drop 8 = data.getD [] := by
    rw [List.drop_append_of_le_length (by simp [encI64_length]), List.drop_of_length_le (by simp [encI64_length]), List.nil_append]
  unfold decodeRc
  rw [if_neg (by rw [List.length_append, encI64_length]; omega), ht, hd, decI64_encI64 (by omega) h]
  split
  · rename_i hc
    rcases hc with hc | hc
    · omega
    · rw [List.length_append, encI64_length] at hc
      have : data.getD [] = [] := List.eq_nil_of_length_eq_zero (by omega)
      rw [this]; rfl
  · rfl

theorem history_ok {P : List Nat} {c : Int} (ops : List RcOp) (h : RcHistory P c ops) (hc : 0 ≤ c ∧ c < 2 ^ 63) :
    OkFrom P c (ops.map RcOp.enc) ∧ sumRc (ops.map RcOp.enc) = rcTotal ops := by
  induction ops generalizing c with
  | nil => exact ⟨trivial, rfl⟩
  | cons op ops ih =>
    obtain ⟨h1, h2, h3, h4⟩ := h
    obtain ⟨d1, d2⟩ := decode_enc (op := op) (by omega) (by omega)
    obtain ⟨i1, i2⟩ := ih h4 ⟨h1, h2⟩
    refine ⟨⟨by rw [d1]; exact h1, by rw [d1]; exact h2, ?_, ?_, by rw [d1]; exact i1⟩, ?_⟩
    · intro hc0 hpos
      rw [d1] at hpos
      cases op with
      | sub n => simp only [RcOp.delta] at hpos; omega
      | add n data =>
        simp only [RcOp.delta] at hpos h2
        rw [decode_add_getD n data (by omega) (by omega)]
        exact h3.1 hc0 (by omega)
    · intro q hq
      obtain ⟨n, rfl⟩ := d2 q hq
      exact h3.2 q rfl
    · simp only [sumRc, rcTotal, List.map_cons, List.sum_cons] at i2 ⊢
      rw [d1, i2]

theorem sumRc_append (a b : List (List Nat)) : sumRc (a ++ b) = sumRc a + sumRc b := by
  simp [sumRc]

/-- However RocksDB groups the merges of a key, a read finds the number of references and, exactly when there are any, the
data. -/
theorem refcount_regroup {P : List Nat} {ops : List RcOp} (h : RcHistory P 0 ops) {ops' : List (List Nat)}
    (hr : Regroup (mergeRc none) (ops.map RcOp.enc) ops') :
    ∃ v, mergeRc none ops' = some v ∧ (decodeRc v).1 = rcTotal ops ∧
      stripRc v = if 0 < rcTotal ops then some P else none := by
  obtain ⟨h1, h2⟩ := history_ok ops h (by omega)
  have key : OkFrom P 0 ops' ∧ sumRc ops' = rcTotal ops := by
    refine Regroup.inv (fun l => OkFrom P 0 l ∧ sumRc l = rcTotal ops) ?_ hr ⟨h1, h2⟩
    rintro a g b v _ hf ⟨hok, hsum⟩
    rw [List.append_assoc] at hok
    obtain ⟨oa, ogb⟩ := OkFrom.append.1 hok
    obtain ⟨og, ob⟩ := OkFrom.append.1 ogb
    have hb := okFrom_bounds a oa (by omega)
    obtain ⟨ov, hv⟩ := okFrom_merge g og hb hf
    have hv' : sumRc [v] = sumRc g := by simp [sumRc, hv]
    refine ⟨?_, ?_⟩
    · rw [List.append_assoc]
      exact OkFrom.append.2 ⟨oa, OkFrom.append.2 ⟨ov, by rw [hv']; exact ob⟩⟩
    · simp only [sumRc_append] at hsum ⊢
      rw [hv']; exact hsum
  obtain ⟨k1, k2⟩ := key
  obtain ⟨f1, f2, f3, f4⟩ := fold_ok (P := P) (c := 0) ops' (0, none) (by simpa using k1) (by simp) (by simp) (by simp)
  have f1 : (ops'.foldl accRc (0, none)).1 = rcTotal ops := by rw [f1, k2]; simp
  obtain ⟨d1, d2, d3⟩ := decodeRc_out (s := ops'.foldl accRc (0, none)) (by omega) (by omega)
  refine ⟨_, rfl, by rw [← f1]; exact d1, ?_⟩
  rw [← f1]
  generalize hS : ops'.foldl accRc (0, none) = S at *
  unfold stripRc outRc
  have hn : ¬ S.1 < 0 := by omega
  rw [if_neg hn]
  by_cases h0 : S.1 = 0
  · rw [if_pos h0, if_pos (by simp), if_neg (by omega)]
  · rw [if_neg h0, if_neg (by rw [List.length_append, encI64_length]; omega),
      List.take_append_of_le_length (by simp [encI64_length]), List.take_of_length_le (by simp [encI64_length]),
      decI64_encI64 (by omega) (by omega), if_pos (by omega), if_pos (by omega),
      List.drop_append_of_le_length (by simp [encI64_length]), List.drop_of_length_le (by simp [encI64_length]), List.nil_append]
    rw [f3 rfl (by omega)]

/-- The stored value is used like a first operand. -/
theorem mergeRc_stored (b : List Nat) (ops : List (List Nat)) : mergeRc (some b) ops = mergeRc none (b :: ops) := by
  have e : accRc (0, none) b = decodeRc b := by
    unfold accRc
    simp only [Option.isNone_none, true_and, Int.zero_add]
    apply Prod.ext
    · rfl
    · simp only
      split
      · rfl
      · rename_i h
        revert h
        rcases hd : decodeRc b with ⟨r, p⟩
        intro h
        cases p with
        | none => rfl
        | some q =>
          unfold decodeRc at hd
          split at hd
          · cases hd
          · split at hd
            · cases hd
            · rename_i h1 h2
              simp only [Prod.mk.injEq] at hd h
              omega
  simp only [mergeRc, List.foldl_cons, e]

/-! ### Archives: `archive_data_merge` (core/src/storage/tables.rs:347-366) -/

/-- The bytes after one another. -/
def mergeArchive (stored : Option (List Nat)) (ops : List (List Nat)) : Option (List Nat) :=
  some (stored.getD [] ++ ops.flatten)

/-- An archive is what was appended, in order, however the merges are grouped. -/
theorem archive_regroup {ops ops' : List (List Nat)} (hr : Regroup (mergeArchive none) ops ops') :
    mergeArchive none ops' = some ops.flatten := by
  have : ops'.flatten = ops.flatten := by
    refine Regroup.inv (fun l => l.flatten = ops.flatten) ?_ hr rfl
    intro a g b v _ hf h
    obtain rfl := Option.some.inj hf
    simpa [mergeArchive] using h
  simp [mergeArchive, this]

theorem mergeArchive_stored (b : List Nat) (ops : List (List Nat)) :
    mergeArchive (some b) ops = mergeArchive none (b :: ops) := by simp [mergeArchive]

end Tycho.Merge
