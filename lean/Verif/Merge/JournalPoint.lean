import Verif.Common.Codec
import Verif.Merge.Spec

/-!
# Journal points (`consensus/src/moderator/journal/point_ref_count.rs`)

TL constructor ids are parameters. Integers are unbounded where the code uses `i64`.
-/
namespace Tycho.Merge
open Tycho.Bytes Tycho.Codec

/-- The TL constructor ids in use (proto.tl:173-175). -/
structure JIds where
  point : Nat
  sub : Nat
  data : Nat

structure JIds.Ok (i : JIds) : Prop where
  point : i.point < 2 ^ 32
  sub : i.sub < 2 ^ 32
  data : i.data < 2 ^ 32
  differ : i.sub ≠ i.data

/-- `JournalPoint::write_to` and `fill_sub` (point_ref_count.rs:6-20, 29-34): `none` is `Sub`. -/
def encJ (i : JIds) (n : Nat) (d : Option (List Nat)) : List Nat :=
  leBytes 4 i.point ++ leBytes 4 n ++ match d with
    | none => leBytes 4 i.sub
    | some b => leBytes 4 i.data ++ b

/-- All remaining bytes. -/
def rdRest : Rd (Option (List Nat)) := fun s => some (some s, [])

/-- `JournalPointData::read_from`: raw bytes are all that remains. -/
def rdJData (i : JIds) : Rd (Option (List Nat)) := do
  let x ← rdLe 4
  if x = i.sub then return none
  else if x = i.data then rdRest
  else Rd.fail

/-- `JournalPoint::read_from`. -/
def rdJ (i : JIds) : Rd (Nat × Option (List Nat)) := do
  let x ← rdLe 4
  if x = i.point then
    let n ← rdLe 4
    let d ← rdJData i
    return (n, d)
  else Rd.fail

/-- What is read; trailing bytes of a `Sub` are ignored. -/
def decJ (i : JIds) (b : List Nat) : Option (Nat × Option (List Nat)) := (rdJ i b).map (·.1)

/-- One value (point_ref_count.rs:66-88); a length mismatch is an error (release build). -/
def accJ (s : Int × Option (List Nat)) (v : Nat × Option (List Nat)) : Option (Int × Option (List Nat)) :=
  match v.2 with
  | none => some (s.1 - v.1, s.2)
  | some b => if s.2.any (fun q => q.length ≠ b.length) then none else some (s.1 + v.1, some b)

/-- The loop (point_ref_count.rs:54-89). -/
def foldJ (i : JIds) (s : Int × Option (List Nat)) : List (List Nat) → Option (Int × Option (List Nat))
  | [] => some s
  | b :: l => (decJ i b).bind (fun v => (accJ s v).bind (fun s' => foldJ i s' l))

/-- `none_if_err` (point_ref_count.rs:37-48). -/
def toU32 (z : Int) : Option Nat := if 0 ≤ z ∧ z < 2 ^ 32 then some z.toNat else none

/-- The result (point_ref_count.rs:91-114). -/
def outJ (i : JIds) (s : Int × Option (List Nat)) : Option (List Nat) :=
  if s.1 < 0 ∨ s.2.isNone then
    if 0 < s.1 then none else (toU32 (-s.1)).map (fun n => encJ i n none)
  else (toU32 s.1).map (fun n => encJ i n s.2)

/-- `merge_bytes` (point_ref_count.rs:36-115). -/
def mergeJ (i : JIds) (ops : List (List Nat)) : Option (List Nat) := (foldJ i (0, none) ops).bind (outJ i)

/-- What callers write. -/
inductive JOp
  /-- a point with `n` references -/
  | add (n : Nat)
  /-- `n` references less -/
  | sub (n : Nat)

def JOp.enc (i : JIds) (P : List Nat) : JOp → List Nat
  | .add n => encJ i n (some P)
  | .sub n => encJ i n none

def JOp.delta : JOp → Int
  | .add n => n
  | .sub n => -(n : Int)

/-- The number of references never goes below zero and fits `u32`. -/
def JHistory : Int → List JOp → Prop
  | _, [] => True
  | c, op :: ops => 0 ≤ c + op.delta ∧ c + op.delta < 2 ^ 32 ∧ JHistory (c + op.delta) ops

def jTotal (ops : List JOp) : Int := (ops.map JOp.delta).sum

/-! ### Proof -/

theorem decJ_encJ {i : JIds} (hi : i.Ok) {n : Nat} (hn : n < 2 ^ 32) (d : Option (List Nat)) :
    decJ i (encJ i n d) = some (n, d) := by
  have e4 : (256 : Nat) ^ 4 = 2 ^ 32 := by decide
  unfold decJ encJ rdJ
  rw [List.append_assoc, Rd.bind_of (rdLe_append (n := 4) (by rw [e4]; exact hi.point) _), if_pos rfl,
    Rd.bind_of (rdLe_append (n := 4) (by rw [e4]; exact hn) _)]
  cases d with
  | none =>
    have h : rdJData i (leBytes 4 i.sub) = some (none, []) := by
      have := rdLe_append (n := 4) (x := i.sub) (by rw [e4]; exact hi.sub) []
      rw [List.append_nil] at this
      unfold rdJData
      rw [Rd.bind_of this, if_pos rfl]; rfl
    rw [Rd.bind_of h]; rfl
  | some b =>
    have h : rdJData i (leBytes 4 i.data ++ b) = some (some b, []) := by
      unfold rdJData
      rw [Rd.bind_of (rdLe_append (n := 4) (by rw [e4]; exact hi.data) _), if_neg (Ne.symm hi.differ), if_pos rfl]; rfl
    show Option.map _ ((do let d ← rdJData i; return (n, d) : Rd _) (leBytes 4 i.data ++ b)) = _
    rw [Rd.bind_of h]; rfl

/-- The change of the count by a value. -/
def valDelta (v : Nat × Option (List Nat)) : Int := if v.2.isSome then v.1 else -(v.1 : Int)

/-- Values good from count `c` on, all with payload `P`. -/
def OkJ (i : JIds) (P : List Nat) : Int → List (List Nat) → Prop
  | _, [] => True
  | c, b :: l => ∃ v, decJ i b = some v ∧ 0 ≤ c + valDelta v ∧ c + valDelta v < 2 ^ 32 ∧ (∀ q, v.2 = some q → q = P) ∧
      OkJ i P (c + valDelta v) l

/-- The change of the count by stored values. -/
def bytesDelta (i : JIds) (b : List Nat) : Int := match decJ i b with
  | some v => valDelta v
  | none => 0

def sumJ (i : JIds) (l : List (List Nat)) : Int := (l.map (bytesDelta i)).sum

theorem sumJ_append (i : JIds) (a b : List (List Nat)) : sumJ i (a ++ b) = sumJ i a + sumJ i b := by simp [sumJ]

theorem sumJ_cons {i : JIds} {b : List Nat} {v} (h : decJ i b = some v) (l : List (List Nat)) :
    sumJ i (b :: l) = valDelta v + sumJ i l := by
  simp [sumJ, bytesDelta, h]

theorem OkJ.append {i : JIds} {P : List Nat} {c : Int} {a b : List (List Nat)} :
    OkJ i P c (a ++ b) ↔ OkJ i P c a ∧ OkJ i P (c + sumJ i a) b := by
  induction a generalizing c with
  | nil => simp [OkJ, sumJ]
  | cons x a ih =>
    simp only [List.cons_append, OkJ]
    constructor
    · rintro ⟨v, hv, h1, h2, h3, h4⟩
      obtain ⟨h5, h6⟩ := ih.1 h4
      exact ⟨⟨v, hv, h1, h2, h3, h5⟩, by rw [sumJ_cons hv, ← Int.add_assoc]; exact h6⟩
    · rintro ⟨⟨v, hv, h1, h2, h3, h4⟩, h5⟩
      rw [sumJ_cons hv, ← Int.add_assoc] at h5
      exact ⟨v, hv, h1, h2, h3, ih.2 ⟨h4, h5⟩⟩

/-- The loop over good values. -/
theorem foldJ_ok {i : JIds} {P : List Nat} {c : Int} (g : List (List Nat)) (s : Int × Option (List Nat))
    (hg : OkJ i P (c + s.1) g) (h1 : ∀ q, s.2 = some q → q = P) (h2 : s.2 = none → s.1 ≤ 0) (hc : 0 ≤ c + s.1 ∧ c + s.1 < 2 ^ 32) :
    ∃ s', foldJ i s g = some s' ∧ s'.1 = s.1 + sumJ i g ∧ (∀ q, s'.2 = some q → q = P) ∧ (s'.2 = none → s'.1 ≤ 0) ∧
      0 ≤ c + s'.1 ∧ c + s'.1 < 2 ^ 32 := by
  induction g generalizing s with
  | nil => exact ⟨s, rfl, by simp [sumJ], h1, h2, hc⟩
  | cons b g ih =>
    obtain ⟨v, hv, g1, g2, g3, g4⟩ := hg
    have hacc : ∃ s1, accJ s v = some s1 ∧ s1.1 = s.1 + valDelta v ∧ (∀ q, s1.2 = some q → q = P) ∧ (s1.2 = none → s1.1 ≤ 0) := by
      obtain ⟨n, d⟩ := v
      cases d with
      | none =>
        refine ⟨(s.1 - n, s.2), rfl, ?_, h1, ?_⟩
        · show s.1 - (n : Int) = s.1 + -(n : Int); omega
        · intro h
          have := h2 h
          show s.1 - (n : Int) ≤ 0; omega
      | some q =>
        have hq := g3 q rfl
        refine ⟨(s.1 + n, some q), ?_, rfl, fun q' h => by rw [← Option.some.inj h, hq], fun h => by cases h⟩
        unfold accJ
        simp only
        rw [if_neg]
        cases hs : s.2 with
        | none => simp
        | some q' => simp [h1 q' hs, hq]
    obtain ⟨s1, e1, e2, e3, e4⟩ := hacc
    have e5 : c + s1.1 = c + s.1 + valDelta v := by omega
    obtain ⟨s', f1, f2, f3⟩ := ih s1 (by rw [e5]; exact g4) e3 e4 (by rw [e5]; exact ⟨g1, g2⟩)
    refine ⟨s', ?_, ?_, f3⟩
    · show (decJ i b).bind _ = _
      rw [hv, Option.bind_some, e1, Option.bind_some, f1]
    · rw [f2, e2, sumJ_cons hv]; omega

theorem mergeJ_ok {i : JIds} (hi : i.Ok) {P : List Nat} {c : Int} (g : List (List Nat)) (hg : OkJ i P c g)
    (hc : 0 ≤ c ∧ c < 2 ^ 32) :
    ∃ b v, mergeJ i g = some b ∧ decJ i b = some v ∧ valDelta v = sumJ i g ∧ (∀ q, v.2 = some q → q = P) ∧
      0 ≤ c + sumJ i g ∧ c + sumJ i g < 2 ^ 32 ∧ (0 < sumJ i g → v.2 = some P) := by
  obtain ⟨s, f1, f2, f3, f4, f5⟩ := foldJ_ok (c := c) g (0, none) (by simpa using hg) (by simp) (by simp) (by simpa using hc)
  have f2 : s.1 = sumJ i g := by rw [f2]; simp
  have hm : mergeJ i g = outJ i s := by unfold mergeJ; rw [f1]; rfl
  rw [hm, ← f2]
  unfold outJ
  by_cases hb : s.1 < 0 ∨ s.2.isNone
  · rw [if_pos hb]
    have hle : s.1 ≤ 0 := by
      rcases hb with h | h
      · omega
      · exact f4 (by simpa using h)
    rw [if_neg (by omega)]
    unfold toU32
    rw [if_pos (by omega)]
    refine ⟨_, ((-s.1).toNat, none), rfl, decJ_encJ hi (by omega) none, ?_, fun q h => (by cases h), f5.1, f5.2, fun h => by omega⟩
    show -(((-s.1).toNat : Nat) : Int) = s.1
    omega
  · rw [if_neg hb]
    have h0 : 0 ≤ s.1 := by omega
    obtain ⟨q, hq⟩ : ∃ q, s.2 = some q := by
      cases hs : s.2 with
      | none => exact absurd (Or.inr (by rw [hs]; rfl)) hb
      | some q => exact ⟨q, rfl⟩
    have hqP := f3 q hq
    have hlt : s.1 < 2 ^ 32 := by omega
    unfold toU32
    rw [if_pos ⟨h0, hlt⟩]
    refine ⟨_, (s.1.toNat, s.2), rfl, decJ_encJ hi (by omega) s.2, ?_, f3, f5.1, f5.2, fun _ => by rw [hq, hqP]⟩
    unfold valDelta
    simp only [hq, Option.isSome_some, if_true]
    omega

theorem OkJ.regroup {i : JIds} (hi : i.Ok) {P : List Nat} {ops ops' : List (List Nat)} (h : OkJ i P 0 ops)
    (hr : Regroup (mergeJ i) ops ops') : OkJ i P 0 ops' ∧ sumJ i ops' = sumJ i ops := by
  refine Regroup.inv (fun l => OkJ i P 0 l ∧ sumJ i l = sumJ i ops) ?_ hr ⟨h, rfl⟩
  rintro a g b v hne hf ⟨hok, hsum⟩
  rw [List.append_assoc] at hok
  obtain ⟨oa, ogb⟩ := OkJ.append.1 hok
  obtain ⟨og, ob⟩ := OkJ.append.1 ogb
  have hb : 0 ≤ 0 + sumJ i a ∧ 0 + sumJ i a < 2 ^ 32 := by
    obtain ⟨_, _, _, _, _, _, h5, h6, _⟩ := mergeJ_ok hi a oa (by omega)
    exact ⟨h5, h6⟩
  obtain ⟨w, x, m1, m2, m3, m4, m5, m6, m7⟩ := mergeJ_ok hi g og hb
  rw [hf] at m1
  obtain rfl := Option.some.inj m1
  have hv : sumJ i [v] = sumJ i g := by rw [sumJ_cons m2, m3]; simp [sumJ]
  refine ⟨?_, ?_⟩
  · rw [List.append_assoc]
    refine OkJ.append.2 ⟨oa, OkJ.append.2 ⟨⟨x, m2, ?_, ?_, m4, trivial⟩, by rw [hv]; exact ob⟩⟩
    · rw [m3]; exact m5
    · rw [m3]; exact m6
  · simp only [sumJ_append] at hsum ⊢
    rw [hv]; exact hsum

theorem enc_okJ {i : JIds} (hi : i.Ok) {P : List Nat} {c : Int} (ops : List JOp) (hc : 0 ≤ c ∧ c < 2 ^ 32) (h : JHistory c ops) :
    OkJ i P c (ops.map (JOp.enc i P)) ∧ sumJ i (ops.map (JOp.enc i P)) = jTotal ops := by
  induction ops generalizing c with
  | nil => exact ⟨trivial, rfl⟩
  | cons op ops ih =>
    obtain ⟨h1, h2, h3⟩ := h
    have hd : ∃ v, decJ i (op.enc i P) = some v ∧ valDelta v = op.delta ∧ ∀ q, v.2 = some q → q = P := by
      cases op with
      | add n =>
        have hn : n < 2 ^ 32 := by simp only [JOp.delta] at h1 h2; omega
        have hd := decJ_encJ hi hn (some P)
        exact ⟨(n, some P), hd, rfl, fun q h => (Option.some.inj h).symm⟩
      | sub n =>
        have hn : n < 2 ^ 32 := by simp only [JOp.delta] at h1 h2; omega
        have hd := decJ_encJ hi hn none
        exact ⟨(n, none), hd, rfl, fun q h => by cases h⟩
    obtain ⟨v, v1, v2, v3⟩ := hd
    obtain ⟨i1, i2⟩ := ih ⟨h1, h2⟩ h3
    refine ⟨⟨v, v1, by rw [v2]; exact h1, by rw [v2]; exact h2, v3, by rw [v2]; exact i1⟩, ?_⟩
    rw [List.map_cons, sumJ_cons v1, i2, v2]
    simp [jTotal]

/-- However the merges of a journal point are grouped, none fails, and a read finds the number of references, with the point's
bytes if there are any references. -/
theorem journal_point_regroup {i : JIds} (hi : i.Ok) {P : List Nat} {ops : List JOp} (h : JHistory 0 ops)
    {ops' : List (List Nat)} (hr : Regroup (mergeJ i) (ops.map (JOp.enc i P)) ops') :
    ∃ b n d, mergeJ i ops' = some b ∧ decJ i b = some (n, d) ∧ (n : Int) = jTotal ops ∧
      (0 < jTotal ops → d = some P) ∧ (d = none ∨ d = some P) := by
  obtain ⟨h1, h2⟩ := enc_okJ hi (P := P) ops (by omega) h
  obtain ⟨k1, k2⟩ := OkJ.regroup hi h1 hr
  obtain ⟨b, ⟨n, d⟩, m1, m2, m3, m4, m5, m6, m7⟩ := mergeJ_ok hi ops' k1 (by omega)
  refine ⟨b, n, d, m1, m2, ?_, fun hp => m7 (by omega), ?_⟩
  · rw [← h2, ← k2, ← m3]
    unfold valDelta at m3 ⊢
    split
    · rfl
    · rename_i hd
      simp only [hd] at m3
      simp at m3
      omega
  · cases d with
    | none => exact Or.inl rfl
    | some q => exact Or.inr (by rw [m4 q rfl])

end Tycho.Merge
