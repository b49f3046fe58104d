import Verif.BlockMeta.Model
import Mathlib.Tactic.ByContra

/-! C16 (block metadata flags) and C22 (stored block handles). -/
namespace Tycho.BlockMeta
open Tycho.Bytes

/-! Bit access: bit `i` of the flag set is bit `32 + i` of the word. -/

theorem getLsbD_flagsOf (m : Meta) (i : Nat) (h : i < 32) :
    m.flagsOf.getLsbD i = m.flags.getLsbD (32 + i) := by
  simp [Meta.flagsOf, h]

theorem getLsbD_seqno (m : Meta) (i : Nat) (h : i < 32) :
    m.seqno.getLsbD i = m.flags.getLsbD i := by
  simp [Meta.seqno, h]

theorem shifted_bit (f : BitVec 32) (i : Nat) (h : i < 64) :
    (f.setWidth 64 <<< 32).getLsbD i = (decide (32 ≤ i) && f.getLsbD (i - 32)) := by
  simp only [BitVec.getLsbD_shiftLeft, BitVec.getLsbD_setWidth]
  by_cases h32 : i < 32
  · simp [h32, h, show ¬ 32 ≤ i by omega]
  · simp [h32, h, show 32 ≤ i by omega, show i - 32 < 64 by omega]

/-- C16: setting flags sets exactly those flags and disturbs nothing else. -/
theorem addFlags_effect (m : Meta) (f : BitVec 32) :
    (m.addFlags f).1.flagsOf = m.flagsOf ||| f ∧ (m.addFlags f).1.seqno = m.seqno ∧
    (m.addFlags f).1.genUtime = m.genUtime := by
  refine ⟨?_, ?_, rfl⟩
  · apply BitVec.eq_of_getLsbD_eq
    intro i hi
    rw [getLsbD_flagsOf _ i hi, BitVec.getLsbD_or, getLsbD_flagsOf _ i hi]
    simp only [Meta.addFlags, BitVec.getLsbD_or, shifted_bit f (32 + i) (by omega)]
    simp
  · apply BitVec.eq_of_getLsbD_eq
    intro i hi
    rw [getLsbD_seqno _ i hi, getLsbD_seqno _ i hi]
    simp only [Meta.addFlags, BitVec.getLsbD_or, shifted_bit f i (by omega)]
    simp [show ¬ 32 ≤ i by omega]

/-- C16: clearing flags clears exactly those flags and disturbs nothing else. -/
theorem removeFlags_effect (m : Meta) (f : BitVec 32) :
    (m.removeFlags f).1.flagsOf = m.flagsOf &&& ~~~f ∧ (m.removeFlags f).1.seqno = m.seqno ∧
    (m.removeFlags f).1.genUtime = m.genUtime := by
  refine ⟨?_, ?_, rfl⟩
  · apply BitVec.eq_of_getLsbD_eq
    intro i hi
    rw [getLsbD_flagsOf _ i hi, BitVec.getLsbD_and, getLsbD_flagsOf _ i hi]
    simp only [Meta.removeFlags, BitVec.getLsbD_and, BitVec.getLsbD_not,
      shifted_bit f (32 + i) (by omega)]
    simp [hi, show 32 + i < 64 by omega]
  · apply BitVec.eq_of_getLsbD_eq
    intro i hi
    rw [getLsbD_seqno _ i hi, getLsbD_seqno _ i hi]
    simp only [Meta.removeFlags, BitVec.getLsbD_and, BitVec.getLsbD_not, shifted_bit f i (by omega)]
    simp [show ¬ 32 ≤ i by omega, show i < 64 by omega]

theorem meta_ext (a b : Meta) (h1 : a.flagsOf = b.flagsOf) (h2 : a.seqno = b.seqno)
    (h3 : a.genUtime = b.genUtime) : a = b := by
  have : a.flags = b.flags := by
    apply BitVec.eq_of_getLsbD_eq
    intro i hi
    by_cases h : i < 32
    · rw [← getLsbD_seqno a i h, ← getLsbD_seqno b i h, h2]
    · have ea := getLsbD_flagsOf a (i - 32) (by omega)
      have eb := getLsbD_flagsOf b (i - 32) (by omega)
      rw [show 32 + (i - 32) = i by omega] at ea eb
      rw [← ea, ← eb, h1]
  cases a; cases b; simp_all

theorem or_eq_left_iff (a b : BitVec 64) : a ||| b = a ↔ a &&& b = b := by
  constructor
  · intro h
    apply BitVec.eq_of_getLsbD_eq
    intro i hi
    have := congrArg (fun v => BitVec.getLsbD v i) h
    simp only [BitVec.getLsbD_or, BitVec.getLsbD_and] at this ⊢
    cases h1 : a.getLsbD i <;> cases h2 : b.getLsbD i <;> simp_all
  · intro h
    apply BitVec.eq_of_getLsbD_eq
    intro i hi
    have := congrArg (fun v => BitVec.getLsbD v i) h
    simp only [BitVec.getLsbD_or, BitVec.getLsbD_and] at this ⊢
    cases h1 : a.getLsbD i <;> cases h2 : b.getLsbD i <;> simp_all

theorem and_not_eq_left_iff (a b : BitVec 64) : a &&& ~~~b = a ↔ a &&& b = 0 := by
  constructor
  · intro h
    apply BitVec.eq_of_getLsbD_eq
    intro i hi
    have := congrArg (fun v => BitVec.getLsbD v i) h
    simp only [BitVec.getLsbD_and, BitVec.getLsbD_not, hi] at this ⊢
    cases h1 : a.getLsbD i <;> cases h2 : b.getLsbD i <;> simp_all
  · intro h
    apply BitVec.eq_of_getLsbD_eq
    intro i hi
    have := congrArg (fun v => BitVec.getLsbD v i) h
    simp only [BitVec.getLsbD_and, BitVec.getLsbD_not, hi] at this ⊢
    cases h1 : a.getLsbD i <;> cases h2 : b.getLsbD i <;> simp_all

/-- C16: the returned boolean tells exactly whether something changed. -/
theorem addFlags_reports_change (m : Meta) (f : BitVec 32) :
    (m.addFlags f).2 = true ↔ (m.addFlags f).1 ≠ m := by
  simp only [Meta.addFlags, bne_iff_ne, ne_eq]
  rw [← or_eq_left_iff]
  cases m
  simp

theorem removeFlags_reports_change (m : Meta) (f : BitVec 32) :
    (m.removeFlags f).2 = true ↔ (m.removeFlags f).1 ≠ m := by
  simp only [Meta.removeFlags, bne_iff_ne, ne_eq]
  rw [← and_not_eq_left_iff]
  cases m
  simp

/-- C16: fresh metadata. -/
theorem withData_reads_back (k : Bool) (utime seqno : BitVec 32) :
    (withData k utime seqno).flagsOf = (if k then IS_KEY_BLOCK else 0) ∧
    (withData k utime seqno).seqno = seqno ∧ (withData k utime seqno).genUtime = utime := by
  refine ⟨?_, ?_, rfl⟩
  · apply BitVec.eq_of_getLsbD_eq
    intro i hi
    rw [getLsbD_flagsOf _ i hi]
    simp only [withData, BitVec.getLsbD_or, BitVec.getLsbD_setWidth]
    have : seqno.getLsbD (32 + i) = false := by
      apply BitVec.getLsbD_of_ge; omega
    cases k
    · simp [this]
    · simp only [if_true, shifted_bit _ (32 + i) (by omega), this]
      simp
  · apply BitVec.eq_of_getLsbD_eq
    intro i hi
    rw [getLsbD_seqno _ i hi]
    simp only [withData, BitVec.getLsbD_or, BitVec.getLsbD_setWidth]
    cases k
    · simp [show i < 64 by omega]
    · simp only [if_true, shifted_bit _ i (by omega)]
      simp [show ¬ 32 ≤ i by omega, show i < 64 by omega]

/-- C16: the stored form is 12 bytes and reads back identically; any other length is refused. -/
theorem stored_form (m : Meta) :
    m.serialize.length = 12 ∧ deserialize m.serialize = some m ∧
    ∀ bytes : List Nat, bytes.length ≠ 12 → deserialize bytes = none := by
  have hl : m.serialize.length = 12 := by simp [Meta.serialize]
  refine ⟨hl, ?_, ?_⟩
  · unfold deserialize
    rw [if_pos hl]
    unfold Meta.serialize
    have ht : (leBytes 8 m.flags.toNat ++ leBytes 4 m.genUtime.toNat).take 8 = leBytes 8 m.flags.toNat := by
      rw [List.take_append_of_le_length (by simp)]
      rw [List.take_of_length_le (by simp)]
    have hd : (leBytes 8 m.flags.toNat ++ leBytes 4 m.genUtime.toNat).drop 8 = leBytes 4 m.genUtime.toNat := by
      rw [List.drop_append_of_le_length (by simp)]
      rw [List.drop_of_length_le (by simp)]
      rfl
    rw [ht, hd, ofLe_leBytes 8 _ (by have := m.flags.isLt; omega),
      ofLe_leBytes 4 _ (by have := m.genUtime.isLt; omega)]
    cases m
    simp
  · intro bytes h
    unfold deserialize
    rw [if_neg h]

/-- C16: any sequence of updates acts on the flag set alone: set / clear per bit. -/
theorem updates_act_on_flags (m : Meta) (ops : List (Bool × BitVec 32)) :
    let r := ops.foldl (fun m o => if o.1 then (m.addFlags o.2).1 else (m.removeFlags o.2).1) m
    r.flagsOf = ops.foldl (fun fl o => if o.1 then fl ||| o.2 else fl &&& ~~~o.2) m.flagsOf ∧
    r.seqno = m.seqno ∧ r.genUtime = m.genUtime := by
  induction ops generalizing m with
  | nil => exact ⟨rfl, rfl, rfl⟩
  | cons o ops ih =>
    dsimp only at ih ⊢
    simp only [List.foldl_cons]
    cases h : o.1
    · have e := removeFlags_effect m o.2
      have := ih (m.removeFlags o.2).1
      simp only [Bool.false_eq_true, if_false]
      rw [e.1, e.2.1, e.2.2] at this
      exact this
    · have e := addFlags_effect m o.2
      have := ih (m.addFlags o.2).1
      simp only [if_true]
      rw [e.1, e.2.1, e.2.2] at this
      exact this

/-! ### garbage collection decisions -/

/-- The named single flags and their bit numbers. -/
def flagBits : List (BitVec 32 × Nat) :=
  [(HAS_DATA, 0), (HAS_PROOF, 1), (HAS_QUEUE_DIFF, 2), (HAS_STATE, 3), (HAS_PERSISTENT_SHARD_STATE, 4),
   (HAS_PERSISTENT_QUEUE_STATE, 5), (HAS_NEXT_1, 6), (HAS_NEXT_2, 7), (HAS_PREV_1, 8), (HAS_PREV_2, 9),
   (IS_COMMITTED, 10), (IS_KEY_BLOCK, 11), (IS_PERSISTENT, 12), (IS_REMOVED, 15), (IS_ZEROSTATE, 16),
   (HAS_VIRTUAL_STATE, 17), (SKIP_STATES_GC, 18), (SKIP_STATES_GC_FINISHED, 19), (SKIP_BLOCKS_GC, 20),
   (SKIP_BLOCKS_GC_FINISHED, 21)]

/-- Different flags use different bits, so no flag aliases another. -/
theorem flags_distinct : (flagBits.map Prod.snd).Nodup ∧ ∀ e ∈ flagBits, e.1 = BitVec.twoPow 32 e.2 := by
  constructor
  · decide
  · decide

theorem contains_bit (fl : BitVec 32) (i : Nat) (h : i < 32) :
    contains fl (1#32 <<< i) = fl.getLsbD i := by
  unfold contains
  rw [Bool.eq_iff_iff, beq_iff_eq]
  constructor
  · intro he
    have := congrArg (fun v => BitVec.getLsbD v i) he
    simp only [BitVec.getLsbD_and, BitVec.getLsbD_shiftLeft] at this
    simp [h] at this
    exact this
  · intro he
    apply BitVec.eq_of_getLsbD_eq
    intro j hj
    simp only [BitVec.getLsbD_and, BitVec.getLsbD_shiftLeft]
    by_cases hji : j = i
    · subst hji; simp [he]
    · rcases Nat.lt_or_ge j i with h1 | h1
      · simp [h1]
      · have : j - i ≠ 0 := by omega
        simp [this]

/-- C16: a handle is retained exactly when it is a key, persistent or zero-state block, or a
"skip" mark is set and not finished. -/
theorem retained_iff (fl : BitVec 32) :
    retainDuringGc fl = true ↔
      fl.getLsbD 11 = true ∨ fl.getLsbD 12 = true ∨ fl.getLsbD 16 = true ∨
      (fl.getLsbD 20 = true ∧ fl.getLsbD 21 = false) ∨ (fl.getLsbD 18 = true ∧ fl.getLsbD 19 = false) := by
  have hi : isImportant fl = true ↔
      fl.getLsbD 11 = true ∨ fl.getLsbD 12 = true ∨ fl.getLsbD 16 = true := by
    unfold isImportant intersects
    rw [bne_iff_ne]
    have hm : (IS_KEY_BLOCK ||| IS_PERSISTENT ||| IS_ZEROSTATE) = 71680#32 := by decide
    rw [hm]
    constructor
    · intro h
      by_contra hc
      apply h
      simp only [not_or, Bool.not_eq_true] at hc
      apply BitVec.eq_of_getLsbD_eq
      intro j hj
      rw [BitVec.getLsbD_and]
      have hbit : (71680#32).getLsbD j = (j == 11 || j == 12 || j == 16) := by
        have : ∀ j : Fin 32, (71680#32).getLsbD j = ((j : Nat) == 11 || (j : Nat) == 12 || (j : Nat) == 16) := by
          decide
        exact this ⟨j, hj⟩
      rw [hbit]
      by_cases h1 : j = 11
      · subst h1; rw [hc.1]; rfl
      · by_cases h2 : j = 12
        · subst h2; rw [hc.2.1]; rfl
        · by_cases h3 : j = 16
          · subst h3; rw [hc.2.2]; rfl
          · simp [h1, h2, h3]
    · intro h he
      have hb := fun i => congrArg (fun v => BitVec.getLsbD v i) he
      rcases h with h | h | h
      · have := hb 11; simp only [BitVec.getLsbD_and, h] at this; exact absurd this (by decide)
      · have := hb 12; simp only [BitVec.getLsbD_and, h] at this; exact absurd this (by decide)
      · have := hb 16; simp only [BitVec.getLsbD_and, h] at this; exact absurd this (by decide)
  unfold retainDuringGc skipBlocksGc skipStatesGc SKIP_BLOCKS_GC SKIP_BLOCKS_GC_FINISHED SKIP_STATES_GC
    SKIP_STATES_GC_FINISHED
  rw [contains_bit fl 20 (by decide), contains_bit fl 21 (by decide), contains_bit fl 18 (by decide),
    contains_bit fl 19 (by decide)]
  simp only [Bool.or_eq_true, Bool.and_eq_true, Bool.not_eq_true', hi, or_assoc]

/-- C16: the cache collector never drops the zero state, a retained block, or a block at or above
the given tops; everything else is dropped. -/
theorem gc_keeps_iff (fl : BitVec 32) (mc : Bool) (seqno mcSeqno : Nat) (shardTop : Bool) :
    gcKeeps fl mc seqno mcSeqno shardTop = true ↔
      seqno = 0 ∨ retainDuringGc fl = true ∨ (mc = true ∧ mcSeqno ≤ seqno) ∨
      (mc = false ∧ shardTop = true) := by
  unfold gcKeeps
  simp [or_assoc]

/-- C16: a part is reported present exactly when its flag is set and the block is not removed. -/
theorem hasPart_iff (fl part : BitVec 32) (hp : part &&& IS_REMOVED = 0) :
    hasPart fl part = true ↔ contains fl part = true ∧ fl.getLsbD 15 = false := by
  unfold hasPart contains
  rw [beq_iff_eq, beq_iff_eq]
  have hrem : ∀ j, j < 32 → IS_REMOVED.getLsbD j = decide (j = 15) := by
    intro j hj
    have : ∀ j : Fin 32, IS_REMOVED.getLsbD j = decide ((j : Nat) = 15) := by decide
    exact this ⟨j, hj⟩
  have hp15 : part.getLsbD 15 = false := by
    have := congrArg (fun v => BitVec.getLsbD v 15) hp
    simp only [BitVec.getLsbD_and, hrem 15 (by decide)] at this
    simpa using this
  constructor
  · intro h
    constructor
    · apply BitVec.eq_of_getLsbD_eq
      intro j hj
      have := congrArg (fun v => BitVec.getLsbD v j) h
      simp only [BitVec.getLsbD_and, BitVec.getLsbD_or, hrem j hj] at this ⊢
      cases h1 : part.getLsbD j
      · simp
      · simpa [h1] using this
    · have := congrArg (fun v => BitVec.getLsbD v 15) h
      simp only [BitVec.getLsbD_and, BitVec.getLsbD_or, hrem 15 (by decide), hp15] at this
      simpa using this
  · rintro ⟨h1, h2⟩
    apply BitVec.eq_of_getLsbD_eq
    intro j hj
    have := congrArg (fun v => BitVec.getLsbD v j) h1
    simp only [BitVec.getLsbD_and, BitVec.getLsbD_or, hrem j hj] at this ⊢
    by_cases hj15 : j = 15
    · subst hj15
      rw [h2, hp15]
      decide
    · simp [hj15, this]

/-! ### C22: the stored handle -/

theorem zipWith_or_serialize (a b : Meta) :
    List.zipWith (· ||| ·) a.serialize b.serialize = (a.or b).serialize := by
  unfold Meta.serialize Meta.or
  rw [List.zipWith_append (by simp), leBytes_or, leBytes_or, BitVec.toNat_or, BitVec.toNat_or]

theorem zero_serialize : List.replicate 12 0 = (Meta.mk 0 0).serialize := by decide

theorem zero_or (m : Meta) : (Meta.mk 0 0).or m = m := by
  cases m; simp [Meta.or]

/-- C22: the merge operator on stored bytes is the or of the metadata, for any number of operands. -/
theorem mergeOp_is_or (cur : Option Meta) (ops : List Meta) :
    mergeOp (cur.map Meta.serialize) (ops.map Meta.serialize) =
      some (ops.foldl Meta.or (cur.getD ⟨0, 0⟩)).serialize := by
  unfold mergeOp
  rw [if_pos]
  · congr 1
    have hbase : (cur.map Meta.serialize).getD (List.replicate 12 0) = (cur.getD ⟨0, 0⟩).serialize := by
      cases cur with
      | none => exact zero_serialize
      | some m => rfl
    rw [hbase]
    generalize cur.getD ⟨0, 0⟩ = m
    induction ops generalizing m with
    | nil => rfl
    | cons o ops ih =>
      simp only [List.map_cons, List.foldl_cons, zipWith_or_serialize]
      exact ih (m.or o)
  · refine ⟨?_, ?_⟩
    · intro c hc
      cases cur with
      | none => cases hc
      | some m => cases hc; exact (stored_form m).1
    · intro o ho
      obtain ⟨m, _, rfl⟩ := List.mem_map.1 ho
      exact (stored_form m).1

theorem or_comm' (a b : Meta) : a.or b = b.or a := by
  simp [Meta.or, BitVec.or_comm]

theorem or_assoc' (a b c : Meta) : (a.or b).or c = a.or (b.or c) := by
  simp [Meta.or, BitVec.or_assoc]

theorem or_self' (a : Meta) : a.or a = a := by
  cases a; simp [Meta.or]

/-- C22: the result does not depend on the order or grouping in which the database applies the
merges, nor on a merge being applied twice. -/
theorem merge_order_irrelevant (m : Meta) (xs ys : List Meta) (h : xs.Perm ys) :
    xs.foldl Meta.or m = ys.foldl Meta.or m ∧
    (xs ++ xs).foldl Meta.or m = xs.foldl Meta.or m ∧
    xs.foldl Meta.or m = m.or (xs.foldl Meta.or ⟨0, 0⟩) := by
  have key : ∀ (l : List Meta) (a : Meta), l.foldl Meta.or a = a.or (l.foldl Meta.or ⟨0, 0⟩) := by
    intro l
    induction l with
    | nil => intro a; simp [Meta.or]
    | cons x l ih =>
      intro a
      simp only [List.foldl_cons]
      rw [ih (a.or x), ih ((Meta.mk 0 0).or x), zero_or, or_assoc']
  refine ⟨?_, ?_, key xs m⟩
  · induction h generalizing m with
    | nil => rfl
    | cons x _ ih => simp only [List.foldl_cons]; exact ih _
    | swap x y l =>
      simp only [List.foldl_cons]
      rw [or_assoc', or_comm' y x, ← or_assoc']
    | trans _ _ ih1 ih2 => exact (ih1 m).trans (ih2 m)
  · rw [List.foldl_append, key xs (xs.foldl Meta.or m), key xs m, or_assoc', or_self']

/-- `a` has every bit of `b`. -/
def Covers (a b : Meta) : Prop := a.or b = a

theorem covers_or_left (a b : Meta) : Covers (a.or b) a := by
  unfold Covers; rw [or_comm', ← or_assoc', or_self']
theorem covers_or_right (a b : Meta) : Covers (a.or b) b := by
  unfold Covers; rw [or_assoc', or_self']
theorem covers_refl (a : Meta) : Covers a a := or_self' a
theorem covers_trans {a b c : Meta} (h1 : Covers a b) (h2 : Covers b c) : Covers a c := by
  unfold Covers at *
  rw [← h1, or_assoc', h2]
theorem covers_antisymm {a b : Meta} (h1 : Covers a b) (h2 : Covers b a) : a = b := by
  unfold Covers at *
  rw [← h1, or_comm', h2]
theorem covers_lub {a b c : Meta} (h1 : Covers a b) (h2 : Covers a c) : Covers a (b.or c) := by
  unfold Covers at *
  rw [← or_assoc', h1, h2]

/-- The word with only the flag bits `f`. -/
def flagOnly (f : BitVec 32) : Meta := { flags := f.setWidth 64 <<< 32, genUtime := 0 }

theorem addFlags_eq_or (m : Meta) (f : BitVec 32) : (m.addFlags f).1 = m.or (flagOnly f) := by
  cases m; simp [Meta.addFlags, Meta.or, flagOnly]

theorem addFlags_false (m : Meta) (f : BitVec 32) (h : (m.addFlags f).2 = false) :
    (m.addFlags f).1 = m := by
  by_contra hc
  have := (addFlags_reports_change m f).2 hc
  rw [h] at this
  cases this

/-- All memory bits are in the stored value, or belong to a flag whose setter is still to store, or
are the collector's mark. -/
def SysInv (s : Sys) : Prop :=
  Covers s.mem s.stored ∧
  Covers ((s.pending.foldl (fun m f => m.or (flagOnly f)) s.stored).or (flagOnly IS_REMOVED)) s.mem

theorem foldl_or_mono (l : List (BitVec 32)) {a b : Meta} (h : Covers a b) :
    Covers (l.foldl (fun m f => m.or (flagOnly f)) a) (l.foldl (fun m f => m.or (flagOnly f)) b) := by
  induction l generalizing a b with
  | nil => exact h
  | cons f l ih =>
    simp only [List.foldl_cons]
    apply ih
    exact covers_lub (covers_trans (covers_or_left _ _) h) (covers_or_right _ _)

theorem foldl_or_base (l : List (BitVec 32)) (a : Meta) :
    Covers (l.foldl (fun m f => m.or (flagOnly f)) a) a := by
  induction l generalizing a with
  | nil => exact covers_refl a
  | cons f l ih => exact covers_trans (ih _) (covers_or_left _ _)

theorem step_inv (s : Sys) (st : Step) (h : SysInv s) : SysInv (step s st) := by
  obtain ⟨h1, h2⟩ := h
  cases st with
  | add f =>
    unfold step
    dsimp only
    cases hb : (s.mem.addFlags f).2
    · rw [addFlags_false s.mem f hb]
      exact ⟨h1, by simpa using h2⟩
    · simp only [if_true]
      rw [addFlags_eq_or]
      refine ⟨covers_trans (covers_or_left _ _) h1, ?_⟩
      simp only [List.foldl_cons]
      have hmono : Covers (s.pending.foldl (fun m f => m.or (flagOnly f)) (s.stored.or (flagOnly f)))
          (s.pending.foldl (fun m f => m.or (flagOnly f)) s.stored) :=
        foldl_or_mono _ (covers_or_left _ _)
      apply covers_lub
      · refine covers_trans ?_ h2
        exact covers_lub (covers_trans (covers_or_left _ _) hmono) (covers_or_right _ _)
      · exact covers_trans (covers_or_left _ _)
          (covers_trans (foldl_or_base _ _) (covers_or_right _ _))
  | store i =>
    unfold step
    dsimp only
    split
    · have hm : s.stored.or s.mem = s.mem := by rw [or_comm']; exact h1
      rw [hm]
      refine ⟨covers_refl _, ?_⟩
      exact covers_trans (covers_or_left _ _) (foldl_or_base _ _)
    · exact ⟨h1, h2⟩
  | gcRemoved =>
    unfold step
    dsimp only
    rw [addFlags_eq_or]
    refine ⟨covers_trans (covers_or_left _ _) h1, ?_⟩
    exact covers_lub h2 (covers_or_right _ _)

/-- C22: for any interleaving of any number of setters and the collector, starting from a stored
handle: the stored value never has a bit the memory does not have, and whenever no setter is between
its update and its store, the stored value has every bit of the memory except possibly the
collector's in-memory removal mark. -/
theorem stored_follows_memory (m : Meta) (steps : List Step) :
    let s := steps.foldl step { mem := m, stored := m, pending := [] }
    s.mem.or s.stored = s.mem ∧
    (s.pending = [] → s.stored.or (flagOnly IS_REMOVED) = s.mem.or (flagOnly IS_REMOVED)) := by
  have hinv : ∀ (steps : List Step) (s : Sys), SysInv s → SysInv (steps.foldl step s) := by
    intro steps
    induction steps with
    | nil => intro s h; exact h
    | cons st steps ih => intro s h; exact ih _ (step_inv s st h)
  have h0 : SysInv { mem := m, stored := m, pending := [] } :=
    ⟨covers_refl m, covers_or_left _ _⟩
  obtain ⟨h1, h2⟩ := hinv steps _ h0
  refine ⟨h1, ?_⟩
  intro hp
  rw [hp] at h2
  simp only [List.foldl_nil] at h2
  apply covers_antisymm
  · exact covers_lub h2 (covers_or_right _ _)
  · exact covers_lub (covers_trans (covers_or_left _ _) h1) (covers_or_right _ _)

/-- ... and no update ever changes the stored masterchain reference or generation time. -/
theorem stored_keeps_seqno (m : Meta) (steps : List Step) :
    let s := steps.foldl step { mem := m, stored := m, pending := [] }
    s.stored.seqno = m.seqno ∧ s.stored.genUtime = m.genUtime := by
  have hinv : ∀ (steps : List Step) (s : Sys),
      (s.mem.seqno = m.seqno ∧ s.mem.genUtime = m.genUtime ∧
        s.stored.seqno = m.seqno ∧ s.stored.genUtime = m.genUtime) →
      ((steps.foldl step s).stored.seqno = m.seqno ∧ (steps.foldl step s).stored.genUtime = m.genUtime) := by
    intro steps
    induction steps with
    | nil => intro s h; exact h.2.2
    | cons st steps ih =>
      intro s h
      apply ih
      obtain ⟨a, b, c, d⟩ := h
      cases st with
      | add f =>
        have e := addFlags_effect s.mem f
        exact ⟨e.2.1.trans a, e.2.2.trans b, c, d⟩
      | gcRemoved =>
        have e := addFlags_effect s.mem IS_REMOVED
        exact ⟨e.2.1.trans a, e.2.2.trans b, c, d⟩
      | store i =>
        unfold step
        dsimp only
        split
        · refine ⟨a, b, ?_, ?_⟩
          · have : ∀ x y : Meta, (x.or y).seqno = x.seqno ||| y.seqno := by
              intro x y; simp [Meta.or, Meta.seqno, BitVec.setWidth_or]
            dsimp only
            rw [this, c, a, BitVec.or_self]
          · simp [Meta.or, d, b]
        · exact ⟨a, b, c, d⟩
  exact hinv steps _ ⟨rfl, rfl, rfl, rfl⟩

/-! Concrete cases. -/
example : ((withData true 7 5).addFlags HAS_ALL_BLOCK_PARTS).2 = true := by decide
example : retainDuringGc SKIP_BLOCKS_GC = true ∧
    retainDuringGc (SKIP_BLOCKS_GC ||| SKIP_BLOCKS_GC_FINISHED) = false := by decide
/-- Two setters store in the opposite order of their updates. -/
example :
    let s := [Step.add HAS_DATA, .add IS_COMMITTED, .store 1, .store 0].foldl step
      { mem := withData false 7 5, stored := withData false 7 5, pending := [] }
    s.pending = [] ∧ s.stored = s.mem ∧ s.stored.flagsOf = HAS_DATA ||| IS_COMMITTED := by decide

end Tycho.BlockMeta
