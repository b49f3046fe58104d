import Verif.Rpc.CodeProps

namespace Tycho.Rpc
open Tycho.Table

/-- the address is in the shard with the prefix `q` of `63 - k` bits -/
def InShard (wc q k addr : Nat) : Prop := addr / 2 ^ 256 = wc ∧ addr % 2 ^ 256 / 2 ^ 192 / 2 ^ (k + 1) = q

instance (wc q k addr : Nat) : Decidable (InShard wc q k addr) := inferInstanceAs (Decidable (_ ∧ _))

theorem bit_odd (q j : Nat) : (2 * q + 1).testBit j = if j = 0 then true else q.testBit (j - 1) := by
  cases j with
  | zero => simp [Nat.testBit_zero]
  | succ j => rw [Nat.testBit_succ]; have : (2 * q + 1) / 2 = q := by omega
              rw [this]; simp

theorem bit_even (q j : Nat) : (2 * q).testBit j = if j = 0 then false else q.testBit (j - 1) := by
  cases j with
  | zero => simp [Nat.testBit_zero]
  | succ j => rw [Nat.testBit_succ]; have : (2 * q) / 2 = q := by omega
              rw [this]; simp

theorem pre_pred (q k : Nat) : 2 ^ k * (2 * q + 1) - 1 = 2 ^ k * (2 * q) + (2 ^ k - 1) := by
  have := Nat.two_pow_pos k
  rw [Nat.mul_add]; omega

theorem or_pred (q k : Nat) : (2 ^ k * (2 * q + 1)) ||| (2 ^ k * (2 * q + 1) - 1) = 2 ^ k * (2 * q + 1) + (2 ^ k - 1) := by
  have hp := Nat.two_pow_pos k
  rw [pre_pred]
  apply Nat.eq_of_testBit_eq
  intro j
  have e0 : (2 ^ k * (2 * q + 1)).testBit j = if j < k then Nat.testBit 0 j else (2 * q + 1).testBit (j - k) :=
    Nat.testBit_two_pow_mul_add (2 * q + 1) (b := 0) hp j
  rw [Nat.testBit_or, e0, Nat.testBit_two_pow_mul_add _ (by omega), Nat.testBit_two_pow_mul_add _ (by omega)]
  by_cases h : j < k
  · simp [h]
  · simp only [h, if_false, bit_odd, bit_even]
    by_cases h2 : j - k = 0 <;> simp [h2]

theorem tag_eq (q k : Nat) (h : 2 ^ k * (2 * q + 1) < 2 ^ 64) : tagOf (2 ^ k * (2 * q + 1)) = 2 ^ k := by
  have hp := Nat.two_pow_pos k
  have hpos : 0 < 2 ^ k * (2 * q + 1) := Nat.mul_pos hp (by omega)
  unfold tagOf
  have e1 : (2 ^ 64 - 1 - 2 ^ k * (2 * q + 1) + 1) % 2 ^ 64 = 2 ^ 64 - ((2 ^ k * (2 * q + 1) - 1) + 1) := by
    rw [Nat.mod_eq_of_lt (by omega)]; omega
  rw [e1]
  apply Nat.eq_of_testBit_eq
  intro j
  rw [Nat.testBit_and, Nat.testBit_two_pow_sub_succ (by omega), pre_pred]
  have e0 : 2 ^ k * (2 * q + 1) = 2 ^ k * (2 * q + 1) + 0 := rfl
  rw [e0, Nat.testBit_two_pow_mul_add _ (by omega), Nat.testBit_two_pow_mul_add _ (by omega), Nat.testBit_two_pow]
  have hk : k < 64 := by
    rcases Nat.lt_or_ge k 64 with h1 | h1
    · exact h1
    · have h2 := Nat.pow_le_pow_right (n := 2) (by omega) h1
      have : 2 ^ k * 1 ≤ 2 ^ k * (2 * q + 1) := Nat.mul_le_mul_left _ (by omega)
      omega
  by_cases h1 : j < k
  · have : ¬ k = j := by omega
    simp [h1, this]
  · simp only [h1, if_false, bit_odd, bit_even]
    by_cases h2 : j - k = 0
    · have : j = k := by omega
      subst this
      simp [hk]
    · have : ¬ k = j := by omega
      simp only [h2, if_false, this]
      cases q.testBit (j - k - 1) <;> simp

theorem mask_zero (x m : Nat) (hx : x < 2 ^ 64) (hm : m ≤ 64) : (x &&& (2 ^ 64 - 2 ^ m)) = 0 ↔ x < 2 ^ m := by
  have hp := Nat.two_pow_pos m
  have hle : 2 ^ m ≤ 2 ^ 64 := Nat.pow_le_pow_right (by omega) hm
  have e1 : 2 ^ 64 - 2 ^ m = 2 ^ 64 - ((2 ^ m - 1) + 1) := by omega
  rw [e1]
  constructor
  · intro h
    apply Nat.lt_pow_two_of_testBit
    intro i hi
    by_cases h64 : i < 64
    · have := congrArg (fun y => y.testBit i) h
      simp only [Nat.testBit_and, Nat.zero_testBit] at this
      rw [Nat.testBit_two_pow_sub_succ (by omega), Nat.testBit_two_pow_sub_one] at this
      have h2 : ¬ i < m := by omega
      simpa [h64, h2] using this
    · exact Nat.testBit_lt_two_pow (Nat.lt_of_lt_of_le hx (Nat.pow_le_pow_right (by omega) (by omega)))
  · intro h
    apply Nat.eq_of_testBit_eq
    intro i
    rw [Nat.testBit_and, Nat.testBit_two_pow_sub_succ (by omega), Nat.testBit_two_pow_sub_one, Nat.zero_testBit]
    by_cases hi : i < m
    · simp [hi]
    · rw [Nat.testBit_lt_two_pow (Nat.lt_of_lt_of_le h (Nat.pow_le_pow_right (by omega) (by omega)))]; rfl

theorem xor_lt_iff (x q m : Nat) : (x ^^^ (2 ^ m * q)) < 2 ^ m ↔ x / 2 ^ m = q := by
  have hp := Nat.two_pow_pos m
  rw [← Nat.div_eq_zero_iff_lt hp, ← Nat.shiftRight_eq_div_pow, Nat.shiftRight_xor_distrib, Nat.shiftRight_eq_div_pow, Nat.shiftRight_eq_div_pow,
    Nat.mul_div_cancel_left _ hp]
  constructor
  · intro h
    apply Nat.eq_of_testBit_eq
    intro i
    have := congrArg (fun y => y.testBit i) h
    simp only [Nat.testBit_xor, Nat.zero_testBit] at this
    revert this
    cases (x / 2 ^ m).testBit i <;> cases q.testBit i <;> simp
  · intro h; rw [h, Nat.xor_self]

theorem k_lt (q k : Nat) (h : 2 ^ k * (2 * q + 1) < 2 ^ 64) : k < 64 := by
  rcases Nat.lt_or_ge k 64 with h1 | h1
  · exact h1
  · have h2 := Nat.pow_le_pow_right (n := 2) (by omega) h1
    have : 2 ^ k * 1 ≤ 2 ^ k * (2 * q + 1) := Nat.mul_le_mul_left _ (by omega)
    omega

/-- the test of the scan of the main table -/
theorem main_test (wc q k addr : Nat) (h : 2 ^ k * (2 * q + 1) < 2 ^ 64) :
    (decide (wcOf addr = wc) && (decide (2 ^ k * (2 * q + 1) = 2 ^ 63) ||
      decide ((topOf addr ^^^ (2 ^ k * (2 * q + 1) - tagOf (2 ^ k * (2 * q + 1)))) &&&
        (2 ^ 64 - 1 - (tagOf (2 ^ k * (2 * q + 1)) ||| (tagOf (2 ^ k * (2 * q + 1)) - 1))) = 0))) = decide (InShard wc q k addr) := by
  have hp := Nat.two_pow_pos k
  have hk := k_lt q k h
  have htop : topOf addr < 2 ^ 64 := by
    unfold topOf
    rw [Nat.div_lt_iff_lt_mul (by decide), ← Nat.pow_add]
    exact Nat.mod_lt _ (by decide)
  rw [tag_eq q k h]
  have e1 : 2 ^ k * (2 * q + 1) - 2 ^ k = 2 ^ (k + 1) * q := by
    rw [Nat.pow_succ, Nat.mul_add, Nat.mul_one, Nat.add_sub_cancel, Nat.mul_assoc]
  have e2 : 2 ^ k ||| (2 ^ k - 1) = 2 ^ (k + 1) - 1 := by
    have := or_pred 0 k
    simp only [Nat.mul_zero, Nat.zero_add, Nat.mul_one] at this
    rw [this, Nat.pow_succ]; omega
  have e3 : 2 ^ 64 - 1 - (2 ^ (k + 1) - 1) = 2 ^ 64 - 2 ^ (k + 1) := by
    have := Nat.two_pow_pos (k + 1)
    omega
  rw [e1, e2, e3]
  have hq : 2 ^ (k + 1) * q < 2 ^ 64 := by
    have : 2 ^ (k + 1) * q ≤ 2 ^ k * (2 * q + 1) := by rw [← e1]; omega
    omega
  have hmask := mask_zero (topOf addr ^^^ (2 ^ (k + 1) * q)) (k + 1) (Nat.xor_lt_two_pow htop hq) (by omega)
  have hx := xor_lt_iff (topOf addr) q (k + 1)
  rw [Bool.eq_iff_iff]
  simp only [Bool.and_eq_true, Bool.or_eq_true, decide_eq_true_eq]
  rw [hmask, hx]
  unfold InShard wcOf
  refine and_congr_right (fun _ => ?_)
  show _ ↔ topOf addr / 2 ^ (k + 1) = q
  constructor
  · rintro (h1 | h1)
    · -- the full shard
      have hq0 : q = 0 ∧ k = 63 := by
        have hk63 : k = 63 := by
          by_cases h3 : k = 63
          · exact h3
          · exfalso
            have h4 : k ≤ 62 := by omega
            have h5 : 2 ^ 63 = 2 ^ k * 2 ^ (63 - k) := by rw [← Nat.pow_add]; congr 1; omega
            rw [h5] at h1
            have h6 := Nat.eq_of_mul_eq_mul_left hp h1
            have h7 : 2 ^ (63 - k) = 2 * 2 ^ (62 - k) := by rw [← Nat.pow_succ']; congr 1; omega
            omega
        subst hk63
        omega
      obtain ⟨rfl, rfl⟩ := hq0
      exact Nat.div_eq_zero_iff.2 (.inr htop)
    · exact h1
  · exact .inr

theorem range_test (wc q k addr : Nat) (h : 2 ^ k * (2 * q + 1) < 2 ^ 64) :
    (shardFrom wc (2 ^ k * (2 * q + 1)) ≤ addr ∧ addr ≤ shardTo wc (2 ^ k * (2 * q + 1))) ↔ InShard wc q k addr := by
  have hk := k_lt q k h
  have hp := Nat.two_pow_pos k
  unfold shardFrom shardTo InShard
  rw [tag_eq q k h, or_pred]
  have e1 : 2 ^ k * (2 * q + 1) - 2 ^ k = 2 ^ (k + 1) * q := by
    rw [Nat.pow_succ, Nat.mul_add, Nat.mul_one, Nat.add_sub_cancel, Nat.mul_assoc]
  have e2 : 2 ^ k * (2 * q + 1) + (2 ^ k - 1) = 2 ^ (k + 1) * q + (2 ^ (k + 1) - 1) := by
    rw [Nat.pow_succ, Nat.mul_add, Nat.mul_one, Nat.mul_assoc]; omega
  have hb : 2 ^ (k + 1) * q + 2 ^ (k + 1) ≤ 2 ^ 64 := by
    have e5 : 2 ^ 64 = 2 ^ (k + 1) * 2 ^ (63 - k) := by rw [← Nat.pow_add]; congr 1; omega
    have h1 : 2 ^ (k + 1) * q < 2 ^ (k + 1) * 2 ^ (63 - k) := by rw [← e5]; omega
    have h2 := Nat.lt_of_mul_lt_mul_left h1
    rw [e5, ← Nat.mul_succ]
    exact Nat.mul_le_mul_left _ h2
  rw [e1, e2]
  have hP := Nat.two_pow_pos (k + 1)
  generalize 2 ^ (k + 1) = P at *
  have hd : ∀ x, x / P = q ↔ P * q ≤ x ∧ x < P * q + P := by
    intro x
    rw [Nat.div_eq_iff hP, Nat.mul_comm q P]
    omega
  rw [hd]
  generalize P * q = A at *
  omega

/-- Accounts of the shard are removed from both tables, and no others. -/
theorem removeShard_indexed (d : Codes) (w : Nat → Option Nat) (hi : Indexed d w) (wc q k : Nat) (h : 2 ^ k * (2 * q + 1) < 2 ^ 64) :
    Indexed (d.removeShard wc (2 ^ k * (2 * q + 1))) (fun a => if InShard wc q k a then none else w a) := by
  unfold Codes.removeShard
  refine ⟨List.Pairwise.filter _ hi.ordered, fun a => ?_, fun x => ?_⟩
  · dsimp only
    rw [get_del, get_del, hi.byAddr]
    have := range_test wc q k a h
    by_cases hin : InShard wc q k a
    · have h1 := this.2 hin
      by_cases h2 : a = shardTo wc (2 ^ k * (2 * q + 1))
      · rw [if_pos hin, if_pos (by simpa using h2)]
      · have h3 : a < shardTo wc (2 ^ k * (2 * q + 1)) := by omega
        simp [hin, h2, h1.1, h3]
    · have h1 : ¬ _ := fun h => hin (this.1 h)
      have h2 : ¬ a = shardTo wc (2 ^ k * (2 * q + 1)) := by
        intro h2
        refine h1 ⟨?_, by omega⟩
        rw [h2]
        unfold shardFrom shardTo
        rw [or_pred, Nat.add_assoc]
        refine Nat.add_le_add_left (Nat.le_trans ?_ (Nat.le_add_right _ _)) _
        have : (2 ^ k * (2 * q + 1) - tagOf (2 ^ k * (2 * q + 1))) * 2 ^ 192 ≤ (2 ^ k * (2 * q + 1) + (2 ^ k - 1)) * 2 ^ 192 :=
          Nat.mul_le_mul_right _ (by omega)
        exact this
      have h3 : ¬ (shardFrom wc (2 ^ k * (2 * q + 1)) ≤ a ∧ a < shardTo wc (2 ^ k * (2 * q + 1))) := fun h3 => h1 ⟨h3.1, Nat.le_of_lt h3.2⟩
      have h4 : (decide (shardFrom wc (2 ^ k * (2 * q + 1)) ≤ a) && decide (a < shardTo wc (2 ^ k * (2 * q + 1)))) = false := by
        rw [← Bool.not_eq_true, Bool.and_eq_true, decide_eq_true_eq, decide_eq_true_eq]; exact h3
      simp [hin, h2, h4]
  · dsimp only
    rw [List.mem_filter, hi.main, main_test wc q k x.addr h]
    by_cases hin : InShard wc q k x.addr <;> simp [hin]

theorem reset_writes (l : List (Nat × Option Nat)) (d : Codes) (w : Nat → Option Nat) (hi : Indexed d w) (hn : (l.map (·.1)).Nodup)
    (hz : ∀ e ∈ l, w e.1 = none) :
    Indexed (d.write (l.flatMap resetOps)) (fun a => (get l a).getD (w a)) := by
  induction l generalizing d w with
  | nil => exact hi
  | cons e l ih =>
    obtain ⟨a, v⟩ := e
    rw [List.map_cons, List.nodup_cons] at hn
    rw [List.flatMap_cons]
    have hw : ∀ l1 l2 : List COp, d.write (l1 ++ l2) = (d.write l1).write l2 := fun l1 l2 => List.foldl_append
    rw [hw]
    have hza : w a = none := hz (a, v) List.mem_cons_self
    have h1 : Indexed (d.write (resetOps (a, v))) (upd w a v) := by
      cases v with
      | none =>
        have : upd w a none = w := by
          funext x; unfold upd; split
          · rename_i h; rw [h, hza]
          · rfl
        rw [this]; exact hi
      | some c =>
        refine ⟨ordered_putKey hi.ordered _, fun x => ?_, fun k => ?_⟩
        · show get (put d.byAddr a c) x = _
          rw [get_put, hi.byAddr]
          unfold upd
          by_cases hx : x = a <;> simp [hx]
        · show k ∈ putKey d.main ⟨c, a⟩ ↔ _
          rw [mem_putKey, hi.main]
          unfold upd
          cases k with | mk kc ka =>
          by_cases hx : ka = a
          · subst hx; simp [hza, eq_comm]
          · simp [hx]
    have hne : ∀ e ∈ l, e.1 ≠ a := fun e he h => hn.1 (List.mem_map.2 ⟨e, he, h⟩)
    have h2 := ih _ _ h1 hn.2 (fun e he => by
      unfold upd; rw [if_neg (hne e he)]; exact hz e (List.mem_cons_of_mem _ he))
    have : (fun x => (get l x).getD (upd w a v x)) = (fun x => (get ((a, v) :: l) x).getD (w x)) := by
      funext x
      by_cases hx : x = a
      · subst hx
        have hgl : get l x = none := by
          cases hg : get l x with
          | none => rfl
          | some y => exact absurd rfl (hne _ (mem_of_get _ _ _ hg))
        rw [hgl]
        simp [Table.get, upd]
      · have : ¬ a = x := fun h => hx h.symm
        simp [Table.get, upd, hx, this]
    rw [← this]
    exact h2

/-- **The index after a reset of a shard is that of the new state**: for accounts of the shard hashes of codes are those of the state, for others nothing
changes. `2 ^ k * (2 * q + 1)` is the prefix of a shard: bits of `q`, the bit one, and zeros. -/
theorem reset_exact (d : Codes) (w : Nat → Option Nat) (hi : Indexed d w) (wc q k : Nat) (h : 2 ^ k * (2 * q + 1) < 2 ^ 64)
    (accounts : List (Nat × Option Nat)) (hn : (accounts.map (·.1)).Nodup) (hin : ∀ e ∈ accounts, InShard wc q k e.1) :
    Indexed (d.reset wc (2 ^ k * (2 * q + 1)) accounts) (fun a => if InShard wc q k a then (get accounts a).getD none else w a) := by
  have h1 := removeShard_indexed d w hi wc q k h
  have h2 := reset_writes accounts _ _ h1 hn (fun e he => by rw [if_pos (hin e he)])
  have : (fun a => (get accounts a).getD (if InShard wc q k a then none else w a)) =
      (fun a => if InShard wc q k a then (get accounts a).getD none else w a) := by
    funext a
    by_cases ha : InShard wc q k a
    · simp [ha]
    · have hg : get accounts a = none := by
        cases hg : get accounts a with
        | none => rfl
        | some y => exact absurd (hin _ (mem_of_get _ _ _ hg)) ha
      simp [ha, hg]
  rw [← this]
  exact h2

end Tycho.Rpc
