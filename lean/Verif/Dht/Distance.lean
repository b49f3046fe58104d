import Verif.Dht.Model

/-! `xor_distance` is the number of bits of the exclusive or of the two ids; its metric properties. -/
namespace Tycho.Dht

open Tycho.Bytes Tycho.Codec

/-- Specification: a peer id is 32 bytes. -/
def IsId (a : List Nat) : Prop := a.length = 32 ∧ IsBytes a

/-- Specification: the Kademlia distance, as numbers. -/
def kad (a b : List Nat) : Nat := ofBe a ^^^ ofBe b

theorem ofLe_append (x y : List Nat) : ofLe (x ++ y) = ofLe x + 256 ^ x.length * ofLe y := by
  induction x with
  | nil => simp [ofLe]
  | cons a x ih =>
    simp only [List.cons_append, ofLe, ih, List.length_cons, Nat.pow_succ]
    rw [Nat.mul_add, ← Nat.mul_assoc, Nat.mul_comm 256 (256 ^ x.length)]
    omega

theorem ofBe_append (x y : List Nat) : ofBe (x ++ y) = ofBe x * 256 ^ y.length + ofBe y := by
  unfold ofBe
  rw [List.reverse_append, ofLe_append, List.length_reverse, Nat.mul_comm]
  omega

theorem xor_concat {k x y x' y' : Nat} (h : y < 2 ^ k) (h' : y' < 2 ^ k) :
    (x * 2 ^ k + y) ^^^ (x' * 2 ^ k + y') = (x ^^^ x') * 2 ^ k + (y ^^^ y') := by
  apply Nat.eq_of_testBit_eq
  intro i
  have hx := Nat.xor_lt_two_pow h h'
  rw [Nat.testBit_xor, Nat.mul_comm x, Nat.mul_comm x', Nat.mul_comm (x ^^^ x'),
    Nat.testBit_two_pow_mul_add _ h, Nat.testBit_two_pow_mul_add _ h', Nat.testBit_two_pow_mul_add _ hx]
  split <;> simp [Nat.testBit_xor]

theorem size_concat {k p q : Nat} (hp : p ≠ 0) (hq : q < 2 ^ k) : Nat.size (p * 2 ^ k + q) = Nat.size p + k := by
  apply Nat.le_antisymm
  · rw [Nat.size_le, Nat.pow_add]
    have := Nat.lt_size_self p
    have h2 : (p + 1) * 2 ^ k ≤ 2 ^ Nat.size p * 2 ^ k := Nat.mul_le_mul_right _ this
    rw [Nat.add_mul, Nat.one_mul] at h2
    omega
  · have h1 : 0 < Nat.size p := Nat.size_pos.2 (by omega)
    have h2 : Nat.size p - 1 < Nat.size p := by omega
    have h3 := Nat.lt_size.1 h2
    have : Nat.size p + k - 1 < Nat.size (p * 2 ^ k + q) := by
      rw [Nat.lt_size]
      have e : Nat.size p + k - 1 = (Nat.size p - 1) + k := by omega
      rw [e, Nat.pow_add]
      have := Nat.mul_le_mul_right (2 ^ k) h3
      omega
    omega

theorem ofBe_lt_pow {l : List Nat} {n : Nat} (hl : l.length = n) (h : IsBytes l) : ofBe l < 2 ^ (8 * n) := by
  have := ofBe_lt l h
  rw [hl] at this
  rwa [Nat.pow_mul]

theorem isBytes_take {l : List Nat} (h : IsBytes l) (n : Nat) : IsBytes (l.take n) := fun b hb => h b (List.mem_of_mem_take hb)
theorem isBytes_drop {l : List Nat} (h : IsBytes l) (n : Nat) : IsBytes (l.drop n) := fun b hb => h b (List.mem_of_mem_drop hb)

/-- One turn of the loop, for the remaining bytes. -/
theorem loop_turn {a b : List Nat} {m : Nat} (hla : a.length = 8 + m) (hlb : b.length = 8 + m) (ha : IsBytes a) (hb : IsBytes b)
    {i : Nat} (hi : i * 64 + 64 + 8 * m = 256) (rest : List (Nat × Nat))
    (hrest : distLoop (i + 1) rest = Nat.size (kad (a.drop 8) (b.drop 8))) :
    distLoop i ((ofBe (a.take 8), ofBe (b.take 8)) :: rest) = Nat.size (kad a b) := by
  have ea : ofBe a = ofBe (a.take 8) * 2 ^ (8 * m) + ofBe (a.drop 8) := by
    conv => lhs; rw [← List.take_append_drop 8 a]
    rw [ofBe_append, Nat.pow_mul]
    simp [hla]
  have eb : ofBe b = ofBe (b.take 8) * 2 ^ (8 * m) + ofBe (b.drop 8) := by
    conv => lhs; rw [← List.take_append_drop 8 b]
    rw [ofBe_append, Nat.pow_mul]
    simp [hlb]
  have da : ofBe (a.drop 8) < 2 ^ (8 * m) := ofBe_lt_pow (by simp [hla]) (isBytes_drop ha 8)
  have db : ofBe (b.drop 8) < 2 ^ (8 * m) := ofBe_lt_pow (by simp [hlb]) (isBytes_drop hb 8)
  have ta : ofBe (a.take 8) < 2 ^ 64 := ofBe_lt_pow (n := 8) (by simp [hla]) (isBytes_take ha 8)
  have tb : ofBe (b.take 8) < 2 ^ 64 := ofBe_lt_pow (n := 8) (by simp [hlb]) (isBytes_take hb 8)
  have hk : kad a b = (ofBe (a.take 8) ^^^ ofBe (b.take 8)) * 2 ^ (8 * m) + kad (a.drop 8) (b.drop 8) := by
    unfold kad
    rw [ea, eb, xor_concat da db]
  have hx := Nat.xor_lt_two_pow ta tb
  have hs : Nat.size (ofBe (a.take 8) ^^^ ofBe (b.take 8)) ≤ 64 := Nat.size_le.2 hx
  unfold distLoop
  split
  · rename_i hne
    have hlow : kad (a.drop 8) (b.drop 8) < 2 ^ (8 * m) := Nat.xor_lt_two_pow da db
    rw [hk, size_concat hne hlow]
    unfold clz64 maxXor
    omega
  · rename_i heq
    have heq : ofBe (a.take 8) ^^^ ofBe (b.take 8) = 0 := by simpa using heq
    rw [hrest, hk, heq]
    simp

/-- C26: `xor_distance` of two ids is the number of bits of their exclusive or. -/
theorem xorDistance_eq {a b : List Nat} (ha : IsId a) (hb : IsId b) : xorDistance a b = Nat.size (kad a b) := by
  obtain ⟨hla, ha⟩ := ha
  obtain ⟨hlb, hb⟩ := hb
  unfold xorDistance chunks
  simp only [List.zip_cons_cons, List.zip_nil_right]
  refine loop_turn (m := 24) hla hlb ha hb (by omega) _ ?_
  refine loop_turn (m := 16) (by simp [hla]) (by simp [hlb]) (isBytes_drop ha _) (isBytes_drop hb _) (by omega) _ ?_
  simp only [List.drop_drop]
  refine loop_turn (m := 8) (by simp [hla]) (by simp [hlb]) (isBytes_drop ha _) (isBytes_drop hb _) (by omega) _ ?_
  simp only [List.drop_drop]
  refine loop_turn (m := 0) (by simp [hla]) (by simp [hlb]) (isBytes_drop ha _) (isBytes_drop hb _) (by omega) _ ?_
  simp only [List.drop_drop]
  rw [List.drop_eq_nil_of_le (by omega), List.drop_eq_nil_of_le (by omega)]
  simp [distLoop, kad, ofBe, ofLe]

theorem eq_of_xor_zero {x y : Nat} (h : x ^^^ y = 0) : x = y := by
  have e : x ^^^ (x ^^^ y) = y := by rw [← Nat.xor_assoc, Nat.xor_self, Nat.zero_xor]
  rw [← e, h, Nat.xor_zero]

theorem id_eq_of_value {a b : List Nat} (ha : IsId a) (hb : IsId b) (h : ofBe a = ofBe b) : a = b := by
  rw [← beBytes_ofBe a ha.2, ← beBytes_ofBe b hb.2, ha.1, hb.1, h]

/-- C26: the distance is zero only between equal ids. -/
theorem xorDistance_zero {a b : List Nat} (ha : IsId a) (hb : IsId b) : xorDistance a b = 0 ↔ a = b := by
  rw [xorDistance_eq ha hb, Nat.size_eq_zero]
  constructor
  · intro h
    exact id_eq_of_value ha hb (eq_of_xor_zero h)
  · rintro rfl; simp [kad]

/-- C26: the distance is at most 256. -/
theorem xorDistance_le {a b : List Nat} (ha : IsId a) (hb : IsId b) : xorDistance a b ≤ 256 := by
  rw [xorDistance_eq ha hb, Nat.size_le]
  exact Nat.xor_lt_two_pow (ofBe_lt_pow (n := 32) ha.1 ha.2) (ofBe_lt_pow (n := 32) hb.1 hb.2)

/-- C26: the distance is symmetric. -/
theorem xorDistance_comm {a b : List Nat} (ha : IsId a) (hb : IsId b) : xorDistance a b = xorDistance b a := by
  rw [xorDistance_eq ha hb, xorDistance_eq hb ha, kad, kad, Nat.xor_comm]

/-- C26: of the three distances among any three ids the two greatest are equal. -/
theorem xorDistance_triangle {a b c : List Nat} (ha : IsId a) (hb : IsId b) (hc : IsId c) :
    xorDistance a c ≤ max (xorDistance a b) (xorDistance b c) := by
  rw [xorDistance_eq ha hb, xorDistance_eq ha hc, xorDistance_eq hb hc, Nat.size_le]
  have e : kad a c = kad a b ^^^ kad b c := by
    unfold kad
    rw [Nat.xor_assoc, ← Nat.xor_assoc (ofBe b), Nat.xor_self, Nat.zero_xor]
  rw [e]
  apply Nat.xor_lt_two_pow
  · exact Nat.size_le.1 (Nat.le_max_left _ _)
  · exact Nat.size_le.1 (Nat.le_max_right _ _)

/-- C26: if two ids are at different distances from a third, their own distance is the greater of the two. -/
theorem xorDistance_of_ne {a b c : List Nat} (ha : IsId a) (hb : IsId b) (hc : IsId c)
    (h : xorDistance a b ≠ xorDistance a c) : xorDistance b c = max (xorDistance a b) (xorDistance a c) := by
  have h1 := xorDistance_triangle hb ha hc
  have h2 := xorDistance_triangle ha hb hc
  have h3 := xorDistance_triangle ha hc hb
  rw [xorDistance_comm hb ha] at h1
  rw [xorDistance_comm hc hb] at h3
  omega

/-- C26: if two different ids are at the same distance from a third, they are nearer to each other. -/
theorem xorDistance_of_eq {a b c : List Nat} (ha : IsId a) (hb : IsId b) (hc : IsId c)
    (h : xorDistance a b = xorDistance a c) (h0 : xorDistance a b ≠ 0) : xorDistance b c < xorDistance a b := by
  rw [xorDistance_eq ha hb, xorDistance_eq ha hc] at h
  rw [xorDistance_eq ha hb] at h0 ⊢
  rw [xorDistance_eq hb hc]
  have e : kad b c = kad a b ^^^ kad a c := by
    unfold kad
    rw [Nat.xor_comm (ofBe a) (ofBe b), Nat.xor_assoc, ← Nat.xor_assoc (ofBe a), Nat.xor_self, Nat.zero_xor]
  obtain ⟨k, hk⟩ : ∃ k, Nat.size (kad a b) = k + 1 := ⟨Nat.size (kad a b) - 1, by omega⟩
  rw [hk]
  rw [hk] at h
  apply Nat.lt_succ_of_le
  rw [Nat.size_le, e]
  have lx : kad a b < 2 ^ (k + 1) := Nat.size_le.1 (by omega)
  have ly : kad a c < 2 ^ (k + 1) := Nat.size_le.1 (by omega)
  have gx : 2 ^ k ≤ kad a b := Nat.lt_size.1 (by omega)
  have gy : 2 ^ k ≤ kad a c := Nat.lt_size.1 (by omega)
  have ex : kad a b = 1 * 2 ^ k + (kad a b - 2 ^ k) := by omega
  have ey : kad a c = 1 * 2 ^ k + (kad a c - 2 ^ k) := by omega
  have hx : kad a b - 2 ^ k < 2 ^ k := by rw [Nat.pow_succ] at lx; omega
  have hy : kad a c - 2 ^ k < 2 ^ k := by rw [Nat.pow_succ] at ly; omega
  rw [ex, ey, xor_concat hx hy]
  simp
  exact Nat.xor_lt_two_pow hx hy

/-! ### `random_key_at_distance` -/

theorem and_mask_lt (x k : Nat) (hk : k ≤ 8) (hx : x < 256) :
    x ^^^ (x &&& (0xff ^^^ (0xff >>> k))) < 2 ^ (8 - k) := by
  apply Nat.lt_pow_two_of_testBit
  intro i hi
  rw [Nat.testBit_xor, Nat.testBit_and, Nat.testBit_xor, Nat.testBit_shiftRight]
  have h255 : ∀ j, Nat.testBit 255 j = decide (j < 8) := fun j => Nat.testBit_two_pow_sub_one 8 j
  rw [h255, h255]
  by_cases h8 : i < 8
  · have : ¬ k + i < 8 := by omega
    simp [h8, this]
  · have : Nat.testBit x i = false := Nat.testBit_lt_two_pow (Nat.lt_of_lt_of_le hx (Nat.pow_le_pow_right (n := 2) (by omega) (Nat.le_of_not_lt h8)))
    simp [this]

theorem xor_and_lt (x f k : Nat) (hx : x < 256) (hf : f < 256) :
    x ^^^ ((x ^^^ f) &&& (0xff ^^^ (0xff >>> k))) < 256 := by
  have h1 : x ^^^ f < 2 ^ 8 := Nat.xor_lt_two_pow (n := 8) hx hf
  have h2 : (x ^^^ f) &&& (0xff ^^^ (0xff >>> k)) < 2 ^ 8 := Nat.lt_of_le_of_lt Nat.and_le_left h1
  exact Nat.xor_lt_two_pow (n := 8) hx h2

theorem kad_append {p x y : List Nat} (hl : x.length = y.length) (hx : IsBytes x) (hy : IsBytes y) :
    kad (p ++ x) (p ++ y) = kad x y := by
  unfold kad
  rw [ofBe_append, ofBe_append, hl, show (256 : Nat) = 2 ^ 8 from rfl, ← Nat.pow_mul,
    xor_concat (ofBe_lt_pow hl hx) (ofBe_lt_pow rfl hy), Nat.xor_self]
  simp

theorem kad_cons {b c : Nat} {x y : List Nat} (hl : x.length = y.length) (hx : IsBytes x) (hy : IsBytes y) :
    kad (b :: x) (c :: y) = (b ^^^ c) * 2 ^ (8 * y.length) + kad x y := by
  have e1 : ofBe (b :: x) = b * 256 ^ x.length + ofBe x := by
    have := ofBe_append [b] x
    simpa [ofBe, ofLe] using this
  have e2 : ofBe (c :: y) = c * 256 ^ y.length + ofBe y := by
    have := ofBe_append [c] y
    simpa [ofBe, ofLe] using this
  unfold kad
  rw [e1, e2, hl, show (256 : Nat) = 2 ^ 8 from rfl, ← Nat.pow_mul, xor_concat (ofBe_lt_pow hl hx) (ofBe_lt_pow rfl hy)]

/-- C26: a random key for a distance is an id, and its distance is at most that one. -/
theorem randomKeyAt_le {a rnd : List Nat} {d : Nat} (ha : IsId a) (hd : d ≤ 256) (hr : IsBytes rnd)
    (hl : rnd.length = 32 - (256 - d) / 8) :
    IsId (randomKeyAt a d rnd) ∧ xorDistance a (randomKeyAt a d rnd) ≤ d := by
  obtain ⟨hla, hba⟩ := ha
  have hoff : (256 - d) / 8 ≤ 32 := by omega
  have htl : (a.take ((256 - d) / 8)).length = (256 - d) / 8 := by simp [hla]; omega
  unfold randomKeyAt maxXor
  simp only
  by_cases hbit : (256 - d) % 8 = 0
  · rw [if_neg (by simp [hbit])]
    have hid : IsId (a.take ((256 - d) / 8) ++ rnd) := by
      refine ⟨by rw [List.length_append, htl, hl]; omega, ?_⟩
      exact isBytes_append.2 ⟨isBytes_take hba _, hr⟩
    refine ⟨hid, ?_⟩
    rw [xorDistance_eq ⟨hla, hba⟩ hid, Nat.size_le]
    have hdl : (a.drop ((256 - d) / 8)).length = rnd.length := by simp [hla, hl]
    have hae : a = a.take ((256 - d) / 8) ++ a.drop ((256 - d) / 8) := (List.take_append_drop _ _).symm
    conv => lhs; arg 1; rw [hae]
    rw [kad_append hdl (isBytes_drop hba _) hr]
    unfold kad
    have e : 8 * rnd.length = d := by omega
    have := Nat.xor_lt_two_pow (ofBe_lt_pow (hdl) (isBytes_drop hba _)) (ofBe_lt_pow rfl hr)
    rwa [e] at this
  · rw [if_pos hbit]
    have hlt : (256 - d) / 8 < 32 := by omega
    obtain ⟨r, rs, rfl⟩ : ∃ r rs, rnd = r :: rs := by
      cases rnd with
      | nil => simp at hl; omega
      | cons r rs => exact ⟨r, rs, rfl⟩
    have hdrop : a.drop ((256 - d) / 8) = a.getD ((256 - d) / 8) 0 :: a.drop ((256 - d) / 8 + 1) := by
      rw [List.drop_eq_getElem_cons (by omega)]
      congr 1
      rw [List.getD_eq_getElem?_getD, List.getElem?_eq_getElem (by omega), Option.getD_some]
    generalize hf : a.getD ((256 - d) / 8) 0 = f at hdrop
    have hfb : f < 256 := by
      have : f ∈ a := List.mem_of_mem_drop (i := (256 - d) / 8) (by rw [hdrop]; simp)
      exact hba f this
    have hrb : r < 256 := hr r (by simp)
    have hrsb : IsBytes rs := fun b hb => hr b (by simp [hb])
    have hget : (a.take ((256 - d) / 8) ++ r :: rs).getD ((256 - d) / 8) 0 = r := by
      rw [List.getD_eq_getElem?_getD, List.getElem?_append_right (by omega), htl, Nat.sub_self]; rfl
    rw [hget]
    have hset : ∀ v, (a.take ((256 - d) / 8) ++ r :: rs).set ((256 - d) / 8) v = a.take ((256 - d) / 8) ++ v :: rs := by
      intro v
      rw [List.set_append_right _ _ (by omega), htl, Nat.sub_self]
      rfl
    rw [hset]
    have hvb := xor_and_lt r f ((256 - d) % 8) hrb hfb
    generalize hv : r ^^^ ((r ^^^ f) &&& (255 ^^^ 255 >>> ((256 - d) % 8))) = v at hvb ⊢
    have hvrs : IsBytes (v :: rs) := by
      intro b hb
      rcases List.mem_cons.1 hb with rfl | hb
      · exact hvb
      · exact hrsb b hb
    have hid : IsId (a.take ((256 - d) / 8) ++ v :: rs) := by
      refine ⟨?_, isBytes_append.2 ⟨isBytes_take hba _, hvrs⟩⟩
      rw [List.length_append, htl]
      simp at hl ⊢
      omega
    refine ⟨hid, ?_⟩
    rw [xorDistance_eq ⟨hla, hba⟩ hid, Nat.size_le]
    have hrl : rs.length = 32 - (256 - d) / 8 - 1 := by simp at hl; omega
    have hdl : (a.drop ((256 - d) / 8 + 1)).length = rs.length := by simp [hla, hrl]; omega
    have hae : a = a.take ((256 - d) / 8) ++ f :: a.drop ((256 - d) / 8 + 1) := by
      rw [← hdrop, List.take_append_drop]
    have hk : kad a (a.take ((256 - d) / 8) ++ v :: rs) =
        (f ^^^ v) * 2 ^ (8 * rs.length) + kad (a.drop ((256 - d) / 8 + 1)) rs := by
      conv => lhs; arg 1; rw [hae]
      rw [kad_append, kad_cons hdl (isBytes_drop hba _) hrsb]
      · simp [hdl]
      · rw [← hdrop]; exact isBytes_drop hba _
      · exact hvrs
    rw [hk]
    have hfv : f ^^^ v < 2 ^ (8 - (256 - d) % 8) := by
      have := and_mask_lt (r ^^^ f) ((256 - d) % 8) (by omega) (Nat.xor_lt_two_pow (n := 8) hrb hfb)
      rw [← hv]
      have e : f ^^^ (r ^^^ ((r ^^^ f) &&& (255 ^^^ 255 >>> ((256 - d) % 8)))) =
          (r ^^^ f) ^^^ ((r ^^^ f) &&& (255 ^^^ 255 >>> ((256 - d) % 8))) := by
        rw [← Nat.xor_assoc, Nat.xor_comm f r]
      rw [e]
      exact this
    have hlow : kad (a.drop ((256 - d) / 8 + 1)) rs < 2 ^ (8 * rs.length) :=
      Nat.xor_lt_two_pow (ofBe_lt_pow hdl (isBytes_drop hba _)) (ofBe_lt_pow rfl hrsb)
    have e : d = (8 - (256 - d) % 8) + 8 * rs.length := by omega
    rw [e, Nat.pow_add]
    have := Nat.mul_le_mul_right (2 ^ (8 * rs.length)) hfv
    rw [Nat.succ_mul] at this
    rw [← e]
    omega

theorem and_high_zero {x k : Nat} (hx : x < 2 ^ (8 - k)) : x &&& (0xff ^^^ (0xff >>> k)) = 0 := by
  apply Nat.eq_of_testBit_eq
  intro i
  have h255 : ∀ j, Nat.testBit 255 j = decide (j < 8) := fun j => Nat.testBit_two_pow_sub_one 8 j
  rw [Nat.testBit_and, Nat.testBit_xor, Nat.testBit_shiftRight, h255, h255, Nat.zero_testBit]
  by_cases hi : i < 8 - k
  · have h1 : i < 8 := by omega
    have h2 : k + i < 8 := by omega
    simp [h1, h2]
  · have : Nat.testBit x i = false :=
      Nat.testBit_lt_two_pow (Nat.lt_of_lt_of_le hx (Nat.pow_le_pow_right (n := 2) (by omega) (Nat.le_of_not_lt hi)))
    simp [this]

/-- Ids that agree on fewer bits than a number of leading bytes needs differ too much. -/
theorem take_eq_of_kad_lt {a b : List Nat} {k : Nat} (ha : IsId a) (hb : IsId b) (hk : k ≤ 32)
    (h : kad a b < 2 ^ (8 * (32 - k))) : a.take k = b.take k := by
  have ea : ofBe a = ofBe (a.take k) * 2 ^ (8 * (32 - k)) + ofBe (a.drop k) := by
    conv => lhs; rw [← List.take_append_drop k a]
    rw [ofBe_append, Nat.pow_mul]
    simp [ha.1]
  have eb : ofBe b = ofBe (b.take k) * 2 ^ (8 * (32 - k)) + ofBe (b.drop k) := by
    conv => lhs; rw [← List.take_append_drop k b]
    rw [ofBe_append, Nat.pow_mul]
    simp [hb.1]
  have da : ofBe (a.drop k) < 2 ^ (8 * (32 - k)) := ofBe_lt_pow (by simp [ha.1]) (isBytes_drop ha.2 k)
  have db : ofBe (b.drop k) < 2 ^ (8 * (32 - k)) := ofBe_lt_pow (by simp [hb.1]) (isBytes_drop hb.2 k)
  unfold kad at h
  rw [ea, eb, xor_concat da db] at h
  have h0 : ofBe (a.take k) ^^^ ofBe (b.take k) = 0 := by
    rcases Nat.eq_zero_or_pos (ofBe (a.take k) ^^^ ofBe (b.take k)) with h0 | h0
    · exact h0
    · have := Nat.mul_le_mul_right (2 ^ (8 * (32 - k))) h0
      omega
  have := eq_of_xor_zero h0
  have hl : (a.take k).length = (b.take k).length := by simp [ha.1, hb.1]
  rw [← beBytes_ofBe _ (isBytes_take ha.2 k), ← beBytes_ofBe _ (isBytes_take hb.2 k), hl, this]

/-- C26: every id within a distance is drawn by some random bytes. -/
theorem randomKeyAt_onto {a b : List Nat} {d : Nat} (ha : IsId a) (hb : IsId b) (hd : d ≤ 256) (h : xorDistance a b ≤ d) :
    ∃ rnd, IsBytes rnd ∧ rnd.length = 32 - (256 - d) / 8 ∧ randomKeyAt a d rnd = b := by
  rw [xorDistance_eq ha hb, Nat.size_le] at h
  have hoff : (256 - d) / 8 ≤ 32 := by omega
  have hle : d ≤ 8 * (32 - (256 - d) / 8) := by omega
  have htake := take_eq_of_kad_lt ha hb hoff (Nat.lt_of_lt_of_le h (Nat.pow_le_pow_right (by omega) hle))
  refine ⟨b.drop ((256 - d) / 8), isBytes_drop hb.2 _, by simp [hb.1], ?_⟩
  unfold randomKeyAt maxXor
  simp only
  rw [htake, List.take_append_drop]
  split
  · rename_i hbit
    have hlt : (256 - d) / 8 < 32 := by omega
    have hget : ∀ c : List Nat, IsId c → c.drop ((256 - d) / 8) = c.getD ((256 - d) / 8) 0 :: c.drop ((256 - d) / 8 + 1) := by
      intro c hc
      rw [List.drop_eq_getElem_cons (by rw [hc.1]; omega)]
      congr 1
      rw [List.getD_eq_getElem?_getD, List.getElem?_eq_getElem (by rw [hc.1]; omega), Option.getD_some]
    have ea := hget a ha
    have eb := hget b hb
    generalize hf : a.getD ((256 - d) / 8) 0 = f at ea
    generalize hr : b.getD ((256 - d) / 8) 0 = r at eb
    have hkad : kad a b = (f ^^^ r) * 2 ^ (8 * (32 - (256 - d) / 8 - 1)) +
        kad (a.drop ((256 - d) / 8 + 1)) (b.drop ((256 - d) / 8 + 1)) := by
      have hae : a = b.take ((256 - d) / 8) ++ f :: a.drop ((256 - d) / 8 + 1) := by
        rw [← htake, ← ea, List.take_append_drop]
      have hbe : b = b.take ((256 - d) / 8) ++ r :: b.drop ((256 - d) / 8 + 1) := by
        rw [← eb, List.take_append_drop]
      conv => lhs; rw [hae]; arg 2; rw [hbe]
      rw [kad_append, kad_cons _ (isBytes_drop ha.2 _) (isBytes_drop hb.2 _)]
      · simp [hb.1]
        have : 31 - (256 - d) / 8 = 32 - (256 - d) / 8 - 1 := by omega
        rw [this]
      · simp [ha.1, hb.1]
      · simp [ha.1, hb.1]
      · rw [← ea]; exact isBytes_drop ha.2 _
      · rw [← eb]; exact isBytes_drop hb.2 _
    have hfr : r ^^^ f < 2 ^ (8 - (256 - d) % 8) := by
      rw [Nat.xor_comm]
      apply Nat.lt_of_not_le
      intro hge
      have h1 := Nat.mul_le_mul_right (2 ^ (8 * (32 - (256 - d) / 8 - 1))) hge
      rw [← Nat.pow_add] at h1
      have e : 8 - (256 - d) % 8 + 8 * (32 - (256 - d) / 8 - 1) = d := by omega
      rw [e] at h1
      omega
    rw [and_high_zero hfr, Nat.xor_zero, ← hr]
    apply List.ext_getElem?
    intro i
    rw [List.getElem?_set]
    split
    · rename_i hi
      subst hi
      have hlb : (256 - d) / 8 < b.length := by rw [hb.1]; omega
      rw [if_pos hlb, List.getD_eq_getElem?_getD, List.getElem?_eq_getElem hlb, Option.getD_some]
    · rfl
  · rfl

end Tycho.Dht
