import Verif.QueueKey.Model
import Mathlib.Tactic.ByContra

/-! C11: keys of the internal messages queue. -/
namespace Tycho.QueueKey
open Tycho.Bytes Tycho.Codec

/-! ### Order of keys as a number -/

/-- A key as one number, the hash as the low 32 bytes. -/
def Key.val (k : Key) : Nat := k.lt * 256 ^ 32 + ofBe k.hash

theorem hash_eq (h : List Nat) (hl : h.length = 32) (hb : IsBytes h) : beBytes 32 (ofBe h) = h := by
  have := beBytes_ofBe h hb
  rwa [hl] at this

theorem hash_lt (h : List Nat) (hl : h.length = 32) (hb : IsBytes h) : ofBe h < 256 ^ 32 := by
  have := ofBe_lt h hb
  rwa [hl] at this

/-- Comparing keys is comparing numbers. -/
theorem lt_iff_val (a b : Key) (ha : a.WF) (hb : b.WF) : a.Lt b ↔ a.val < b.val := by
  obtain ⟨a1, a2, a3⟩ := ha
  obtain ⟨b1, b2, b3⟩ := hb
  have h1 := hash_lt a.hash a2 a3
  have h2 := hash_lt b.hash b2 b3
  have e : a.hash < b.hash ↔ ofBe a.hash < ofBe b.hash := by
    rw [← beBytes_lt_iff 32 _ _ h1 h2, hash_eq _ a2 a3, hash_eq _ b2 b3]
  unfold Key.Lt Key.val
  rw [e]
  generalize ofBe a.hash = x at *
  generalize ofBe b.hash = y at *
  generalize 256 ^ 32 = B at *
  constructor
  · rintro (h | ⟨h, h'⟩)
    · have := Nat.mul_le_mul_right B (Nat.succ_le_of_lt h)
      rw [Nat.succ_mul] at this
      omega
    · rw [h]; omega
  · intro h
    rcases Nat.lt_trichotomy a.lt b.lt with h' | h' | h'
    · exact Or.inl h'
    · rw [h'] at h; exact Or.inr ⟨h', by omega⟩
    · have := Nat.mul_le_mul_right B (Nat.succ_le_of_lt h')
      rw [Nat.succ_mul] at this
      omega

theorem val_inj (a b : Key) (ha : a.WF) (hb : b.WF) (h : a.val = b.val) : a = b := by
  obtain ⟨a1, a2, a3⟩ := ha
  obtain ⟨b1, b2, b3⟩ := hb
  have h1 := hash_lt a.hash a2 a3
  have h2 := hash_lt b.hash b2 b3
  unfold Key.val at h
  have hq : ∀ p x : Nat, x < 256 ^ 32 → (p * 256 ^ 32 + x) / 256 ^ 32 = p := by
    intro p x hx
    rw [Nat.mul_comm, Nat.mul_add_div (by decide), Nat.div_eq_of_lt hx, Nat.add_zero]
  have e1 : a.lt = b.lt := by
    have := congrArg (· / 256 ^ 32) h
    simpa only [hq _ _ h1, hq _ _ h2] using this
  have e2 : ofBe a.hash = ofBe b.hash := by
    rw [e1] at h; omega
  have e3 : a.hash = b.hash := by rw [← hash_eq _ a2 a3, e2, hash_eq _ b2 b3]
  cases a; cases b; simp_all

/-- Keys are totally ordered. -/
theorem key_trichotomy (a b : Key) (ha : a.WF) (hb : b.WF) : a.Lt b ∨ a = b ∨ b.Lt a := by
  rw [lt_iff_val a b ha hb, lt_iff_val b a hb ha]
  rcases Nat.lt_trichotomy a.val b.val with h | h | h
  · exact Or.inl h
  · exact Or.inr (Or.inl (val_inj a b ha hb h))
  · exact Or.inr (Or.inr h)

theorem key_lt_asymm (a b : Key) (ha : a.WF) (hb : b.WF) (h : a.Lt b) : ¬ b.Lt a := by
  rw [lt_iff_val _ _ ha hb] at h
  rw [lt_iff_val _ _ hb ha]; omega

/-! ### Successor -/

theorem addCarry_length (l : List Nat) : (addCarry l).length = l.length := by
  induction l with
  | nil => rfl
  | cons b l ih =>
    unfold addCarry
    split <;> simp [ih]

theorem addCarry_bytes (l : List Nat) (h : IsBytes l) : IsBytes (addCarry l) := by
  induction l with
  | nil => exact h
  | cons b l ih =>
    have hl : IsBytes l := fun x hx => h x (by simp [hx])
    unfold addCarry
    split
    · intro x hx
      rcases List.mem_cons.1 hx with rfl | hx
      · assumption
      · exact hl x hx
    · intro x hx
      rcases List.mem_cons.1 hx with rfl | hx
      · decide
      · exact ih hl x hx

/-- Unless all bytes are 255, the loop adds one. -/
theorem addCarry_val (l : List Nat) (h : IsBytes l) (hne : l ≠ List.replicate l.length 255) :
    ofLe (addCarry l) = ofLe l + 1 := by
  induction l with
  | nil => simp at hne
  | cons b l ih =>
    have hb : b < 256 := h b (by simp)
    have hl : IsBytes l := fun x hx => h x (by simp [hx])
    unfold addCarry
    split
    · simp only [ofLe]; omega
    · have hb' : b = 255 := by omega
      subst hb'
      have : l ≠ List.replicate l.length 255 := by
        intro he
        apply hne
        rw [List.length_cons, List.replicate_succ, ← he]
      simp only [ofLe]
      rw [ih hl this]
      omega

theorem ofBe_max : ofBe (List.replicate 32 255) = 256 ^ 32 - 1 := by decide
theorem ofBe_min : ofBe (List.replicate 32 0) = 0 := by decide

theorem max_wf : Key.MAX.WF := by
  refine ⟨by decide, by decide, ?_⟩
  intro b hb
  rw [List.eq_of_mem_replicate hb]; decide

theorem le_max (k : Key) (hk : k.WF) : k.val ≤ Key.MAX.val := by
  obtain ⟨h1, h2, h3⟩ := hk
  have hh := hash_lt k.hash h2 h3
  unfold Key.val
  have e1 : Key.MAX.lt = 256 ^ 8 - 1 := by decide
  have e2 : ofBe Key.MAX.hash = 256 ^ 32 - 1 := by decide
  rw [e1, e2]
  exact Nat.add_le_add (Nat.mul_le_mul_right _ (Nat.le_sub_one_of_lt h1)) (Nat.le_sub_one_of_lt hh)

/-- Every key is at least `MIN` and at most `MAX`. -/
theorem min_le_key_le_max (k : Key) (hk : k.WF) : ¬ k.Lt Key.MIN ∧ ¬ Key.MAX.Lt k := by
  have hmin : Key.MIN.WF := by
    refine ⟨by decide, by decide, ?_⟩
    intro b hb
    rw [List.eq_of_mem_replicate hb]; decide
  rw [lt_iff_val _ _ hk hmin, lt_iff_val _ _ max_wf hk]
  have := le_max k hk
  have e : Key.MIN.val = 0 := by decide
  omega

theorem nextValue_spec (k : Key) (hk : k.WF) :
    (nextValue k).WF ∧
    ((k = Key.MAX ∧ nextValue k = Key.MAX) ∨ (nextValue k).val = k.val + 1) := by
  obtain ⟨h1, h2, h3⟩ := hk
  unfold nextValue
  have r0 : IsBytes (List.replicate 32 0) := by
    intro b hb; rw [List.eq_of_mem_replicate hb]; decide
  split
  · rename_i hh
    split
    · rename_i hl
      refine ⟨max_wf, Or.inl ⟨?_, rfl⟩⟩
      cases k; simp_all [Key.MAX]
    · rename_i hl
      refine ⟨⟨?_, by simp, r0⟩, Or.inr ?_⟩
      · have e : (256 : Nat) ^ 8 = 18446744073709551616 := by decide
        dsimp only
        omega
      · unfold Key.val
        dsimp only
        rw [hh, ofBe_max, ofBe_min, Nat.add_mul, Nat.one_mul]
  · rename_i hh
    have hr : IsBytes k.hash.reverse := fun x hx => h3 x (List.mem_reverse.1 hx)
    refine ⟨⟨h1, by simp [addCarry_length, h2], ?_⟩, Or.inr ?_⟩
    · intro b hb
      exact addCarry_bytes _ hr b (List.mem_reverse.1 hb)
    · unfold Key.val ofBe
      dsimp only
      rw [List.reverse_reverse, addCarry_val _ hr]
      · exact (Nat.add_assoc _ _ _).symm
      · intro he
        apply hh
        rw [List.length_reverse, h2] at he
        have := congrArg List.reverse he
        simpa using this

/-- C11: the successor of a key other than the maximum is greater than it, and no key lies between;
the maximum is its own successor. -/
theorem successor (k : Key) (hk : k.WF) :
    (nextValue k).WF ∧ (k = Key.MAX → nextValue k = Key.MAX) ∧
    (k ≠ Key.MAX → k.Lt (nextValue k) ∧
      ∀ j : Key, j.WF → k.Lt j → j = nextValue k ∨ (nextValue k).Lt j) := by
  obtain ⟨hw, h⟩ := nextValue_spec k hk
  refine ⟨hw, ?_, ?_⟩
  · intro he
    rcases h with h | h
    · exact h.2
    · have := le_max _ hw
      rw [he] at h this
      omega
  · intro hne
    have hv : (nextValue k).val = k.val + 1 := by
      rcases h with h | h
      · exact absurd h.1 hne
      · exact h
    rw [lt_iff_val _ _ hk hw]
    refine ⟨by omega, ?_⟩
    intro j hj hkj
    rw [lt_iff_val _ _ hk hj] at hkj
    rw [lt_iff_val _ _ hw hj]
    rcases Nat.lt_or_ge (nextValue k).val j.val with h' | h'
    · exact Or.inr h'
    · exact Or.inl (val_inj _ _ hj hw (by omega))

/-- Lies after the lower bound. -/
def Bound.below (b : Bound) (k : Key) : Prop := match b with
  | .included j => ¬ k.Lt j
  | .excluded j => j.Lt k
/-- Lies before the upper bound. -/
def Bound.above (b : Bound) (k : Key) : Prop := match b with
  | .included j => ¬ j.Lt k
  | .excluded j => k.Lt j
def Bound.WF : Bound → Prop
  | .included j => j.WF
  | .excluded j => j.WF

/-- C11: converting a bounded range to a half-open one keeps exactly the same keys, the maximal key
excepted: it never is in a half-open range. -/
theorem halfOpen_same_keys (lo hi : Bound) (hlo : lo.WF) (hhi : hi.WF) (k : Key) (hk : k.WF)
    (hne : k ≠ Key.MAX) :
    (¬ k.Lt (halfOpen lo hi).1 ∧ k.Lt (halfOpen lo hi).2) ↔ (lo.below k ∧ hi.above k) := by
  have hkm : k.val ≠ Key.MAX.val := fun h => hne (val_inj _ _ hk max_wf h)
  have hle := le_max k hk
  have a : ¬ k.Lt (halfOpen lo hi).1 ↔ lo.below k := by
    cases lo with
    | included j => exact Iff.rfl
    | excluded j =>
      obtain ⟨hw, h⟩ := nextValue_spec j hlo
      show ¬ k.Lt (nextValue j) ↔ j.Lt k
      rw [lt_iff_val _ _ hk hw, lt_iff_val _ _ hlo hk]
      rcases h with ⟨h1, h2⟩ | h
      · subst h1; rw [h2]; omega
      · omega
  have b : k.Lt (halfOpen lo hi).2 ↔ hi.above k := by
    cases hi with
    | excluded j => exact Iff.rfl
    | included j =>
      obtain ⟨hw, h⟩ := nextValue_spec j hhi
      show k.Lt (nextValue j) ↔ ¬ j.Lt k
      rw [lt_iff_val _ _ hk hw, lt_iff_val _ _ hhi hk]
      rcases h with ⟨h1, h2⟩ | h
      · subst h1; rw [h2]; omega
      · omega
  rw [a, b]

/-- The exception is real: a range including the maximal key loses it. -/
theorem halfOpen_loses_max (lo : Bound) :
    ¬ Key.MAX.Lt (halfOpen lo (.included Key.MAX)).2 := by
  have : (halfOpen lo (.included Key.MAX)).2 = Key.MAX := by
    exact (successor Key.MAX max_wf).2.1 rfl
  rw [this, lt_iff_val _ _ max_wf max_wf]
  omega

/-- All keys of a logical time lie between `min_for_lt` and `max_for_lt`. -/
theorem lt_interval (k : Key) (hk : k.WF) (lt : Nat) (hlt : lt < 256 ^ 8) :
    k.lt = lt ↔ ¬ k.Lt (minForLt lt) ∧ ¬ (maxForLt lt).Lt k := by
  have w1 : (minForLt lt).WF := by
    refine ⟨hlt, by simp [minForLt], ?_⟩
    intro b hb; rw [List.eq_of_mem_replicate hb]; decide
  have w2 : (maxForLt lt).WF := by
    refine ⟨hlt, by simp [maxForLt], ?_⟩
    intro b hb; rw [List.eq_of_mem_replicate hb]; decide
  rw [lt_iff_val _ _ hk w1, lt_iff_val _ _ w2 hk]
  have := hash_lt k.hash hk.2.1 hk.2.2
  unfold Key.val minForLt maxForLt
  dsimp only
  rw [ofBe_max, ofBe_min]
  generalize ofBe k.hash = x at *
  have hB : 0 < 256 ^ 32 := by decide
  generalize 256 ^ 32 = B at *
  constructor
  · rintro rfl; omega
  · rintro ⟨h1, h2⟩
    rcases Nat.lt_trichotomy k.lt lt with h' | h' | h'
    · have := Nat.mul_le_mul_right B (Nat.succ_le_of_lt h')
      rw [Nat.succ_mul] at this
      omega
    · exact h'
    · have := Nat.mul_le_mul_right B (Nat.succ_le_of_lt h')
      rw [Nat.succ_mul] at this
      omega

/-! ### Encodings -/

theorem i32_u32 (x : Int) (h1 : -2147483648 ≤ x) (h2 : x < 2147483648) : i32OfU32 (u32OfI32 x) = x := by
  unfold i32OfU32 u32OfI32; split <;> omega
theorem u32_i32 (x : Nat) (h : x < 256 ^ 4) : u32OfI32 (i32OfU32 x) = x := by
  have : (256 : Nat) ^ 4 = 4294967296 := by decide
  unfold i32OfU32 u32OfI32; split <;> omega
theorem u32_lt (x : Int) : u32OfI32 x < 256 ^ 4 := by
  have : (256 : Nat) ^ 4 = 4294967296 := by decide
  unfold u32OfI32; omega
theorem i32_range (x : Nat) (h : x < 256 ^ 4) : -2147483648 ≤ i32OfU32 x ∧ i32OfU32 x < 2147483648 := by
  have : (256 : Nat) ^ 4 = 4294967296 := by decide
  unfold i32OfU32; split <;> omega
theorem i8_u8 (x : Int) (h1 : -128 ≤ x) (h2 : x < 128) : i8OfU8 (u8OfI8 x) = x := by
  unfold i8OfU8 u8OfI8; split <;> omega
theorem u8_i8 (x : Nat) (h : x < 256 ^ 1) : u8OfI8 (i8OfU8 x) = x := by
  unfold i8OfU8 u8OfI8; split <;> omega
theorem u8_lt (x : Int) : u8OfI8 x < 256 ^ 1 := by
  unfold u8OfI8; omega
theorem i8_range (x : Nat) (h : x < 256 ^ 1) : -128 ≤ i8OfU8 x ∧ i8OfU8 x < 128 := by
  unfold i8OfU8; split <;> omega

theorem key_roundTrip : RoundTrip encKey decKey Key.WF := by
  rintro ⟨lt, hash⟩ ⟨h1, h2, h3⟩ r
  unfold encKey decKey
  rw [List.append_assoc, Rd.bind_of (rdBe_append h1 _), Rd.bind_of (rdBytes_append' h2 _), Rd.pure_run]

theorem key_canonical : Canonical encKey decKey Key.WF := by
  intro s x r hs h
  obtain ⟨lt, s1, h1, h⟩ := Rd.bind_some.1 h
  obtain ⟨hash, s2, h2, h⟩ := Rd.bind_some.1 h
  cases h
  obtain ⟨e1, w1, b1⟩ := rdBe_some hs h1
  obtain ⟨e2, w2⟩ := rdBytes_some h2
  subst e2
  have hb := isBytes_append.1 b1
  exact ⟨⟨w1, w2, hb.1⟩, by rw [e1]; simp [encKey], hb.2⟩

theorem shard_roundTrip : RoundTrip encShard decShard Shard.WF := by
  rintro ⟨wc, pfx⟩ ⟨h1, h2, h3⟩ r
  unfold encShard decShard
  rw [List.append_assoc, Rd.bind_of (rdBe_append (u32_lt _) _), Rd.bind_of (rdBe_append h3 _), Rd.pure_run,
    i32_u32 wc h1 h2]

theorem shard_canonical : Canonical encShard decShard Shard.WF := by
  intro s x r hs h
  obtain ⟨wc, s1, h1, h⟩ := Rd.bind_some.1 h
  obtain ⟨pfx, s2, h2, h⟩ := Rd.bind_some.1 h
  cases h
  obtain ⟨e1, w1, b1⟩ := rdBe_some hs h1
  obtain ⟨e2, w2, b2⟩ := rdBe_some b1 h2
  refine ⟨⟨(i32_range wc w1).1, (i32_range wc w1).2, w2⟩, ?_, b2⟩
  rw [e1, e2]
  simp [encShard, u32_i32 wc w1]

theorem addr_roundTrip : RoundTrip encAddr decAddr Addr.WF := by
  rintro ⟨wc, acc⟩ ⟨h1, h2, h3, h4⟩ r
  unfold encAddr decAddr
  rw [List.append_assoc, Rd.bind_of (rdBe_append (u8_lt _) _), Rd.bind_of (rdBytes_append' h3 _), Rd.pure_run,
    i8_u8 wc h1 h2]

theorem addr_canonical : Canonical encAddr decAddr Addr.WF := by
  intro s x r hs h
  obtain ⟨wc, s1, h1, h⟩ := Rd.bind_some.1 h
  obtain ⟨acc, s2, h2, h⟩ := Rd.bind_some.1 h
  cases h
  obtain ⟨e1, w1, b1⟩ := rdBe_some hs h1
  obtain ⟨e2, w2⟩ := rdBytes_some h2
  subst e2
  have hb := isBytes_append.1 b1
  refine ⟨⟨(i8_range wc w1).1, (i8_range wc w1).2, w2, hb.1⟩, ?_, hb.2⟩
  rw [e1]
  simp [encAddr, u8_i8 wc w1]

theorem part_roundTrip : RoundTrip encPart decPart (· < 256 ^ 2) := fun _ h r => rdBe_append h r
theorem part_canonical : Canonical encPart decPart (· < 256 ^ 2) := by
  intro s x r hs h
  obtain ⟨e, w, b⟩ := rdBe_some hs h
  exact ⟨w, e, b⟩

/-- C11: every stored key reads back as itself, whatever follows it. -/
theorem stored_keys_read_back :
    RoundTrip encMsgKey decMsgKey MsgKey.WF ∧ RoundTrip encStatKey decStatKey StatKey.WF ∧
    RoundTrip encTailKey decTailKey TailKey.WF ∧ RoundTrip encInfoKey decInfoKey InfoKey.WF ∧
    RoundTrip encPtr decPtr PtrValue.WF := by
  refine ⟨?_, ?_, ?_, ?_, ?_⟩
  · rintro ⟨p, s, k⟩ ⟨h1, h2, h3⟩ r
    unfold encMsgKey decMsgKey
    rw [List.append_assoc, List.append_assoc, Rd.bind_of (part_roundTrip _ h1 _),
      Rd.bind_of (shard_roundTrip _ h2 _), Rd.bind_of (key_roundTrip _ h3 _), Rd.pure_run]
  · rintro ⟨s, p, k, d⟩ ⟨h1, h2, h3, h4⟩ r
    unfold encStatKey decStatKey
    rw [List.append_assoc, List.append_assoc, List.append_assoc, Rd.bind_of (shard_roundTrip _ h1 _),
      Rd.bind_of (part_roundTrip _ h2 _), Rd.bind_of (key_roundTrip _ h3 _),
      Rd.bind_of (addr_roundTrip _ h4 _), Rd.pure_run]
  · rintro ⟨s, k⟩ ⟨h1, h2⟩ r
    unfold encTailKey decTailKey
    rw [List.append_assoc, Rd.bind_of (shard_roundTrip _ h1 _), Rd.bind_of (key_roundTrip _ h2 _), Rd.pure_run]
  · rintro ⟨s, n⟩ ⟨h1, h2⟩ r
    unfold encInfoKey decInfoKey
    rw [List.append_assoc, Rd.bind_of (shard_roundTrip _ h1 _), Rd.bind_of (rdBe_append h2 _), Rd.pure_run]
  · rintro ⟨k, n⟩ ⟨h1, h2⟩ r
    unfold encPtr decPtr
    rw [List.append_assoc, Rd.bind_of (key_roundTrip _ h1 _), Rd.bind_of (rdBe_append h2 _), Rd.pure_run]

/-- C11: so different keys have different encodings. -/
theorem stored_keys_injective :
    (∀ a b : MsgKey, a.WF → b.WF → encMsgKey a = encMsgKey b → a = b) ∧
    (∀ a b : StatKey, a.WF → b.WF → encStatKey a = encStatKey b → a = b) ∧
    (∀ a b : TailKey, a.WF → b.WF → encTailKey a = encTailKey b → a = b) ∧
    (∀ a b : InfoKey, a.WF → b.WF → encInfoKey a = encInfoKey b → a = b) :=
  ⟨fun _ _ ha hb h => roundTrip_injective stored_keys_read_back.1 ha hb h,
   fun _ _ ha hb h => roundTrip_injective stored_keys_read_back.2.1 ha hb h,
   fun _ _ ha hb h => roundTrip_injective stored_keys_read_back.2.2.1 ha hb h,
   fun _ _ ha hb h => roundTrip_injective stored_keys_read_back.2.2.2.1 ha hb h⟩

theorem encKey_lt_iff (a b : Key) (ha : a.WF) (hb : b.WF) : encKey a < encKey b ↔ a.Lt b := by
  unfold encKey Key.Lt
  rw [append_lt_append_iff _ _ _ _ (by simp), beBytes_lt_iff 8 _ _ ha.1 hb.1]
  have : beBytes 8 a.lt = beBytes 8 b.lt ↔ a.lt = b.lt :=
    ⟨beBytes_inj 8 _ _ ha.1 hb.1, fun h => by rw [h]⟩
  rw [this]

theorem list_lt_irrefl (l : List Nat) : ¬ l < l := by
  induction l with
  | nil => simp
  | cons a l ih => rw [List.cons_lt_cons_iff]; rintro (h | ⟨-, h⟩); exacts [Nat.lt_irrefl _ h, ih h]

theorem same_prefix_lt (p a b : List Nat) : p ++ a < p ++ b ↔ a < b := by
  rw [append_lt_append_iff _ _ _ _ rfl]
  constructor
  · rintro (h | h)
    · exact absurd h (list_lt_irrefl p)
    · exact h.2
  · intro h; exact Or.inr ⟨rfl, h⟩

/-- C11: within one partition and shard, the stored keys sort bytewise as the keys compare; diff keys
sort by seqno. -/
theorem stored_order (p : Nat) (s : Shard) :
    (∀ a b : Key, a.WF → b.WF → (encMsgKey ⟨p, s, a⟩ < encMsgKey ⟨p, s, b⟩ ↔ a.Lt b)) ∧
    (∀ a b : Key, a.WF → b.WF → (encTailKey ⟨s, a⟩ < encTailKey ⟨s, b⟩ ↔ a.Lt b)) ∧
    (∀ m n : Nat, m < 256 ^ 4 → n < 256 ^ 4 → (encInfoKey ⟨s, m⟩ < encInfoKey ⟨s, n⟩ ↔ m < n)) ∧
    (∀ (a b : Key) (d e : Addr), a.WF → b.WF → a.Lt b →
      encStatKey ⟨s, p, a, d⟩ < encStatKey ⟨s, p, b, e⟩) := by
  refine ⟨?_, ?_, ?_, ?_⟩
  · intro a b ha hb
    unfold encMsgKey
    rw [same_prefix_lt, same_prefix_lt, encKey_lt_iff a b ha hb]
  · intro a b ha hb
    unfold encTailKey
    rw [same_prefix_lt, encKey_lt_iff a b ha hb]
  · intro m n hm hn
    unfold encInfoKey
    rw [same_prefix_lt, beBytes_lt_iff 4 m n hm hn]
  · intro a b d e ha hb h
    unfold encStatKey
    dsimp only
    rw [same_prefix_lt, same_prefix_lt, append_lt_append_iff]
    · exact Or.inl ((encKey_lt_iff a b ha hb).2 h)
    · unfold encKey; simp [ha.2.1, hb.2.1]

theorem list_trichotomy (a b : List Nat) (h : a.length = b.length) : a < b ∨ a = b ∨ b < a := by
  induction a generalizing b with
  | nil =>
    have : b = [] := List.length_eq_zero_iff.1 h.symm
    exact Or.inr (Or.inl this.symm)
  | cons x a ih =>
    cases b with
    | nil => simp at h
    | cons y b =>
      rw [List.cons_lt_cons_iff, List.cons_lt_cons_iff]
      rcases Nat.lt_trichotomy x y with hx | hx | hx
      · exact Or.inl (Or.inl hx)
      · subst hx
        rcases ih b (by simpa using h) with h | h | h
        · exact Or.inl (Or.inr ⟨rfl, h⟩)
        · exact Or.inr (Or.inl (by rw [h]))
        · exact Or.inr (Or.inr (Or.inr ⟨rfl, h⟩))
      · exact Or.inr (Or.inr (Or.inl hx))

/-- C11: a scan of the stored messages between two bounds of one partition and shard meets keys of
that partition and shard only: nothing else sorts in between. -/
theorem scan_stays_inside (p : Nat) (s : Shard) (a b : Key) (ha : a.WF) (hb : b.WF)
    (k : MsgKey) (hp : p < 256 ^ 2) (hs : s.WF) (hk : k.WF)
    (h1 : ¬ encMsgKey k < encMsgKey ⟨p, s, a⟩) (h2 : ¬ encMsgKey ⟨p, s, b⟩ < encMsgKey k) :
    k.partition = p ∧ k.shard = s ∧ ¬ k.key.Lt a ∧ ¬ b.Lt k.key := by
  have el : ∀ x : Shard, (encShard x).length = 12 := by intro x; simp [encShard]
  have ep : ∀ x : Nat, (encPart x).length = 2 := by intro x; simp [encPart]
  have split : ∀ (x : MsgKey) (q : Nat) (t : Shard) (c : Key),
      (encMsgKey x < encMsgKey ⟨q, t, c⟩ ↔ (encPart x.partition ++ encShard x.shard <
        encPart q ++ encShard t ∨ (encPart x.partition ++ encShard x.shard =
        encPart q ++ encShard t ∧ encKey x.key < encKey c))) ∧
      (encMsgKey ⟨q, t, c⟩ < encMsgKey x ↔ (encPart q ++ encShard t <
        encPart x.partition ++ encShard x.shard ∨ (encPart q ++ encShard t =
        encPart x.partition ++ encShard x.shard ∧ encKey c < encKey x.key))) := by
    intro x q t c
    unfold encMsgKey
    simp only [← List.append_assoc]
    exact ⟨append_lt_append_iff _ _ _ _ (by simp [el, ep]), append_lt_append_iff _ _ _ _ (by simp [el, ep])⟩
  rw [(split k p s a).1] at h1
  rw [(split k p s b).2] at h2
  have heq : encPart k.partition ++ encShard k.shard = encPart p ++ encShard s := by
    by_contra hne
    rcases list_trichotomy (encPart k.partition ++ encShard k.shard) (encPart p ++ encShard s)
      (by simp [el, ep]) with h | h | h
    · exact h1 (Or.inl h)
    · exact hne h
    · exact h2 (Or.inl h)
  have hsplit := List.append_inj heq (by simp [ep])
  refine ⟨beBytes_inj 2 _ _ hk.1 hp hsplit.1, roundTrip_injective shard_roundTrip hk.2.1 hs hsplit.2, ?_, ?_⟩
  · intro h; exact h1 (Or.inr ⟨heq, (encKey_lt_iff _ _ hk.2.2 ha).2 h⟩)
  · intro h; exact h2 (Or.inr ⟨heq.symm, (encKey_lt_iff _ _ hb hk.2.2).2 h⟩)

/-- A block id reads back when it is all there is; with any bytes after it reading fails, although
the trait says the reader stops at the end of the value. -/
theorem blockId_reads_back_alone (b : BlockId) (hb : b.WF) (r : List Nat) :
    (decBlockId (encBlockId b ++ r)).map Prod.fst = if r = [] then some b else none := by
  obtain ⟨sh, n, rh, fh⟩ := b
  obtain ⟨h1, h2, ⟨h3, -⟩, ⟨h4, -⟩⟩ := hb
  unfold encBlockId decBlockId
  rw [List.append_assoc, List.append_assoc, Rd.bind_of (shard_roundTrip _ h1 _),
    Rd.bind_of (rdBe_append h2 _)]
  simp only at h3 h4
  have hd : (rh ++ fh ++ r).drop 32 = fh ++ r := by
    rw [List.append_assoc, List.drop_append_of_le_length (by omega)]
    rw [List.drop_of_length_le (by omega)]; rfl
  have ht : (rh ++ fh ++ r).take 32 = rh := by
    rw [List.append_assoc, List.take_append_of_le_length (by omega), List.take_of_length_le (by omega)]
  unfold decHashes
  rw [hd, ht]
  by_cases hr : r = []
  · subst hr
    simp [h3, h4]
  · have : r.length ≠ 0 := fun h => hr (List.length_eq_zero_iff.1 h)
    rw [if_neg, if_neg hr]
    · rfl
    · simp; omega

/-! Concrete cases. -/
example : nextValue ⟨5, List.replicate 31 7 ++ [255]⟩ = ⟨5, List.replicate 30 7 ++ [8, 0]⟩ := by decide
example : nextValue ⟨5, List.replicate 32 255⟩ = ⟨6, List.replicate 32 0⟩ := by decide
example : Key.WF ⟨5, List.replicate 31 7 ++ [255]⟩ := by
  refine ⟨by decide, by decide, by unfold IsBytes; decide⟩
example : encInfoKey ⟨⟨-1, 2 ^ 63⟩, 10⟩ = [255, 255, 255, 255, 128, 0, 0, 0, 0, 0, 0, 0, 0, 0, 0, 10] := by decide

end Tycho.QueueKey
