/-! Little- and big-endian byte strings. A byte is a `Nat`; the encoders produce bytes below 256. -/
namespace Tycho.Bytes

/-- `x.to_le_bytes()` of an `n`-byte unsigned integer. -/
def leBytes : Nat → Nat → List Nat
  | 0, _ => []
  | n + 1, x => x % 256 :: leBytes n (x / 256)

/-- `from_le_bytes`. -/
def ofLe : List Nat → Nat
  | [] => 0
  | b :: bs => b + 256 * ofLe bs

/-- `x.to_be_bytes()` of an `n`-byte unsigned integer. -/
def beBytes (n x : Nat) : List Nat := (leBytes n x).reverse

/-- `from_be_bytes`. -/
def ofBe (bs : List Nat) : Nat := ofLe bs.reverse

@[simp] theorem leBytes_length (n x : Nat) : (leBytes n x).length = n := by
  induction n generalizing x with
  | zero => rfl
  | succ n ih => simp [leBytes, ih]

@[simp] theorem beBytes_length (n x : Nat) : (beBytes n x).length = n := by simp [beBytes]

theorem ofLe_leBytes (n x : Nat) (h : x < 256 ^ n) : ofLe (leBytes n x) = x := by
  induction n generalizing x with
  | zero => simp at h; simp [leBytes, ofLe, h]
  | succ n ih =>
    simp only [leBytes, ofLe]
    rw [ih _ (by rw [Nat.pow_succ] at h; omega)]
    omega

theorem ofBe_beBytes (n x : Nat) (h : x < 256 ^ n) : ofBe (beBytes n x) = x := by
  simp [ofBe, beBytes, ofLe_leBytes n x h]

theorem leBytes_lt (n x : Nat) : ∀ b ∈ leBytes n x, b < 256 := by
  induction n generalizing x with
  | zero => simp [leBytes]
  | succ n ih =>
    intro b hb
    simp only [leBytes, List.mem_cons] at hb
    rcases hb with rfl | hb
    · omega
    · exact ih _ b hb

theorem beBytes_lt (n x : Nat) : ∀ b ∈ beBytes n x, b < 256 := by
  intro b hb
  exact leBytes_lt n x b (List.mem_reverse.1 hb)

theorem leBytes_inj (n x y : Nat) (hx : x < 256 ^ n) (hy : y < 256 ^ n)
    (h : leBytes n x = leBytes n y) : x = y := by
  rw [← ofLe_leBytes n x hx, h, ofLe_leBytes n y hy]

theorem beBytes_inj (n x y : Nat) (hx : x < 256 ^ n) (hy : y < 256 ^ n)
    (h : beBytes n x = beBytes n y) : x = y := by
  rw [← ofBe_beBytes n x hx, h, ofBe_beBytes n y hy]

/-- Big-endian, most significant byte first. -/
theorem beBytes_succ (n x : Nat) :
    beBytes (n + 1) x = (x / 256 ^ n % 256) :: beBytes n x := by
  have key : ∀ n x, leBytes (n + 1) x = leBytes n x ++ [x / 256 ^ n % 256] := by
    intro n
    induction n with
    | zero => intro x; simp [leBytes]
    | succ n ih =>
      intro x
      rw [leBytes, ih, leBytes, List.cons_append, Nat.div_div_eq_div_mul, Nat.pow_succ,
        Nat.mul_comm 256]
  simp [beBytes, key]

theorem beBytes_mod (n x : Nat) : beBytes n x = beBytes n (x % 256 ^ n) := by
  have key : ∀ n x, leBytes n x = leBytes n (x % 256 ^ n) := by
    intro n
    induction n with
    | zero => intro x; rfl
    | succ n ih =>
      intro x
      simp only [leBytes]
      rw [ih (x / 256), ih (x % 256 ^ (n + 1) / 256)]
      congr 1
      · rw [Nat.pow_succ, Nat.mul_comm, Nat.mod_mul_right_mod]
      · congr 1
        rw [Nat.pow_succ, Nat.mul_comm, Nat.mod_mul_right_div_self]
        rw [Nat.mod_mod]
  unfold beBytes
  rw [key]

/-- Byte-lexicographic order of equal-width big-endian strings is numeric order. -/
theorem beBytes_lt_iff (n x y : Nat) (hx : x < 256 ^ n) (hy : y < 256 ^ n) :
    beBytes n x < beBytes n y ↔ x < y := by
  induction n generalizing x y with
  | zero => simp at hx hy; simp [hx, hy]
  | succ n ih =>
    rw [beBytes_succ, beBytes_succ, List.cons_lt_cons_iff]
    have hp : 0 < 256 ^ n := Nat.pow_pos (by decide)
    have e : 256 ^ (n + 1) = 256 ^ n * 256 := Nat.pow_succ ..
    have hqx : x / 256 ^ n < 256 := by
      rw [Nat.div_lt_iff_lt_mul hp, Nat.mul_comm]; omega
    have hqy : y / 256 ^ n < 256 := by
      rw [Nat.div_lt_iff_lt_mul hp, Nat.mul_comm]; omega
    rw [Nat.mod_eq_of_lt hqx, Nat.mod_eq_of_lt hqy, beBytes_mod n x, beBytes_mod n y,
      ih _ _ (Nat.mod_lt _ hp) (Nat.mod_lt _ hp)]
    have dx := Nat.div_add_mod x (256 ^ n)
    have dy := Nat.div_add_mod y (256 ^ n)
    have mx := Nat.mod_lt x hp
    have my := Nat.mod_lt y hp
    generalize x / 256 ^ n = qx at *
    generalize y / 256 ^ n = qy at *
    generalize x % 256 ^ n = rx at *
    generalize y % 256 ^ n = ry at *
    generalize 256 ^ n = B at *
    constructor
    · rintro (h | ⟨rfl, h⟩)
      · have : B * (qx + 1) ≤ B * qy := Nat.mul_le_mul_left B h
        rw [Nat.mul_add] at this
        omega
      · omega
    · intro h
      rcases Nat.lt_trichotomy qx qy with h1 | h1 | h1
      · exact Or.inl h1
      · subst h1; exact Or.inr ⟨rfl, by omega⟩
      · have : B * (qy + 1) ≤ B * qx := Nat.mul_le_mul_left B h1
        rw [Nat.mul_add] at this
        omega

/-- Lexicographic order of concatenations of equal-length prefixes. -/
theorem append_lt_append_iff (a b c d : List Nat) (h : a.length = c.length) :
    a ++ b < c ++ d ↔ a < c ∨ (a = c ∧ b < d) := by
  induction a generalizing c with
  | nil =>
    have : c = [] := List.length_eq_zero_iff.1 h.symm
    subst this
    simp
  | cons x a ih =>
    cases c with
    | nil => simp at h
    | cons y c =>
      simp only [List.length_cons, Nat.add_right_cancel_iff] at h
      simp only [List.cons_append, List.cons_lt_cons_iff, ih c h, List.cons.injEq]
      constructor
      · rintro (h1 | ⟨h1, h2 | ⟨h2, h3⟩⟩)
        · exact Or.inl (Or.inl h1)
        · exact Or.inl (Or.inr ⟨h1, h2⟩)
        · exact Or.inr ⟨⟨h1, h2⟩, h3⟩
      · rintro ((h1 | ⟨h1, h2⟩) | ⟨⟨h1, h2⟩, h3⟩)
        · exact Or.inl h1
        · exact Or.inr ⟨h1, Or.inl h2⟩
        · exact Or.inr ⟨h1, Or.inr ⟨h2, h3⟩⟩

/-- Bytewise or of little-endian strings is the or of the numbers. -/
theorem leBytes_or (n x y : Nat) :
    List.zipWith (· ||| ·) (leBytes n x) (leBytes n y) = leBytes n (x ||| y) := by
  induction n generalizing x y with
  | zero => rfl
  | succ n ih =>
    simp only [leBytes, List.zipWith_cons_cons, ih]
    congr 1
    · exact (Nat.or_mod_two_pow (n := 8)).symm
    · rw [show (256 : Nat) = 2 ^ 8 from rfl]
      congr 1
      exact (Nat.or_div_two_pow (n := 8)).symm

end Tycho.Bytes
