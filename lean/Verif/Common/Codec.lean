import Verif.Common.Bytes
import Mathlib.Data.List.Chain

/-! Readers of byte strings: fail or return a value and the remaining bytes. -/
namespace Tycho.Codec
open Tycho.Bytes

/-- A reader over `&mut &[u8]`: `none` is an error (or, for stored values, a panic). -/
def Rd (α : Type) : Type := List Nat → Option (α × List Nat)

namespace Rd
variable {α β : Type}

def ret (a : α) : Rd α := fun s => some (a, s)
def andThen (m : Rd α) (f : α → Rd β) : Rd β := fun s => match m s with
  | some (a, r) => f a r
  | none => none
/-- `return Err(..)` -/
def fail : Rd α := fun _ => none

instance : Monad Rd where
  pure := ret
  bind := andThen

theorem pure_run (a : α) (s : List Nat) : (pure a : Rd α) s = some (a, s) := rfl

theorem bind_run (m : Rd α) (f : α → Rd β) (s : List Nat) :
    (m >>= f) s = match m s with
      | some (a, r) => f a r
      | none => none := rfl

theorem bind_some {m : Rd α} {f : α → Rd β} {s : List Nat} {x : β × List Nat} :
    (m >>= f) s = some x ↔ ∃ a r, m s = some (a, r) ∧ f a r = some x := by
  rw [bind_run]
  cases h : m s with
  | none => simp
  | some p =>
    obtain ⟨a, r⟩ := p
    constructor
    · intro h'; exact ⟨a, r, rfl, h'⟩
    · rintro ⟨a', r', he, hf⟩
      cases he; exact hf

theorem bind_of {m : Rd α} {f : α → Rd β} {s r : List Nat} {a : α} (h : m s = some (a, r)) :
    (m >>= f) s = f a r := by
  rw [bind_run, h]

theorem fail_run (s : List Nat) : (fail : Rd α) s = none := rfl

theorem ite_run (c : Prop) [Decidable c] (m n : Rd α) (s : List Nat) :
    (if c then m else n) s = if c then m s else n s := by split <;> rfl

end Rd

/-- All bytes below 256. -/
def IsBytes (l : List Nat) : Prop := ∀ b ∈ l, b < 256

theorem isBytes_append {a b : List Nat} : IsBytes (a ++ b) ↔ IsBytes a ∧ IsBytes b := by
  simp only [IsBytes, List.mem_append]
  constructor
  · intro h; exact ⟨fun x hx => h x (Or.inl hx), fun x hx => h x (Or.inr hx)⟩
  · rintro ⟨h1, h2⟩ x (h | h)
    · exact h1 x h
    · exact h2 x h

/-- Reads exactly `n` bytes. -/
def rdBytes (n : Nat) : Rd (List Nat) := fun s =>
  if n ≤ s.length then some (s.take n, s.drop n) else none

theorem rdBytes_append (a r : List Nat) : rdBytes a.length (a ++ r) = some (a, r) := by
  simp [rdBytes]

theorem rdBytes_append' {n : Nat} {a : List Nat} (h : a.length = n) (r : List Nat) :
    rdBytes n (a ++ r) = some (a, r) := by subst h; exact rdBytes_append a r

theorem rdBytes_some {n : Nat} {s a r : List Nat} (h : rdBytes n s = some (a, r)) :
    s = a ++ r ∧ a.length = n := by
  unfold rdBytes at h
  split at h
  · rename_i hn
    injection h with h
    injection h with h1 h2
    subst h1; subst h2
    exact ⟨(List.take_append_drop n s).symm, by simp [hn]⟩
  · cases h

/-- Little-endian unsigned integer of `n` bytes (TL integers). -/
def rdLe (n : Nat) : Rd Nat := do return ofLe (← rdBytes n)
/-- Big-endian unsigned integer of `n` bytes. -/
def rdBe (n : Nat) : Rd Nat := do return ofBe (← rdBytes n)

theorem rdLe_append {n x : Nat} (h : x < 256 ^ n) (r : List Nat) :
    rdLe n (leBytes n x ++ r) = some (x, r) := by
  unfold rdLe
  rw [Rd.bind_of (rdBytes_append' (leBytes_length n x) r), Rd.pure_run, ofLe_leBytes n x h]

theorem rdBe_append {n x : Nat} (h : x < 256 ^ n) (r : List Nat) :
    rdBe n (beBytes n x ++ r) = some (x, r) := by
  unfold rdBe
  rw [Rd.bind_of (rdBytes_append' (beBytes_length n x) r), Rd.pure_run, ofBe_beBytes n x h]

theorem leBytes_ofLe (l : List Nat) (h : IsBytes l) : leBytes l.length (ofLe l) = l := by
  induction l with
  | nil => rfl
  | cons b l ih =>
    have hb : b < 256 := h b (by simp)
    have hl : IsBytes l := fun x hx => h x (by simp [hx])
    simp only [List.length_cons, leBytes, ofLe]
    have h1 : (b + 256 * ofLe l) % 256 = b := by omega
    have h2 : (b + 256 * ofLe l) / 256 = ofLe l := by omega
    rw [h1, h2, ih hl]

theorem ofLe_lt (l : List Nat) (h : IsBytes l) : ofLe l < 256 ^ l.length := by
  induction l with
  | nil => simp [ofLe]
  | cons b l ih =>
    have hb : b < 256 := h b (by simp)
    have hl : IsBytes l := fun x hx => h x (by simp [hx])
    have := ih hl
    simp only [ofLe, List.length_cons, Nat.pow_succ]
    omega

theorem beBytes_ofBe (l : List Nat) (h : IsBytes l) : beBytes l.length (ofBe l) = l := by
  have hr : IsBytes l.reverse := fun x hx => h x (List.mem_reverse.1 hx)
  have := leBytes_ofLe l.reverse hr
  rw [List.length_reverse] at this
  simp [beBytes, ofBe, this]

theorem ofBe_lt (l : List Nat) (h : IsBytes l) : ofBe l < 256 ^ l.length := by
  have hr : IsBytes l.reverse := fun x hx => h x (List.mem_reverse.1 hx)
  have := ofLe_lt l.reverse hr
  simpa [ofBe] using this

theorem rdLe_some {n x : Nat} {s r : List Nat} (hs : IsBytes s) (h : rdLe n s = some (x, r)) :
    s = leBytes n x ++ r ∧ x < 256 ^ n ∧ IsBytes r := by
  unfold rdLe at h
  obtain ⟨a, t, h1, h2⟩ := Rd.bind_some.1 h
  obtain ⟨h3, h4⟩ := rdBytes_some h1
  rw [Rd.pure_run] at h2
  cases h2
  subst h3
  have hb := isBytes_append.1 hs
  subst h4
  exact ⟨by rw [leBytes_ofLe a hb.1], ofLe_lt a hb.1, hb.2⟩

theorem rdBe_some {n x : Nat} {s r : List Nat} (hs : IsBytes s) (h : rdBe n s = some (x, r)) :
    s = beBytes n x ++ r ∧ x < 256 ^ n ∧ IsBytes r := by
  unfold rdBe at h
  obtain ⟨a, t, h1, h2⟩ := Rd.bind_some.1 h
  obtain ⟨h3, h4⟩ := rdBytes_some h1
  rw [Rd.pure_run] at h2
  cases h2
  subst h3
  have hb := isBytes_append.1 hs
  subst h4
  exact ⟨by rw [beBytes_ofBe a hb.1], ofBe_lt a hb.1, hb.2⟩

/-! ### Codec laws -/

/-- Encoder and reader agree on the values satisfying `P`: reading what was written, followed by
anything, gives the value back and leaves the rest. -/
def RoundTrip {α : Type} (enc : α → List Nat) (dec : Rd α) (P : α → Prop) : Prop :=
  ∀ x, P x → ∀ r, dec (enc x ++ r) = some (x, r)

/-- The reader accepts nothing but encodings of values satisfying `P`. -/
def Canonical {α : Type} (enc : α → List Nat) (dec : Rd α) (P : α → Prop) : Prop :=
  ∀ s x r, IsBytes s → dec s = some (x, r) → P x ∧ s = enc x ++ r ∧ IsBytes r

theorem roundTrip_injective {α : Type} {enc : α → List Nat} {dec : Rd α} {P : α → Prop}
    (h : RoundTrip enc dec P) {x y : α} (hx : P x) (hy : P y) (he : enc x = enc y) : x = y := by
  have h1 := h x hx []
  have h2 := h y hy []
  rw [he, h2] at h1
  injection h1 with h1
  injection h1 with h1
  exact h1.symm

/-- `for _ in 0..n { items.push(read(data)?) }` -/
def rdMany {α : Type} (dec : Rd α) : Nat → Rd (List α)
  | 0 => pure []
  | n + 1 => do
    let x ← dec
    let xs ← rdMany dec n
    return x :: xs

theorem rdMany_append {α : Type} {enc : α → List Nat} {dec : Rd α} {P : α → Prop}
    (h : RoundTrip enc dec P) (xs : List α) (hx : ∀ x ∈ xs, P x) (r : List Nat) :
    rdMany dec xs.length (xs.flatMap enc ++ r) = some (xs, r) := by
  induction xs with
  | nil => rfl
  | cons x xs ih =>
    simp only [List.length_cons, rdMany, List.flatMap_cons, List.append_assoc]
    rw [Rd.bind_of (h x (hx x (by simp)) _), Rd.bind_of (ih (fun y hy => hx y (by simp [hy]))), Rd.pure_run]

theorem rdMany_some {α : Type} {enc : α → List Nat} {dec : Rd α} {P : α → Prop}
    (h : Canonical enc dec P) (n : Nat) (s r : List Nat) (xs : List α) (hs : IsBytes s)
    (hd : rdMany dec n s = some (xs, r)) :
    xs.length = n ∧ (∀ x ∈ xs, P x) ∧ s = xs.flatMap enc ++ r ∧ IsBytes r := by
  induction n generalizing s xs with
  | zero => cases hd; simp [hs]
  | succ n ih =>
    unfold rdMany at hd
    obtain ⟨x, t, h1, h2⟩ := Rd.bind_some.1 hd
    obtain ⟨ys, u, h3, h4⟩ := Rd.bind_some.1 h2
    cases h4
    obtain ⟨hx, rfl, ht⟩ := h s x t hs h1
    obtain ⟨e1, e2, e3, e4⟩ := ih t ys ht h3
    refine ⟨by simp [e1], ?_, by simp [e3, List.append_assoc], e4⟩
    intro y hy
    rcases List.mem_cons.1 hy with rfl | hy
    · exact hx
    · exact e2 y hy

/-- `if let Some(prev) = prev && x <= prev` -/
def notAfter {α : Type} (lt : α → α → Bool) (prev : Option α) (x : α) : Bool := match prev with
  | some p => !lt p x
  | none => false

/-- Reads `n` items, each strictly greater than the one before (the loops with `prev_*`). -/
def rdAscending {α : Type} (lt : α → α → Bool) (dec : Rd α) : Nat → Option α → Rd (List α)
  | 0, _ => pure []
  | n + 1, prev => do
    let x ← dec
    if notAfter lt prev x = true then Rd.fail
    else do
      let xs ← rdAscending lt dec n (some x)
      return x :: xs

theorem rdAscending_append {α : Type} {lt : α → α → Bool} {enc : α → List Nat} {dec : Rd α}
    {P : α → Prop} (h : RoundTrip enc dec P) (xs : List α) (prev : Option α) (hx : ∀ x ∈ xs, P x)
    (hp : List.IsChain (fun a b => lt a b = true) (prev.toList ++ xs)) (r : List Nat) :
    rdAscending lt dec xs.length prev (xs.flatMap enc ++ r) = some (xs, r) := by
  induction xs generalizing prev with
  | nil => rfl
  | cons x xs ih =>
    simp only [List.length_cons, rdAscending, List.flatMap_cons, List.append_assoc]
    rw [Rd.bind_of (h x (hx x (by simp)) _)]
    have hc : notAfter lt prev x = false := by
      cases prev with
      | none => rfl
      | some p =>
        simp only [Option.toList_some, List.cons_append, List.nil_append,
          List.isChain_cons_cons] at hp
        simp [notAfter, hp.1]
    have hch : List.IsChain (fun a b => lt a b = true) ((some x).toList ++ xs) := by
      cases prev with
      | none => simpa using hp
      | some p =>
        simp only [Option.toList_some, List.cons_append, List.nil_append,
          List.isChain_cons_cons] at hp
        simpa using hp.2
    rw [hc, Rd.ite_run, if_neg (by simp),
      Rd.bind_of (ih (some x) (fun y hy => hx y (by simp [hy])) hch), Rd.pure_run]

theorem rdAscending_some {α : Type} {lt : α → α → Bool} {enc : α → List Nat} {dec : Rd α}
    {P : α → Prop} (h : Canonical enc dec P) (n : Nat) (prev : Option α) (s r : List Nat)
    (xs : List α) (hs : IsBytes s) (hd : rdAscending lt dec n prev s = some (xs, r)) :
    xs.length = n ∧ (∀ x ∈ xs, P x) ∧
    List.IsChain (fun a b => lt a b = true) (prev.toList ++ xs) ∧ s = xs.flatMap enc ++ r ∧ IsBytes r := by
  induction n generalizing s xs prev with
  | zero => cases hd; cases prev <;> simp [hs]
  | succ n ih =>
    unfold rdAscending at hd
    obtain ⟨x, t, h1, h2⟩ := Rd.bind_some.1 hd
    rw [Rd.ite_run] at h2
    split at h2
    · cases h2
    rename_i hc
    obtain ⟨ys, u, h3, h4⟩ := Rd.bind_some.1 h2
    cases h4
    obtain ⟨hx, rfl, ht⟩ := h s x t hs h1
    obtain ⟨e1, e2, e3, e4, e5⟩ := ih (some x) t ys ht h3
    refine ⟨by simp [e1], ?_, ?_, by simp [e4, List.append_assoc], e5⟩
    · intro y hy
      rcases List.mem_cons.1 hy with rfl | hy
      · exact hx
      · exact e2 y hy
    · cases prev with
      | none => simpa using e3
      | some p =>
        simp only [Option.toList_some, List.cons_append, List.nil_append, List.isChain_cons_cons] at e3 ⊢
        refine ⟨by simpa [notAfter] using hc, ?_⟩
        exact e3

end Tycho.Codec
