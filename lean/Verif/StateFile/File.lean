import Verif.StateFile.Bytes
/-! The file: what the writer writes, the reader reads. -/
namespace Tycho.StateFile
open Tycho.Bytes Tycho.Codec Tycho.Table

theorem bytesToFit_spec (l : Nat) (h : l < 2 ^ 64) : l < 256 ^ min (bytesToFit l) 8 := by
  unfold bytesToFit
  split
  · next h0 => subst h0; simp
  · next h0 =>
    have h1 : l < 2 ^ (l.log2 + 1) := Nat.lt_log2_self
    have h3 : ∀ k, 256 ^ k = 2 ^ (8 * k) := fun k => by rw [Nat.pow_mul]
    rcases Nat.le_total (l.log2 / 8 + 1) 8 with h2 | h2
    · rw [Nat.min_eq_left h2, h3]
      exact Nat.lt_of_lt_of_le h1 (Nat.pow_le_pow_right (by decide) (by omega))
    · rw [Nat.min_eq_right h2]
      exact Nat.lt_of_lt_of_le h (by decide)

theorem bytesToFit_pos (l : Nat) (h : 0 < l) : 0 < bytesToFit l := by
  unfold bytesToFit
  rw [if_neg (by omega)]; omega

theorem indexBytes_length (size : Nat) : ∀ (l : List (List Nat)) (off : Nat), (indexBytes size off l).length = l.length * size := by
  intro l
  induction l with
  | nil => intro off; simp [indexBytes]
  | cons c cs ih => intro off; simp only [indexBytes, List.length_append, beBytes_length, ih, List.length_cons, Nat.succ_mul]; omega

theorem beBytes_one (x : Nat) (h : x < 256) : beBytes 1 x = [x] := by
  simp [beBytes, leBytes, Nat.mod_eq_of_lt h]

/-- The sizes that the reader accepts. -/
structure Sizes (out : List (List Nat)) : Prop where
  pos : 0 < out.length
  count : out.length < 2 ^ 32
  totalPos : 0 < (out.map List.length).sum
  total : (out.map List.length).sum ≤ 100 * 2 ^ 30
  index : out.length * bytesToFit (out.map List.length).sum ≤ 10 * 2 ^ 30

theorem readHeader_file {out : List (List Nat)} (hs : Sizes out) :
    readHeader (fileBytes out) = some (⟨false, 4, out.length⟩, (out.reverse.map (remapCell out.length)).flatten) := by
  obtain ⟨h1, h2, h3, h4, h5⟩ := hs
  unfold fileBytes
  simp only []
  generalize ht : (out.map List.length).sum = total at h3 h4 h5
  have hfit := bytesToFit_spec total (by omega)
  have hpos := bytesToFit_pos total h3
  have hmin : min (bytesToFit total) 8 ≤ bytesToFit total := Nat.min_le_left _ _
  have hidx : out.length * min (bytesToFit total) 8 ≤ 10 * 2 ^ 30 := Nat.le_trans (Nat.mul_le_mul_left _ hmin) h5
  have hs0 : 0 < min (bytesToFit total) 8 := by omega
  have hs8 : min (bytesToFit total) 8 ≤ 8 := Nat.min_le_right _ _
  generalize min (bytesToFit total) 8 = size at hfit hidx hs0 hs8
  unfold readHeader
  rw [show [0xb5, 0xee, 0x9c, 0x72, 0x84, size] = [0xb5, 0xee, 0x9c, 0x72] ++ (beBytes 1 0x84 ++ beBytes 1 size) from by
    rw [beBytes_one size (by omega)]; rfl]
  simp only [List.append_assoc]
  rw [Rd.bind_of (rdBytes_append' (by rfl) _), Rd.bind_of (rdBe_append (by decide) _)]
  rw [show bocFlags [0xb5, 0xee, 0x9c, 0x72] 0x84 = some (true, true, false, 4) from by decide]
  simp only []
  rw [Rd.ite_run, if_neg (by decide)]
  unfold readSizes
  rw [Rd.bind_of (rdBe_append (by omega) _), Rd.ite_run, if_neg (by omega)]
  rw [Rd.bind_of (rdBe_append (by omega) _), Rd.bind_of (rdBe_append (by decide) _), Rd.bind_of (rdBe_append (by decide) _)]
  rw [Rd.ite_run, if_neg (by omega), Rd.bind_of (rdBe_append hfit _), Rd.ite_run, if_neg (by omega)]
  rw [Rd.bind_of (rdBytes_append' (by simp) _), Rd.ite_run, if_neg (by simp; omega)]
  rw [Rd.bind_of (a := ()) (r := (out.reverse.map (remapCell out.length)).flatten)]
  · rfl
  · simp only [skip, if_true, Option.some.injEq, Prod.mk.injEq, true_and]
    rw [show out.length * size = (indexBytes size 0 out.reverse).length from by rw [indexBytes_length]; simp, List.drop_left]

variable {H : Hasher}

/-- The chunks of a list. -/
def chunksOf (per : Nat) : Nat → List (List Nat) → List (List (List Nat))
  | 0, _ => []
  | fuel + 1, l => if l.isEmpty then [] else l.take per :: chunksOf per fuel (l.drop per)

theorem chunksOf_flatten (per : Nat) (hp : 0 < per) : ∀ (fuel : Nat) (l : List (List Nat)), l.length ≤ fuel → (chunksOf per fuel l).flatten = l := by
  intro fuel
  induction fuel with
  | zero => intro l hl; simp at hl; subst hl; rfl
  | succ fuel ih =>
    intro l hl
    unfold chunksOf
    cases l with
    | nil => rfl
    | cons x l =>
      simp only [List.isEmpty_cons, Bool.false_eq_true, if_false, List.flatten_cons]
      rw [ih _ (by simp only [List.length_drop, List.length_cons] at hl ⊢; omega), List.take_append_drop]

/-- The cells of a file are put into the temporary file. -/
theorem preprocessCells_of (refSize per : Nat) (hp : 0 < per) {P : List Nat → Prop} (hrt : ∀ c, P c → ∀ r, readCell H refSize (c ++ r) = some (c, r)) :
    ∀ (fuel : Nat) (cs : List (List Nat)) (r : List Nat), cs.length ≤ fuel → (∀ c ∈ cs, P c) →
      preprocessCells H refSize per (fuel + 1) cs.length (cs.flatten ++ r) = some ((chunksOf per fuel cs).flatMap chunkBytes, r) := by
  intro fuel
  induction fuel with
  | zero =>
    intro cs r hl _
    simp only [Nat.le_zero, List.length_eq_zero_iff] at hl
    subst hl
    simp [preprocessCells, chunksOf, Rd.ite_run, Rd.pure_run]
  | succ fuel ih =>
    intro cs r hl hP
    unfold preprocessCells
    rw [Rd.ite_run]
    cases hc : cs with
    | nil => simp [chunksOf, Rd.pure_run]
    | cons x l =>
      rw [← hc, if_neg (by rw [hc]; simp)]
      have h1 : cs.flatten ++ r = ((cs.take per).flatMap id ++ ((cs.drop per).flatten ++ r)) := by
        rw [← List.append_assoc]
        congr 1
        rw [List.flatMap_id, ← List.flatten_append, List.take_append_drop]
      have h2 : min cs.length per = (cs.take per).length := by simp [Nat.min_comm]
      have hrt2 : RoundTrip (fun c : List Nat => id c) (readCell H refSize) P := fun c hPc r => hrt c hPc r
      rw [h1, h2, Rd.bind_of (rdMany_append hrt2 (cs.take per) (fun c hcc => hP c (List.mem_of_mem_take hcc)) _)]
      have h3 : cs.length - (cs.take per).length = (cs.drop per).length := by simp; omega
      have hlen : 0 < cs.length := by rw [hc]; simp
      rw [h3, Rd.bind_of (ih (cs.drop per) r (by simp only [List.length_drop]; omega) (fun c hcc => hP c (List.mem_of_mem_drop hcc))), Rd.pure_run]
      simp only [chunksOf, hc, List.isEmpty_cons, Bool.false_eq_true, if_false, List.flatMap_cons]

/-- The other way round: what the temporary file of an accepted file is. -/
theorem preprocessCells_some (refSize per : Nat) : ∀ (fuel n : Nat) (s t r : List Nat),
    preprocessCells H refSize per fuel n s = some (t, r) → ∃ chunks : List (List (List Nat)), t = chunks.flatMap chunkBytes ∧
      chunks.flatten.length = n ∧ (∀ cs ∈ chunks, cs ≠ [] ∧ cs.length ≤ per) ∧
      rdMany (readCell H refSize) n s = some (chunks.flatten, r) := by
  have hmany : ∀ (a b : Nat) (s r1 r2 : List Nat) (xs ys : List (List Nat)), rdMany (readCell H refSize) a s = some (xs, r1) →
      rdMany (readCell H refSize) b r1 = some (ys, r2) → rdMany (readCell H refSize) (a + b) s = some (xs ++ ys, r2) := by
    intro a
    induction a with
    | zero =>
      intro b s r1 r2 xs ys h1 h2
      cases h1
      simpa using h2
    | succ a ih =>
      intro b s r1 r2 xs ys h1 h2
      unfold rdMany at h1
      obtain ⟨x, t, h3, h4⟩ := Rd.bind_some.1 h1
      obtain ⟨xs', t', h5, h6⟩ := Rd.bind_some.1 h4
      cases h6
      rw [Nat.succ_add, rdMany, Rd.bind_of h3, Rd.bind_of (ih b t _ r2 xs' ys h5 h2), Rd.pure_run]
      rfl
  have hlen : ∀ (a : Nat) (s r1 : List Nat) (xs : List (List Nat)), rdMany (readCell H refSize) a s = some (xs, r1) → xs.length = a := by
    intro a
    induction a with
    | zero => intro s r1 xs h1; cases h1; rfl
    | succ a ih =>
      intro s r1 xs h1
      unfold rdMany at h1
      obtain ⟨x, t, h3, h4⟩ := Rd.bind_some.1 h1
      obtain ⟨xs', t', h5, h6⟩ := Rd.bind_some.1 h4
      cases h6
      simp [ih _ _ _ h5]
  intro fuel
  induction fuel with
  | zero => intro n s t r h; simp [preprocessCells, Rd.fail_run] at h
  | succ fuel ih =>
    intro n s t r h
    unfold preprocessCells at h
    rw [Rd.ite_run] at h
    split at h
    · next h0 =>
      subst h0
      rw [Rd.pure_run] at h
      cases h
      exact ⟨[], rfl, rfl, by simp, rfl⟩
    · next h0 =>
      obtain ⟨cs, r1, h1, h2⟩ := Rd.bind_some.1 h
      obtain ⟨rest, r2, h3, h4⟩ := Rd.bind_some.1 h2
      rw [Rd.pure_run] at h4
      cases h4
      obtain ⟨chunks, h5, h6, h7, h8⟩ := ih _ _ _ _ h3
      have hl1 := hlen _ _ _ _ h1
      have hperpos : cs ≠ [] ∨ per = 0 := by
        rcases Nat.eq_zero_or_pos per with h9 | h9
        · exact Or.inr h9
        · left; intro he; rw [he] at hl1; simp at hl1; omega
      by_cases hcs : cs = []
      · -- chunks of no cells: only when `per = 0`, and then the loop does not end
        exfalso
        rcases hperpos with h9 | h9
        · exact h9 hcs
        · subst h9
          have : ∀ (fuel n : Nat) (s : List Nat), 0 < n → preprocessCells H refSize 0 fuel n s = none := by
            intro fuel
            induction fuel with
            | zero => intro n s _; rfl
            | succ fuel ih2 =>
              intro n s hn
              unfold preprocessCells
              rw [Rd.ite_run, if_neg (by omega)]
              simp only [Nat.min_zero, Nat.sub_zero, rdMany]
              rw [Rd.bind_of (Rd.pure_run _ _), Rd.bind_run, ih2 n s hn]
          rw [this fuel _ _ (by simpa using Nat.pos_of_ne_zero h0)] at h3
          cases h3
      · refine ⟨cs :: chunks, by simp [h5], ?_, ?_, ?_⟩
        · simp only [List.flatten_cons, List.length_append, h6, hl1]; omega
        · intro c hc
          rcases List.mem_cons.1 hc with hc | hc
          · subst hc; exact ⟨hcs, by rw [hl1]; exact Nat.min_le_right _ _⟩
          · exact h7 c hc
        · have := hmany _ _ _ _ _ _ _ h1 h8
          rw [show min n per + (n - min n per) = n from by omega] at this
          simpa using this

end Tycho.StateFile
