import Verif.Slasher.Model
import Mathlib.Data.List.Perm.Subperm
/-!
C157: what the contract lets in, and that the analysis can read it.
-/
namespace Tycho.Slasher

/-- A batch is well made for `count` validators. -/
structure WellMade (count size : Nat) (b : Batch) : Prop where
  len : b.committed.length = size
  some : b.hist ≠ []
  ids : (b.hist.map (·.1)).Nodup
  low : ∀ h ∈ b.hist, h.1 < count
  bits : ∀ h ∈ b.hist, h.2.length = size * 2

theorem validBatch_iff (m size mc count : Nat) (b : Batch) : validBatch m size mc count b = true ↔
    ((b.hist.map (·.1)).Pairwise (· < ·) ∧ m ≤ b.start ∧ b.start + size ≤ mc ∧ mc ≤ b.start + size * 2 ∧ b.committed.length = size ∧ b.hist ≠ [] ∧
      ∀ h ∈ b.hist, h.1 < count ∧ h.2.length = size * 2) := by
  unfold validBatch
  simp only [Bool.and_eq_true, decide_eq_true_eq, Bool.not_eq_true', Bool.or_eq_false_iff, decide_eq_false_iff_not, List.all_eq_true, List.isEmpty_eq_false_iff]
  constructor
  · rintro ⟨⟨⟨⟨h1, ⟨h2, h3⟩, h4⟩, h5⟩, h6⟩, h7⟩
    exact ⟨h1, by omega, by omega, by omega, h5, h6, fun h hh => ⟨by have := (h7 h hh).1; omega, (h7 h hh).2⟩⟩
  · rintro ⟨h1, h2, h3, h4, h5, h6, h7⟩
    exact ⟨⟨⟨⟨h1, ⟨by omega, by omega⟩, by omega⟩, h5⟩, h6⟩, fun h hh => ⟨by have := (h7 h hh).1; omega, (h7 h hh).2⟩⟩

theorem nodup_of_increasing : ∀ l : List Nat, l.Pairwise (· < ·) → l.Nodup := fun _ h => h.imp (fun h => by omega)

/-- Everything about the contract. -/
structure CInv (c : Contract) : Prop where
  val : ∀ e ∈ c.stored, e.1 < c.count
  made : ∀ e ∈ c.stored, WellMade c.count e.2.committed.length e.2
  pos : ∀ e ∈ c.stored, 0 < e.2.committed.length
  below : ∀ e ∈ c.stored, e.2.start + e.2.committed.length ≤ c.minSeqno e.1
  apart : c.stored.Pairwise (fun a b => a.1 = b.1 → a.2.start + a.2.committed.length ≤ b.2.start)

/-- When is a submission accepted? From a validator of the set, with unique known validators and two bits for each block and validator, with
blocks after those of its earlier batches, all of them made, and the last of them not older than a batch size. -/
def Acceptable (c : Contract) (size mc v : Nat) (b : Batch) : Prop :=
  v < c.count ∧ (b.hist.map (·.1)).Pairwise (· < ·) ∧ c.minSeqno v ≤ b.start ∧ b.start + size ≤ mc ∧ mc ≤ b.start + size * 2 ∧
    b.committed.length = size ∧ b.hist ≠ [] ∧ ∀ h ∈ b.hist, h.1 < c.count ∧ h.2.length = size * 2

/-- A submission is refused, or it is one more stored batch and no other is touched. -/
theorem submit_cases {c : Contract} (w : CInv c) (size mc v : Nat) (b : Batch) :
    (c.submit size mc v b = c ∧ ¬ Acceptable c size mc v b) ∨
    (Acceptable c size mc v b ∧ (c.submit size mc v b).stored = c.stored ++ [(v, b)] ∧
      (c.submit size mc v b).count = c.count ∧ (c.submit size mc v b).minSeqno = fun x => if x = v then b.start + size else c.minSeqno x) := by
  unfold Contract.submit
  by_cases h : v < c.count ∧ validBatch (c.minSeqno v) size mc c.count b = true
  · right
    rw [if_pos h]
    have h1 := (validBatch_iff _ _ _ _ _).1 h.2
    refine ⟨⟨h.1, h1⟩, ?_, rfl, rfl⟩
    simp only [putBatch]
    rw [List.filter_eq_self.2]
    intro e he
    simp only [Bool.not_eq_true', decide_eq_false_iff_not]
    rintro ⟨rfl, hs⟩
    have h2 := w.below e he
    have h3 := w.pos e he
    omega
  · left
    rw [if_neg h]
    refine ⟨rfl, fun a => h ⟨a.1, (validBatch_iff _ _ _ _ _).2 a.2⟩⟩

theorem cinv_submit {c : Contract} (w : CInv c) (size mc v : Nat) (b : Batch) (h0 : 0 < size) : CInv (c.submit size mc v b) := by
  rcases submit_cases w size mc v b with ⟨h, _⟩ | ⟨⟨hv, a1, a2, a3, a4, a5, a6, a7⟩, h2, h3, h4⟩
  · rw [h]; exact w
  · generalize c.submit size mc v b = c' at *
    refine ⟨?_, ?_, ?_, ?_, ?_⟩
    · intro e he
      rw [h2, List.mem_append, List.mem_singleton] at he
      rw [h3]
      rcases he with he | rfl
      · exact w.val e he
      · exact hv
    · intro e he
      rw [h2, List.mem_append, List.mem_singleton] at he
      rw [h3]
      rcases he with he | rfl
      · exact w.made e he
      · exact ⟨rfl, a6, nodup_of_increasing _ a1, fun h hh => (a7 h hh).1, fun h hh => by rw [a5]; exact (a7 h hh).2⟩
    · intro e he
      rw [h2, List.mem_append, List.mem_singleton] at he
      rcases he with he | rfl
      · exact w.pos e he
      · simp only [a5]; exact h0
    · intro e he
      rw [h2, List.mem_append, List.mem_singleton] at he
      rw [h4]
      rcases he with he | rfl
      · have := w.below e he
        simp only
        split
        · rename_i hx; rw [hx] at this; omega
        · exact this
      · simp [a5]
    · rw [h2]
      refine List.pairwise_append.2 ⟨w.apart, by simp, ?_⟩
      intro a ha x hx
      rw [List.mem_singleton] at hx; subst hx
      intro hav
      simp only at hav
      have := w.below a ha
      rw [hav] at this
      simp only; omega

theorem cinv_accepted (count : Nat) (msgs : List (Nat × Nat × Nat × Batch)) (h : ∀ m ∈ msgs, 0 < m.1) : CInv (accepted count msgs) := by
  have : ∀ (msgs : List (Nat × Nat × Nat × Batch)) (c : Contract), (∀ m ∈ msgs, 0 < m.1) → CInv c →
      CInv (msgs.foldl (fun c m => c.submit m.1 m.2.1 m.2.2.1 m.2.2.2) c) := by
    intro msgs
    induction msgs with
    | nil => intro c _ w; exact w
    | cons m msgs ih =>
      intro c h w
      exact ih _ (fun x hx => h x (by simp [hx])) (cinv_submit w _ _ _ _ (h m (by simp)))
  exact this msgs _ h ⟨by simp [Contract.new], by simp [Contract.new], by simp [Contract.new], by simp [Contract.new], by simp [Contract.new]⟩

theorem accepted_count (count : Nat) (msgs : List (Nat × Nat × Nat × Batch)) : (accepted count msgs).count = count := by
  have : ∀ (msgs : List (Nat × Nat × Nat × Batch)) (c : Contract),
      (msgs.foldl (fun c m => c.submit m.1 m.2.1 m.2.2.1 m.2.2.2) c).count = c.count := by
    intro msgs
    induction msgs with
    | nil => intro c; rfl
    | cons m msgs ih =>
      intro c
      rw [List.foldl_cons, ih]
      unfold Contract.submit
      split <;> rfl
  exact this msgs _

/-- C157: what is stored after any messages are batches of validators of the set, each well made; and those of one validator tell of
different blocks, later batches of later ones. -/
theorem accepted_well_made (count : Nat) (msgs : List (Nat × Nat × Nat × Batch)) (h : ∀ m ∈ msgs, 0 < m.1) :
    (∀ e ∈ (accepted count msgs).stored, e.1 < count ∧ WellMade count e.2.committed.length e.2) ∧
    (accepted count msgs).stored.Pairwise (fun a b => a.1 = b.1 → a.2.start + a.2.committed.length ≤ b.2.start) := by
  have w := cinv_accepted count msgs h
  have hc := accepted_count count msgs
  refine ⟨fun e he => ⟨?_, ?_⟩, w.apart⟩
  · have := w.val e he; rwa [hc] at this
  · have := w.made e he; rwa [hc] at this

/-- C157: one more message adds its batch if it is acceptable then, and else changes nothing: stored batches stay. -/
theorem accepted_next (count : Nat) (msgs : List (Nat × Nat × Nat × Batch)) (h : ∀ m ∈ msgs, 0 < m.1) (size mc v : Nat) (b : Batch) :
    (Acceptable (accepted count msgs) size mc v b ∧
      (accepted count (msgs ++ [(size, mc, v, b)])).stored = (accepted count msgs).stored ++ [(v, b)]) ∨
    (¬ Acceptable (accepted count msgs) size mc v b ∧
      (accepted count (msgs ++ [(size, mc, v, b)])).stored = (accepted count msgs).stored) := by
  have w := cinv_accepted count msgs h
  have e : accepted count (msgs ++ [(size, mc, v, b)]) = (accepted count msgs).submit size mc v b := by simp [accepted]
  rw [e]
  rcases submit_cases w size mc v b with ⟨h1, h2⟩ | ⟨h1, h2, _⟩
  · exact Or.inr ⟨h2, by rw [h1]⟩
  · exact Or.inl ⟨h1, h2⟩

theorem stored_is_sent (count : Nat) (msgs : List (Nat × Nat × Nat × Batch)) :
    ∀ e ∈ (accepted count msgs).stored, ∃ m ∈ msgs, m.2.2 = e ∧ m.1 = e.2.committed.length ∧ e.2.start + m.1 ≤ m.2.1 := by
  have : ∀ (msgs : List (Nat × Nat × Nat × Batch)) (c : Contract), ∀ e ∈ (msgs.foldl (fun c m => c.submit m.1 m.2.1 m.2.2.1 m.2.2.2) c).stored,
      e ∈ c.stored ∨ ∃ m ∈ msgs, m.2.2 = e ∧ m.1 = e.2.committed.length ∧ e.2.start + m.1 ≤ m.2.1 := by
    intro msgs
    induction msgs with
    | nil => intro c e he; exact Or.inl he
    | cons m msgs ih =>
      intro c e he
      rcases ih _ e he with h | ⟨x, hx, h⟩
      · simp only [Contract.submit] at h
        split at h
        · rename_i hv
          have h1 := (validBatch_iff _ _ _ _ _).1 hv.2
          simp only [putBatch] at h
          rcases List.mem_append.1 h with h | h
          · exact Or.inl (List.mem_of_mem_filter h)
          · rw [List.mem_singleton] at h
            subst h
            exact Or.inr ⟨m, by simp, rfl, h1.2.2.2.2.1.symm, h1.2.2.1⟩
        · exact Or.inl h
      · exact Or.inr ⟨x, by simp [hx], h⟩
  intro e he
  rcases this msgs _ e he with h | h
  · simp [Contract.new] at h
  · exact h

/-- C157: with batch sizes of one byte, block numbers of 32 bits and at most 1000 validators, whatever is sent, all that is stored can be
read again. -/
theorem accepted_readable (count : Nat) (msgs : List (Nat × Nat × Nat × Batch)) (hc : count ≤ 1000)
    (h : ∀ m ∈ msgs, 0 < m.1 ∧ m.1 ≤ 255 ∧ m.2.1 < 2 ^ 32) : ∀ e ∈ (accepted count msgs).stored, readable e.2 = true := by
  intro e he
  obtain ⟨_, wm⟩ := (accepted_well_made count msgs (fun m hm => (h m hm).1)).1 e he
  obtain ⟨m, hm, h1, h2, h3⟩ := stored_is_sent count msgs e he
  obtain ⟨b1, b2, b3⟩ := h m hm
  unfold readable
  simp only [Bool.and_eq_true, decide_eq_true_eq, List.all_eq_true]
  have hlen : e.2.hist.length ≤ count := by
    have hsub : (e.2.hist.map (·.1)).length ≤ (List.range count).length := by
      refine List.Subperm.length_le (List.subperm_of_subset wm.ids ?_)
      intro x hx
      obtain ⟨y, hy, rfl⟩ := List.mem_map.1 hx
      exact List.mem_range.2 (wm.low y hy)
    simpa using hsub
  refine ⟨⟨⟨⟨by omega, by omega⟩, by omega⟩, wm.ids⟩, ?_⟩
  intro x hx
  exact ⟨by have := wm.low x hx; omega, wm.bits x hx⟩

end Tycho.Slasher
