import Verif.InputBuffer.Model
import Mathlib.Data.List.Induction
import Mathlib.Tactic.Tauto
/-!
What every call keeps.
-/
namespace Tycho.InputBuffer

/-- Every pushed message fits the buffer as it is configured at that moment: what the caller has to see to. -/
def Fits (ops : List Op) : Prop :=
  ∀ a m b, ops = a ++ .push m :: b → (run a).buf = 0 ∨ (run a).batch = 0 ∨ m.size ≤ (run a).buf

/-- `config` values are nonzero (`NonZero`). -/
def NonZeroConf (ops : List Op) : Prop := ∀ b c, Op.config b c ∈ ops → 0 < b ∧ 0 < c

/-- The sizes of the buffered messages add up to `data_bytes`, and the last batch is a front part of them. -/
structure Inv (s : St) : Prop where
  good : s.bad = false
  sum : s.bytes = total s.data
  off : s.offset ≤ s.data.length

theorem total_nil : total [] = 0 := rfl
theorem total_cons (m : Msg) (l : List Msg) : total (m :: l) = m.size + total l := by simp [total]
theorem total_append (a b : List Msg) : total (a ++ b) = total a + total b := by simp [total]
theorem total_split (l : List Msg) (n : Nat) : total (l.take n) + total (l.drop n) = total l := by
  rw [← total_append, List.take_append_drop]

theorem takeFit_prefix (batch taken : Nat) (l : List Msg) : takeFit batch taken l <+: l := by
  induction l generalizing taken with
  | nil => simp [takeFit]
  | cons m l ih =>
    unfold takeFit
    split
    · exact (List.cons_prefix_cons).2 ⟨rfl, ih _⟩
    · exact List.nil_prefix

theorem takeFit_fits (batch taken : Nat) (l : List Msg) (h : taken ≤ batch) : taken + total (takeFit batch taken l) ≤ batch := by
  induction l generalizing taken with
  | nil => simpa [takeFit, total_nil] using h
  | cons m l ih =>
    unfold takeFit
    split
    · rename_i h1
      have := ih _ h1
      rw [total_cons]; omega
    · simpa [total_nil] using h

theorem takeFit_all (batch taken : Nat) (p l : List Msg) (hp : p <+: l) (h : taken + total p ≤ batch) :
    p <+: takeFit batch taken l := by
  induction l generalizing taken p with
  | nil => simpa [takeFit] using hp
  | cons m l ih =>
    cases p with
    | nil => exact List.nil_prefix
    | cons q p =>
      obtain ⟨rfl, hp2⟩ := List.cons_prefix_cons.1 hp
      rw [total_cons] at h
      unfold takeFit
      rw [if_pos (by omega)]
      exact List.cons_prefix_cons.2 ⟨rfl, ih _ _ hp2 (by omega)⟩

theorem evict_spec (max bytes : Nat) (l : List Msg) (h : bytes = total l) :
    ∃ n, evict max bytes l = some (n, total (l.drop n)) ∧ n ≤ l.length ∧ total (l.drop n) ≤ max ∧
      ∀ k, k < n → total (l.drop k) > max := by
  induction l generalizing bytes with
  | nil => exact ⟨0, by simp [evict, h, total_nil]⟩
  | cons m l ih =>
    unfold evict
    split
    · rename_i hgt
      rw [total_cons] at h
      rw [if_pos (by omega)]
      obtain ⟨n, h1, h2, h3, h4⟩ := ih (bytes - m.size) (by omega)
      refine ⟨n + 1, by rw [h1]; simp, by simpa using h2, by simpa using h3, ?_⟩
      intro k hk
      cases k with
      | zero => rw [List.drop_zero, total_cons]; omega
      | succ k => simpa using h4 k (by omega)
    · exact ⟨0, by simp [h], by simp, by simp; omega, by intro k hk; omega⟩

theorem inv_init : Inv St.init := ⟨rfl, rfl, Nat.le_refl _⟩

/-- What `push` does to a sound buffer. -/
theorem push_spec (s : St) (h : Inv s) (m : Msg) (hc : ¬ (s.buf = 0 ∨ s.batch = 0)) (hf : m.size ≤ s.buf) :
    ∃ n, n ≤ s.data.length ∧ s.push m = { s with data := s.data.drop n ++ [m], bytes := total (s.data.drop n) + m.size, offset := s.offset - n } ∧
      total (s.data.drop n) + m.size ≤ s.buf ∧ ∀ k, k < n → total (s.data.drop k) + m.size > s.buf := by
  unfold St.push
  rw [if_neg hc]
  unfold St.add
  rw [if_pos hf]
  split
  · rename_i hgt
    obtain ⟨n, h1, h2, h3, h4⟩ := evict_spec (s.buf - m.size) s.bytes s.data h.sum
    rw [h1]
    exact ⟨n, h2, rfl, by omega, fun k hk => by have := h4 k hk; omega⟩
  · rename_i hgt
    have := h.sum
    exact ⟨0, by omega, by simp [this], by simp; omega, by intro k hk; omega⟩

theorem commit_spec (s : St) (h : Inv s) :
    s.commitOffset = { s with data := s.data.drop s.offset, bytes := total (s.data.drop s.offset), offset := 0 } := by
  have h1 := h.sum
  have h2 := total_split s.data s.offset
  unfold St.commitOffset
  rw [if_pos h.off, if_pos (by omega)]
  congr 1
  omega

theorem fetch_spec (s : St) (h : Inv s) (f : Bool) :
    s.fetch f = ({ s with
      data := if f then s.data.drop s.offset else s.data,
      bytes := if f then total (s.data.drop s.offset) else s.bytes,
      offset := (takeFit s.batch 0 (if f then s.data.drop s.offset else s.data)).length },
      takeFit s.batch 0 (if f then s.data.drop s.offset else s.data)) := by
  cases f
  · simp [St.fetch, St.fetchAll]
  · simp [St.fetch, commit_spec s h, St.fetchAll]

theorem inv_step (s : St) (h : Inv s) (o : Op) (ho : ∀ m, o = .push m → s.buf = 0 ∨ s.batch = 0 ∨ m.size ≤ s.buf) :
    Inv (step s o) := by
  cases o with
  | push m =>
    by_cases hc : s.buf = 0 ∨ s.batch = 0
    · simpa [step, St.push, hc] using h
    · have hf : m.size ≤ s.buf := by rcases ho m rfl with h1 | h1 | h1 <;> tauto
      obtain ⟨n, hn, e, _, _⟩ := push_spec s h m hc hf
      show Inv (s.push m)
      rw [e]
      refine ⟨h.good, by simp [total_append, total_cons, total_nil], ?_⟩
      have := h.off
      simp; omega
  | fetch f =>
    show Inv (s.fetch f).1
    rw [fetch_spec s h f]
    refine ⟨h.good, ?_, (takeFit_prefix _ _ _).length_le⟩
    cases f
    · simpa using h.sum
    · simp
  | config b c => exact ⟨h.good, h.sum, h.off⟩

theorem run_snoc (ops : List Op) (o : Op) : run (ops ++ [o]) = step (run ops) o := by simp [run]

theorem fits_init {ops : List Op} {o : Op} (h : Fits (ops ++ [o])) : Fits ops := by
  intro a m b e
  exact h a m (b ++ [o]) (by rw [e]; simp)

theorem inv_run (ops : List Op) (h : Fits ops) : Inv (run ops) := by
  induction ops using List.reverseRecOn with
  | nil => exact inv_init
  | append_singleton ops o ih =>
    rw [run_snoc]
    exact inv_step _ (ih (fits_init h)) o (fun m e => h ops m [] (by rw [e]))

end Tycho.InputBuffer
