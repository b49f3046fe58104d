import Verif.BlocksGc.TailModel
import Mathlib.Data.List.Basic
import Mathlib.Tactic.ByContra

namespace Tycho.BlocksGc
open Tycho.Table

theorem acc_fold (l : List (Nat × Nat)) (c : Cache) :
    (l.foldl (fun c s => c.shard s.2) c).acc = l.foldl (fun m s => max m (1 + s.2)) c.acc ∧
    (l.foldl (fun c s => c.shard s.2) c).fin = c.fin := by
  induction l generalizing c with
  | nil => exact ⟨rfl, rfl⟩
  | cons x l ih => obtain ⟨a, b⟩ := ih (c.shard x.2); exact ⟨a, b⟩

theorem foldl_max (l : List (Nat × Nat)) (m : Nat) :
    m ≤ l.foldl (fun m s => max m (1 + s.2)) m ∧ (∀ s ∈ l, 1 + s.2 ≤ l.foldl (fun m s => max m (1 + s.2)) m) ∧
    (l.foldl (fun m s => max m (1 + s.2)) m = m ∨ ∃ s ∈ l, l.foldl (fun m s => max m (1 + s.2)) m = 1 + s.2) := by
  induction l generalizing m with
  | nil => simp
  | cons x l ih =>
    obtain ⟨h1, h2, h3⟩ := ih (max m (1 + x.2))
    simp only [List.foldl_cons, List.mem_cons, forall_eq_or_imp, exists_eq_or_imp]
    refine ⟨by omega, ⟨by omega, h2⟩, ?_⟩
    rcases h3 with h3 | ⟨s, hs, h3⟩
    · rw [h3]; omega
    · exact .inr (.inr ⟨s, hs, h3⟩)

/-- The length the collection waits for is the longest tail among the masterchain block and its own shard blocks; without
shard blocks, the previous shard part is used (1 if it is not known). -/
theorem tail_len_is_max (c : Cache) (hc : c.acc = 0) (b : McBlock) :
    (c.handle b).acc = 0 ∧
    (∃ v, (c.handle b).tailLen b.seqno = some v ∧ b.tail ≤ v ∧ (∀ s ∈ b.shards, s.2 ≤ v) ∧
      (b.shards ≠ [] → v = b.tail ∨ ∃ s ∈ b.shards, v = s.2) ∧
      (b.shards = [] → v = max b.tail (((get c.fin (b.seqno - 1)).map (·.2)).getD 1))) ∧
    (∀ m, m ≠ b.seqno → (c.handle b).tailLen m = c.tailLen m) := by
  obtain ⟨h1, h2⟩ := acc_fold b.shards c
  obtain ⟨f1, f2, f3⟩ := foldl_max b.shards c.acc
  rw [← h1] at f1 f2 f3
  rw [hc] at f3
  refine ⟨rfl, ?_, ?_⟩
  · unfold Cache.handle Cache.master Cache.tailLen
    simp only [get_put, if_true, Option.map_some, Option.some.injEq, exists_eq_left']
    generalize (List.foldl (fun c s => c.shard s.2) c b.shards).acc = A at *
    rw [h2]
    refine ⟨Nat.le_max_left _ _, ?_, ?_, ?_⟩
    · intro s hs
      have := f2 s hs
      rw [if_pos (by omega)]
      omega
    · intro hne
      have hpos : 0 < A := by
        cases hs : b.shards with
        | nil => exact absurd hs hne
        | cons x l => have := f2 x (by rw [hs]; simp); omega
      rw [if_pos hpos]
      rcases f3 with f3 | ⟨s, hs, f3⟩
      · omega
      · rcases Nat.le_total b.tail (A - 1) with h | h
        · exact .inr ⟨s, hs, by omega⟩
        · exact .inl (by omega)
    · intro hne
      have : A = 0 := by rw [hne] at f3; simpa using f3
      rw [if_neg (by omega)]
      cases get c.fin (b.seqno - 1) <;> rfl
  · intro m hm
    unfold Cache.handle Cache.master Cache.tailLen
    simp only [get_put, if_neg hm, h2]

/-- The target is at least 100 blocks, the configured distance, and the longest tail plus one behind. -/
theorem gcTarget_distance (last safe tail t : Nat) (h : gcTarget last safe tail = some t) :
    0 < t ∧ t + 100 ≤ last ∧ t + safe ≤ last ∧ t + tail + 1 ≤ last := by
  unfold gcTarget at h
  dsimp only at h
  split at h
  · cases h
  · cases h; omega

/-- Chain of one shard: `h m` is its height at masterchain block `m`. -/
def Kept (h : Nat → Nat) (t : Nat) (n : Nat) : Prop := h t ≤ n

/-- Blocks whose queue diffs belong to the queue at masterchain block `last`: the last `tail` blocks of the shard. -/
def InTail (h : Nat → Nat) (last tail n : Nat) : Prop := n ≤ h last ∧ h last < n + tail

theorem height_grows (h : Nat → Nat) (t last : Nat) (hl : t ≤ last) (hg : ∀ m, t ≤ m → m < last → h m < h (m + 1)) :
    h t + (last - t) ≤ h last := by
  obtain ⟨d, rfl⟩ : ∃ d, last = t + d := ⟨last - t, by omega⟩
  induction d with
  | zero => simp
  | succ d ih =>
    have := ih (by omega) (fun m h1 h2 => hg m h1 (by omega))
    have := hg (t + d) (by omega) (by omega)
    rw [show t + d + 1 = t + (d + 1) by omega] at this
    omega

/-- The collection keeps every block whose diff belongs to the queue of a shard at the last masterchain block, if the shard
has new blocks in each of the masterchain blocks since the target. For the masterchain itself this is always so. -/
theorem tail_is_kept (c : Cache) (hc : c.acc = 0) (b : McBlock) (safe t v : Nat) (hv : (c.handle b).tailLen b.seqno = some v)
    (ht : gcTarget b.seqno safe v = some t) (h : Nat → Nat) (tail : Nat)
    (hg : ∀ m, t ≤ m → m < b.seqno → h m < h (m + 1))
    (hb : (∃ sh, (sh, tail) ∈ b.shards) ∨ tail = b.tail) (n : Nat) (hn : InTail h b.seqno tail n) : Kept h t n := by
  obtain ⟨_, ⟨v', hv', h1, h2, _, _⟩, _⟩ := tail_len_is_max c hc b
  rw [hv] at hv'
  cases hv'
  obtain ⟨_, _, _, h3⟩ := gcTarget_distance _ _ _ _ ht
  have hle : tail ≤ v := by
    rcases hb with ⟨sh, hs⟩ | rfl
    · exact h2 _ hs
    · exact h1
  have := height_grows h t b.seqno (by omega) hg
  unfold InTail at hn
  unfold Kept
  omega

/-- Exactly when the tail of a shard survives. -/
theorem tail_kept_iff (h : Nat → Nat) (t last tail : Nat) (hm : h t ≤ h last) (h0 : 0 < tail) (hh : tail ≤ h last + 1) :
    (∀ n, InTail h last tail n → Kept h t n) ↔ h t + tail ≤ h last + 1 := by
  unfold InTail Kept
  constructor
  · intro hk
    have := hk (h last + 1 - tail) ⟨by omega, by omega⟩
    omega
  · rintro hx n ⟨h1, h2⟩
    omega

end Tycho.BlocksGc
