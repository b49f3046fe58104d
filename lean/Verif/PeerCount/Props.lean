import Verif.PeerCount.Model
import Mathlib.Data.Finset.Card

/-!
C04. `V` is any validator set, `tryFrom V.card = .ok p` says the consensus accepted its size.
"Honest" is the complement of any set `B` of at most F peers.
-/
namespace Tycho.PeerCount

theorem tryFrom_ok {n : Nat} {p : PeerCount} (h : tryFrom n = .ok p) :
    3 ≤ n ∧ p.oneF = (n + 1) / 3 ∧ p.oneF * 3 + 1 ≤ 255 := by
  unfold tryFrom at h
  split at h
  · cases h
  · dsimp only at h
    split at h
    · cases h
      dsimp only
      omega
    · cases h

/-- Exactly the sizes 3..=253 are accepted, fewer are an error and more a panic; F is at most 84. -/
theorem accepted_sizes (n : Nat) :
    ((∃ p, tryFrom n = .ok p) ↔ 3 ≤ n ∧ n ≤ 253) ∧
    (tryFrom n = .tooFew ↔ n < 3) ∧
    (tryFrom n = .panicOverflow ↔ 253 < n) := by
  unfold tryFrom
  dsimp only
  split
  · refine ⟨⟨?_, ?_⟩, ⟨?_, ?_⟩, ⟨?_, ?_⟩⟩ <;> intro h <;>
      first | omega | rfl | (obtain ⟨_, h⟩ := h; cases h) | cases h
  · split
    · refine ⟨⟨?_, ?_⟩, ⟨?_, ?_⟩, ⟨?_, ?_⟩⟩ <;> intro h <;>
        first | omega | rfl | exact ⟨_, rfl⟩ | cases h
    · refine ⟨⟨?_, ?_⟩, ⟨?_, ?_⟩, ⟨?_, ?_⟩⟩ <;> intro h <;>
        first | omega | rfl | (obtain ⟨_, h⟩ := h; cases h) | cases h

/-- The validator set has between 3F-1 and 3F+1 members, a majority always fits in it, and together
with the excluded peer itself `majority_of_others` others make a majority. -/
theorem sizes_fit {n : Nat} {p : PeerCount} (h : tryFrom n = .ok p) :
    3 * p.oneF - 1 ≤ n ∧ n ≤ p.full ∧ p.full ≤ 255 ∧ p.majority ≤ n ∧ p.reliableMinority ≤ n ∧
    p.majorityOfOthers + 1 = p.majority ∧ n < 2 * p.majority ∧ p.oneF < p.reliableMinority ∧
    p.oneF ≤ maxCount.oneF := by
  have := tryFrom_ok h
  simp only [PeerCount.full, PeerCount.majority, PeerCount.reliableMinority,
    PeerCount.majorityOfOthers]
  have hmax : maxCount.oneF = 84 := rfl
  by_cases h1 : p.oneF ≤ 1 <;> refine ⟨?_, ?_, ?_, ?_, ?_, ?_, ?_, ?_, ?_⟩ <;> first | trivial | omega

variable {Peer : Type} [DecidableEq Peer]

/-- Any two majorities share at least F+1 peers. -/
theorem majorities_overlap (V Q₁ Q₂ : Finset Peer) (p : PeerCount) (hp : tryFrom V.card = .ok p)
    (h1 : Q₁ ⊆ V) (h2 : Q₂ ⊆ V) (c1 : p.majority ≤ Q₁.card) (c2 : p.majority ≤ Q₂.card) :
    p.reliableMinority ≤ (Q₁ ∩ Q₂).card := by
  have hu : (Q₁ ∪ Q₂).card ≤ V.card := Finset.card_le_card (Finset.union_subset h1 h2)
  have hc := Finset.card_union_add_card_inter Q₁ Q₂
  have hs := sizes_fit hp
  simp only [PeerCount.full, PeerCount.majority, PeerCount.reliableMinority] at *
  omega

/-- ... hence an honest one, whatever at most F peers are faulty. -/
theorem majorities_share_honest (V Q₁ Q₂ B : Finset Peer) (p : PeerCount)
    (hp : tryFrom V.card = .ok p)
    (h1 : Q₁ ⊆ V) (h2 : Q₂ ⊆ V) (c1 : p.majority ≤ Q₁.card) (c2 : p.majority ≤ Q₂.card)
    (hB : B.card ≤ p.oneF) : ∃ x, x ∈ Q₁ ∧ x ∈ Q₂ ∧ x ∉ B := by
  have ho := majorities_overlap V Q₁ Q₂ p hp h1 h2 c1 c2
  have : ¬ (Q₁ ∩ Q₂) ⊆ B := by
    intro hsub
    have := Finset.card_le_card hsub
    simp only [PeerCount.reliableMinority] at ho
    omega
  obtain ⟨x, hx, hxB⟩ := Finset.not_subset.1 this
  exact ⟨x, (Finset.mem_inter.1 hx).1, (Finset.mem_inter.1 hx).2, hxB⟩

/-- A majority and a reliable minority always intersect. -/
theorem majority_meets_minority (V Q M : Finset Peer) (p : PeerCount)
    (hp : tryFrom V.card = .ok p) (h1 : Q ⊆ V) (h2 : M ⊆ V)
    (c1 : p.majority ≤ Q.card) (c2 : p.reliableMinority ≤ M.card) : ∃ x, x ∈ Q ∧ x ∈ M := by
  have hu : (Q ∪ M).card ≤ V.card := Finset.card_le_card (Finset.union_subset h1 h2)
  have hc := Finset.card_union_add_card_inter Q M
  have hs := sizes_fit hp
  have : 0 < (Q ∩ M).card := by
    simp only [PeerCount.full, PeerCount.majority, PeerCount.reliableMinority] at *
    omega
  obtain ⟨x, hx⟩ := Finset.card_pos.1 this
  exact ⟨x, (Finset.mem_inter.1 hx).1, (Finset.mem_inter.1 hx).2⟩

/-- A reliable minority contains an honest peer, and a majority contains a reliable minority of
honest peers. -/
theorem minority_has_honest (M B : Finset Peer) (p : PeerCount)
    (c : p.reliableMinority ≤ M.card) (hB : B.card ≤ p.oneF) : ∃ x ∈ M, x ∉ B := by
  have : ¬ M ⊆ B := by
    intro hsub
    have := Finset.card_le_card hsub
    simp only [PeerCount.reliableMinority] at c
    omega
  obtain ⟨x, hx, hxB⟩ := Finset.not_subset.1 this
  exact ⟨x, hx, hxB⟩

theorem majority_has_honest_minority (Q B : Finset Peer) (p : PeerCount)
    (c : p.majority ≤ Q.card) (hB : B.card ≤ p.oneF) : p.reliableMinority ≤ (Q \ B).card := by
  have := Finset.le_card_sdiff B Q
  simp only [PeerCount.reliableMinority, PeerCount.majority] at *
  omega

/-- Signatures of `majority_of_others` peers other than the author, together with the author, are a
majority. -/
theorem others_with_author_are_majority (S : Finset Peer) (author : Peer) (p : PeerCount)
    (hA : author ∉ S) (c : p.majorityOfOthers ≤ S.card) : p.majority ≤ (insert author S).card := by
  rw [Finset.card_insert_of_notMem hA]
  simp only [PeerCount.majorityOfOthers, PeerCount.majority] at *
  omega

/-- Liveness bound: with silent peers removed a majority is still available exactly when at most
`n - (2F+1)` peers are silent; this is F only for sets of exactly 3F+1 peers (it is 0 for 3 or 5). -/
theorem majority_available_iff (n silent : Nat) (p : PeerCount) (hp : tryFrom n = .ok p) :
    p.majority ≤ n - silent ↔ silent ≤ n - p.majority := by
  have hs := sizes_fit hp
  simp only [PeerCount.majority] at *
  omega

/-! Concrete cases. -/
example : tryFrom 4 = .ok ⟨1⟩ ∧ tryFrom 5 = .ok ⟨2⟩ ∧ tryFrom 253 = .ok ⟨84⟩ := by decide
example : tryFrom (Finset.range 7).card = .ok ⟨2⟩ := by simp [tryFrom]
/-- Two majorities of 5 among 7 peers, with 2 faulty. -/
example : ∃ x, x ∈ ({0, 1, 2, 3, 4} : Finset Nat) ∧ x ∈ ({2, 3, 4, 5, 6} : Finset Nat) ∧
    x ∉ ({2, 3} : Finset Nat) :=
  majorities_share_honest (Finset.range 7) _ _ _ ⟨2⟩ (by simp [tryFrom])
    (by decide) (by decide) (by decide) (by decide) (by decide)

end Tycho.PeerCount
