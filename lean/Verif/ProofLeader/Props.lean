import Verif.ProofLeader.Model

/-! C08. A round is a proof round when its remainder is 1, a trigger round when it is 2. -/
namespace Tycho.ProofLeader

/-- Roles repeat with period one wave: leaderless, proof, trigger. -/
theorem wave_roles (w : Nat) :
    role (3 * w) = none ∧ role (3 * w + 1) = some .proof ∧ role (3 * w + 2) = some .trigger := by
  unfold role waveRounds
  have h0 : 3 * w % 3 = 0 := by omega
  have h1 : (3 * w + 1) % 3 = 1 := by omega
  have h2 : (3 * w + 2) % 3 = 2 := by omega
  rw [h0, h1, h2]
  exact ⟨rfl, rfl, rfl⟩

theorem role_proof_iff (r : Nat) : role r = some .proof ↔ ∃ w, r = 3 * w + 1 := by
  have hr := wave_roles (r / 3)
  constructor
  · intro h
    refine ⟨r / 3, ?_⟩
    rcases (by omega : r = 3 * (r / 3) ∨ r = 3 * (r / 3) + 1 ∨ r = 3 * (r / 3) + 2) with e | e | e
    · rw [e, hr.1] at h; cases h
    · exact e
    · rw [e, hr.2.2] at h; cases h
  · rintro ⟨w, rfl⟩; exact (wave_roles w).2.1

/-- Each proof round is followed by the trigger round of the same wave, and every wave has exactly
one proof and one trigger round. -/
theorem proof_then_trigger (r : Nat) : role r = some .proof ↔ role (r + 1) = some .trigger := by
  rw [role_proof_iff]
  constructor
  · rintro ⟨w, rfl⟩; exact (wave_roles w).2.2
  · intro h
    have hr := wave_roles ((r + 1) / 3)
    rcases (by omega : r + 1 = 3 * ((r + 1) / 3) ∨ r + 1 = 3 * ((r + 1) / 3) + 1 ∨
        r + 1 = 3 * ((r + 1) / 3) + 2) with e | e | e
    · rw [e, hr.1] at h; cases h
    · rw [e, hr.2.1] at h; cases h
    · exact ⟨(r + 1) / 3, by omega⟩

theorem alignGenesis_eq (start g : Nat) :
    alignGenesis start = some g ↔
      start + 1 < 2 ^ 32 ∧ g < 2 ^ 32 ∧ g = max 1 ((start + 1) / 3) * 3 + 1 := by
  have hm : (if (start + 1) / 3 = 0 then 1 else (start + 1) / 3) = max 1 ((start + 1) / 3) := by
    split <;> omega
  unfold alignGenesis waveRounds
  simp only [hm]
  constructor
  · intro h
    by_cases h1 : start + 1 < 2 ^ 32
    · rw [if_pos h1] at h
      by_cases h2 : max 1 ((start + 1) / 3) * 3 + 1 < 2 ^ 32
      · rw [if_pos h2] at h
        have := Option.some.inj h
        omega
      · rw [if_neg h2] at h; cases h
    · rw [if_neg h1] at h; cases h
  · rintro ⟨h1, h2, h3⟩
    rw [if_pos h1, if_pos (by omega), h3]

/-- The aligned genesis is the least proof round that is at least `start` and not in the first wave. -/
theorem alignGenesis_least (start g : Nat) (h : alignGenesis start = some g) :
    role g = some .proof ∧ start ≤ g ∧ 3 ≤ g ∧
    ∀ r, role r = some .proof → start ≤ r → 3 ≤ r → g ≤ r := by
  obtain ⟨h1, h2, hg⟩ := (alignGenesis_eq start g).1 h
  refine ⟨(role_proof_iff g).2 ⟨g / 3, by omega⟩, by omega, by omega, ?_⟩
  intro r hr hs h3
  obtain ⟨w, rfl⟩ := (role_proof_iff r).1 hr
  omega

/-- It exceeds the start round by less than one wave, except for start rounds 0 and 1. -/
theorem alignGenesis_close (start g : Nat) (h : alignGenesis start = some g) (hs : 2 ≤ start) :
    g < start + 3 := by
  obtain ⟨h1, h2, hg⟩ := (alignGenesis_eq start g).1 h
  omega

/-- It is defined exactly for start rounds below 2^32 - 2. -/
theorem alignGenesis_defined (start : Nat) : (alignGenesis start).isSome ↔ start < 2 ^ 32 - 2 := by
  rw [Option.isSome_iff_exists]
  constructor
  · rintro ⟨g, h⟩
    obtain ⟨h1, h2, hg⟩ := (alignGenesis_eq start g).1 h
    omega
  · intro h
    exact ⟨_, (alignGenesis_eq start _).2 ⟨by omega, by omega, rfl⟩⟩

/-- Aligning an aligned round changes nothing. -/
theorem alignGenesis_idem (start g : Nat) (h : alignGenesis start = some g) :
    alignGenesis g = some g := by
  obtain ⟨h1, h2, hg⟩ := (alignGenesis_eq start g).1 h
  exact (alignGenesis_eq g g).2 ⟨by omega, by omega, by omega⟩

variable {Peer : Type} [DecidableEq Peer]

/-- A leader exists only at a proof round; it belongs both to the set ordered for the anchor
candidate round and to the current set. -/
theorem leader_only_at_proof (coin : Nat → Nat → Nat) (ordered current : Nat → List Peer)
    (round genesis : Nat) (l : Peer)
    (h : leader coin ordered current round genesis = some (some l)) :
    role round = some .proof ∧ l ∈ current round ∧
      l ∈ ordered (anchorCandidate round genesis) := by
  unfold leader at h
  dsimp only at h
  split at h
  · cases h
  · rename_i l' hl'
    split at h
    · simp at h
    · rename_i hc
      split at h
      · rename_i hr
        simp only [Option.some.injEq] at h
        subst h
        exact ⟨hr, by simpa using hc, List.mem_of_getElem? hl'⟩
      · simp at h

/-- At every proof round after genesis the leader is chosen by the round just before it (the anchor
candidate), and at genesis by the genesis round itself. -/
theorem candidate_of_proof_round (round genesis : Nat) (hr : role round = some .proof)
    (hg : genesis ≤ round) (hgp : role genesis = some .proof) :
    anchorCandidate round genesis = if round = genesis then genesis else round - 1 := by
  obtain ⟨w, rfl⟩ := (role_proof_iff round).1 hr
  obtain ⟨v, rfl⟩ := (role_proof_iff genesis).1 hgp
  unfold anchorCandidate waveRounds
  split <;> omega

/-- With a non-empty ordered set and a generator that stays in range there is no panic, and a leader
that is still a validator leads every proof round. -/
theorem leader_defined (coin : Nat → Nat → Nat) (hcoin : ∀ c n, 0 < n → coin c n < n)
    (ordered current : Nat → List Peer) (round genesis : Nat)
    (hne : ordered (anchorCandidate round genesis) ≠ []) :
    (leader coin ordered current round genesis).isSome ∧
    (role round = some .proof →
      (∀ p ∈ ordered (anchorCandidate round genesis), p ∈ current round) →
      ∃ l, leader coin ordered current round genesis = some (some l)) := by
  have hlt := hcoin (anchorCandidate round genesis)
    (ordered (anchorCandidate round genesis)).length (List.length_pos_iff.2 hne)
  unfold leader
  dsimp only
  rw [List.getElem?_eq_getElem hlt]
  dsimp only
  refine ⟨?_, ?_⟩
  · split
    · rfl
    · split <;> rfl
  · intro hr hall
    have hm := hall _ (List.getElem_mem hlt)
    rw [if_neg (by simpa using hm), hr]
    exact ⟨_, rfl⟩

/-! Concrete cases. -/
example : alignGenesis 0 = some 4 ∧ alignGenesis 7 = some 7 ∧ alignGenesis 8 = some 10 := by decide
example : leader (fun c n => c % n) (fun _ => [10, 20, 30]) (fun _ => [20, 10]) 10 4
    = some (some 10) := by decide

end Tycho.ProofLeader
