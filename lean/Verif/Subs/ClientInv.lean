import Verif.Subs.RegInv
import Mathlib.Tactic.Tauto

/-! The invariant of one client: its reverse entry against the sets it is a member of, by the phase of the call that works for it. -/
namespace Tycho.Subs

def Cont.pend : Cont → Nat → Prop
  | .purge aids _, i => i ∈ aids
  | _, _ => False

/-- The client is still in the set of this address although its reverse entry does not list it. -/
def Phase.pend : Phase → Nat → Nat → Prop
  | .cleanup a c, x, i => x = a ∨ c.pend i
  | .rm1 _ _ c, _, i => c.pend i
  | .rm2 _ c, _, i => c.pend i
  | .purge aids _, _, i => i ∈ aids
  | _, _, _ => False

/-- The reverse entry lists this id although the client is not in the set yet. -/
def Phase.stray : Phase → Nat → Prop
  | .subFwd _ aid _ _ _, i => i = aid
  | _, _ => False

def Cont.subs : Cont → List Nat
  | .cap d => d
  | _ => []

/-- The addresses of the call that are subscribed to. -/
def Phase.subs : Phase → List Nat
  | .subLoop _ d => d
  | .subRev _ _ _ _ d => d
  | .subFwd _ _ _ _ d => d
  | .atCap _ _ _ d => d
  | .capEnd d => d
  | .rm1 _ _ c => c.subs
  | .rm2 _ c => c.subs
  | .exit _ d _ => d
  | _ => []

def Cont.unsubs : Cont → List Nat
  | .unsub _ d => d
  | _ => []

/-- The addresses of the call that are unsubscribed from. -/
def Phase.unsubs : Phase → List Nat
  | .unsubLoop _ d => d
  | .unsubRev _ _ _ d => d
  | .cleanup _ c => c.unsubs
  | .rm1 _ _ c => c.unsubs
  | .rm2 _ c => c.unsubs
  | .exit _ _ d => d
  | _ => []

def Cont.isCap : Cont → Bool
  | .cap _ => true
  | _ => false

def Cont.isPurge : Cont → Bool
  | .purge _ _ => true
  | _ => false

/-- The reverse entry may be empty. -/
def Phase.mayEmpty : Phase → Bool
  | .subLoop _ _ => true
  | .subRev _ _ _ _ _ => true
  | .subFwd _ _ _ _ _ => true
  | .atCap _ _ _ _ => true
  | .capEnd _ => true
  | .rm1 _ _ c => c.isCap
  | .rm2 _ c => c.isCap
  | _ => false

/-- The reverse entry is removed. -/
def Phase.noRev : Phase → Bool
  | .purge _ _ => true
  | .cleanup _ c => c.isPurge
  | .rm1 _ _ c => c.isPurge
  | .rm2 _ c => c.isPurge
  | .reclaim => true
  | .cleared => true
  | _ => false

/-- The id the call has read for an address. -/
def Phase.look : Phase → Option (Nat × Nat)
  | .subRev a i _ _ _ => some (a, i)
  | .unsubRev a i _ _ => some (a, i)
  | _ => none

/-- The invariant of a client: `M a i` means that it is in the set of address `a`, interned as `i`; `r` is its reverse entry; `ph`
the phase of the call that works for it (`leave` if there is none). -/
structure CInv (M : Nat → Nat → Prop) (r : Option (List Nat)) (ph : Phase) : Prop where
  F : ∀ a i, M a i → i ∈ r.getD [] ∨ ph.pend a i
  R : ∀ i ∈ r.getD [], (∃ a, M a i) ∨ ph.stray i
  sorted : (r.getD []).Pairwise (· < ·)
  len : (r.getD []).length ≤ maxPerClient
  ne : r = some [] → ph.mayEmpty = true
  noRev : ph.noRev = true → r = none
  look : ∀ a i, ph.look = some (a, i) → i ∈ r.getD [] → M a i
  fwd : ∀ a i created rest done, ph = .subFwd a i created rest done → i ∈ r.getD [] ∧ ∀ a', M a' i → a' = a
  subs : ∀ x ∈ ph.subs, ∃ i, M x i ∧ i ∈ r.getD []
  unsubs : ∀ x ∈ ph.unsubs, ∀ i, M x i → i ∉ r.getD []
  noCap : ∀ a d, ph ≠ .cleanup a (.cap d)
  clean : ∀ a rest d, ph = .cleanup a (.unsub rest d) → a ∈ d

theorem dropEmpty_getD (r : Option (List Nat)) : (dropEmpty r).getD [] = r.getD [] := by
  unfold dropEmpty
  split
  · rename_i h; rw [h]; rfl
  · rfl

theorem dropEmpty_ne (r : Option (List Nat)) : dropEmpty r ≠ some [] := by
  unfold dropEmpty
  split
  · simp
  · assumption

theorem CInv.nodup {M : Nat → Nat → Prop} {r : Option (List Nat)} {ph : Phase} (h : CInv M r ph) : (r.getD []).Nodup :=
  h.sorted.imp (fun h => Nat.ne_of_lt h)

/-- Sorted insertion. -/
theorem revInsert_perm (l : List Nat) (a : Nat) : (revInsert l a).Perm (a :: l) := by
  unfold revInsert
  refine (List.perm_middle).trans ?_
  rw [List.takeWhile_append_dropWhile]

theorem revInsert_sorted {l : List Nat} {a : Nat} (h : l.Pairwise (· < ·)) (hn : a ∉ l) : (revInsert l a).Pairwise (· < ·) := by
  unfold revInsert
  induction l with
  | nil => simp
  | cons x l ih =>
    have hx := List.pairwise_cons.1 h
    simp only [List.mem_cons, not_or] at hn
    by_cases hxa : x < a
    · rw [List.takeWhile_cons_of_pos (by simpa using hxa), List.dropWhile_cons_of_pos (by simpa using hxa), List.cons_append,
        List.pairwise_cons]
      refine ⟨?_, ih hx.2 hn.2⟩
      intro y hy
      have := (revInsert_perm l a).mem_iff (a := y)
      unfold revInsert at this
      rcases List.mem_cons.1 (this.1 hy) with rfl | hy
      · exact hxa
      · exact hx.1 y hy
    · rw [List.takeWhile_cons_of_neg (by simpa using hxa), List.dropWhile_cons_of_neg (by simpa using hxa), List.nil_append,
        List.pairwise_cons]
      refine ⟨?_, h⟩
      intro y hy
      rcases List.mem_cons.1 hy with rfl | hy
      · omega
      · have := hx.1 y hy
        omega

theorem mem_revInsert {l : List Nat} {a x : Nat} : x ∈ revInsert l a ↔ x = a ∨ x ∈ l := by
  rw [(revInsert_perm l a).mem_iff, List.mem_cons]

/-! ### The steps of one client -/

variable {M M' : Nat → Nat → Prop} {r : Option (List Nat)} {ph : Phase}

/-- A phase that demands nothing new. -/
theorem CInv.move (h : CInv M r ph) {ph' : Phase} {r' : Option (List Nat)} (hr : r'.getD [] = r.getD []) (hM : ∀ a i, M' a i ↔ M a i)
    (hp : ∀ a i, M a i → ph.pend a i → ph'.pend a i) (hs : ∀ i, ph.stray i → ph'.stray i) (hne : r' = some [] → ph'.mayEmpty = true)
    (hno : ph'.noRev = true → r' = none) (hlook : ∀ a i, ph'.look = some (a, i) → i ∈ r.getD [] → M a i)
    (hfwd : ∀ a i created rest done, ph' = .subFwd a i created rest done → i ∈ r.getD [] ∧ ∀ a', M a' i → a' = a)
    (hsub : ∀ x ∈ ph'.subs, x ∈ ph.subs) (huns : ∀ x ∈ ph'.unsubs, x ∈ ph.unsubs)
    (hnc : ∀ a d, ph' ≠ .cleanup a (.cap d)) (hcl : ∀ a rest d, ph' = .cleanup a (.unsub rest d) → a ∈ d) : CInv M' r' ph' := by
  have hMe : M' = M := by funext a i; exact propext (hM a i)
  subst hMe
  constructor
  · intro a i hm
    rw [hr]
    rcases h.F a i hm with h1 | h1
    · exact .inl h1
    · exact .inr (hp a i hm h1)
  · intro i hi
    rw [hr] at hi
    rcases h.R i hi with h1 | h1
    · exact .inl h1
    · exact .inr (hs i h1)
  · rw [hr]; exact h.sorted
  · rw [hr]; exact h.len
  · exact hne
  · exact hno
  · intro a i hl hi
    rw [hr] at hi
    exact hlook a i hl hi
  · intro a i c rest d hph
    rw [hr]
    exact hfwd a i c rest d hph
  · intro x hx
    rw [hr]; exact h.subs x (hsub x hx)
  · intro x hx
    rw [hr]; exact h.unsubs x (huns x hx)
  · exact hnc
  · exact hcl

/-- reverse.rs: an id is added to the reverse entry. -/
theorem CInv.insert {a i : Nat} {created : Bool} {rest done : List Nat} (h : CInv M r (.subRev a i created rest done)) (hn : i ∉ r.getD [])
    (hl : (r.getD []).length < maxPerClient) : CInv M (some (revInsert (r.getD []) i)) (.subFwd a i created rest done) := by
  constructor
  · intro x j hm
    rcases h.F x j hm with h1 | h1
    · exact .inl (mem_revInsert.2 (.inr h1))
    · exact h1.elim
  · intro j hj
    rcases mem_revInsert.1 hj with rfl | hj
    · exact .inr rfl
    · rcases h.R j hj with h1 | h1
      · exact .inl h1
      · exact h1.elim
  · exact revInsert_sorted h.sorted hn
  · show (revInsert (r.getD []) i).length ≤ _
    rw [(revInsert_perm _ _).length_eq]
    exact hl
  · intro _; rfl
  · intro h0; simp [Phase.noRev] at h0
  · intro x j h0; simp [Phase.look] at h0
  · intro x j c rest' d he
    simp only [Phase.subFwd.injEq] at he
    obtain ⟨rfl, rfl, _⟩ := he
    refine ⟨mem_revInsert.2 (.inl rfl), ?_⟩
    intro a' hm
    rcases h.F a' i hm with h1 | h1
    · exact absurd h1 hn
    · exact h1.elim
  · intro x hx
    obtain ⟨j, h1, h2⟩ := h.subs x hx
    exact ⟨j, h1, mem_revInsert.2 (.inr h2)⟩
  · intro x hx; simp [Phase.unsubs] at hx
  · intro x d h0; simp at h0
  · intro x r d h0; simp at h0

/-- The client is added to the set. -/
theorem CInv.added {a i : Nat} {created : Bool} {rest done : List Nat} (h : CInv M r (.subFwd a i created rest done))
    (hM : ∀ x j, M' x j ↔ M x j ∨ (x = a ∧ j = i)) : CInv M' r (.subLoop rest (done ++ [a])) := by
  have hf := (h.fwd a i created rest done rfl).1
  constructor
  · intro x j hm
    rcases (hM x j).1 hm with hm | ⟨rfl, rfl⟩
    · rcases h.F x j hm with h1 | h1
      · exact .inl h1
      · exact h1.elim
    · exact .inl hf
  · intro j hj
    rcases h.R j hj with ⟨x, h1⟩ | h1
    · exact .inl ⟨x, (hM x j).2 (.inl h1)⟩
    · obtain rfl : j = i := h1
      exact .inl ⟨a, (hM _ _).2 (.inr ⟨rfl, rfl⟩)⟩
  · exact h.sorted
  · exact h.len
  · intro _; rfl
  · intro h0; simp [Phase.noRev] at h0
  · intro x j h0; simp [Phase.look] at h0
  · intro x j c rest' d he; simp at he
  · intro x hx
    simp only [Phase.subs, List.mem_append, List.mem_singleton] at hx
    rcases hx with hx | rfl
    · obtain ⟨j, h1, h2⟩ := h.subs x hx
      exact ⟨j, (hM _ _).2 (.inl h1), h2⟩
    · exact ⟨i, (hM _ _).2 (.inr ⟨rfl, rfl⟩), hf⟩
  · intro x hx; simp [Phase.unsubs] at hx
  · intro x d h0; simp at h0
  · intro x r d h0; simp at h0

/-- The forward entry has changed: the reverse entry is rolled back. -/
theorem CInv.rollback {a i : Nat} {created : Bool} {rest done : List Nat} (h : CInv M r (.subFwd a i created rest done))
    (hn : ¬ M a i) : CInv M (some ((r.getD []).erase i)) (.subLoop (a :: rest) done) := by
  have hno : ∀ x, ¬ M x i := by
    intro x hx
    have := (h.fwd a i created rest done rfl).2 x hx
    subst this
    exact hn hx
  have hmem : ∀ j, j ∈ (r.getD []).erase i ↔ j ≠ i ∧ j ∈ r.getD [] := fun j => List.Nodup.mem_erase_iff h.nodup
  constructor
  · intro x j hm
    have : j ≠ i := by rintro rfl; exact hno x hm
    rcases h.F x j hm with h1 | h1
    · exact .inl ((hmem j).2 ⟨this, h1⟩)
    · exact h1.elim
  · intro j hj
    obtain ⟨h1, h2⟩ := (hmem j).1 hj
    rcases h.R j h2 with h3 | h3
    · exact .inl h3
    · exact absurd h3 h1
  · exact h.sorted.sublist List.erase_sublist
  · exact Nat.le_trans List.erase_sublist.length_le h.len
  · intro _; rfl
  · intro h0; simp [Phase.noRev] at h0
  · intro x j h0; simp [Phase.look] at h0
  · intro x j c rest' d he; simp at he
  · intro x hx
    obtain ⟨j, h1, h2⟩ := h.subs x hx
    exact ⟨j, h1, (hmem j).2 ⟨by rintro rfl; exact hno x h1, h2⟩⟩
  · intro x hx; simp [Phase.unsubs] at hx
  · intro x d h0; simp at h0
  · intro x r d h0; simp at h0

/-- An id is removed from the reverse entry. -/
theorem CInv.unlist {a i : Nat} {rest done : List Nat} (h : CInv M r (.unsubRev a i rest done)) (hi : i ∈ r.getD [])
    (hinj : ∀ x y j, M x j → M y j → x = y) (hfun : ∀ x j j', M x j → M x j' → j = j') :
    CInv M (dropEmpty (some ((r.getD []).erase i))) (.cleanup a (.unsub rest (done ++ [a]))) := by
  have hma : M a i := h.look a i rfl hi
  have hmem : ∀ j, j ∈ (r.getD []).erase i ↔ j ≠ i ∧ j ∈ r.getD [] := fun j => List.Nodup.mem_erase_iff h.nodup
  have hg : (dropEmpty (some ((r.getD []).erase i))).getD [] = (r.getD []).erase i := dropEmpty_getD _
  constructor
  · intro x j hm
    rw [hg]
    by_cases hji : j = i
    · subst hji
      exact .inr (.inl (hinj x a j hm hma))
    · rcases h.F x j hm with h1 | h1
      · exact .inl ((hmem j).2 ⟨hji, h1⟩)
      · exact h1.elim
  · intro j hj
    rw [hg] at hj
    rcases h.R j ((hmem j).1 hj).2 with h3 | h3
    · exact .inl h3
    · exact h3.elim
  · rw [hg]; exact h.sorted.sublist List.erase_sublist
  · rw [hg]; exact Nat.le_trans List.erase_sublist.length_le h.len
  · intro h0; exact absurd h0 (dropEmpty_ne _)
  · intro h0; simp [Phase.noRev, Cont.isPurge] at h0
  · intro x j h0; simp [Phase.look] at h0
  · intro x j c rest' d he; simp at he
  · intro x hx; simp [Phase.subs] at hx
  · intro x hx j hm
    rw [hg]
    simp only [Phase.unsubs, Cont.unsubs, List.mem_append, List.mem_singleton] at hx
    intro hj
    obtain ⟨h1, h2⟩ := (hmem j).1 hj
    rcases hx with hx | rfl
    · exact h.unsubs x hx j hm h2
    · exact h1 (hfun x j i hm hma)
  · intro x d h0; simp at h0
  · intro x r d h0
    simp only [Phase.cleanup.injEq, Cont.unsub.injEq] at h0
    obtain ⟨rfl, _, rfl⟩ := h0
    simp

/-- The client leaves the set of an address. -/
theorem CInv.left {a : Nat} {c : Cont} (h : CInv M r (.cleanup a c)) (hM : ∀ x j, M' x j ↔ M x j ∧ x ≠ a) :
    CInv M' r c.phase ∧ ∀ i, CInv M' r (.rm1 i a c) := by
  have base : ∀ ph' : Phase, (∀ x j, ph'.pend x j ↔ c.pend j) → ph'.mayEmpty = c.isCap → (ph'.noRev = true → c.isPurge = true) →
      ph'.look = none → (∀ a i b r d, ph' ≠ .subFwd a i b r d) → ph'.subs = c.subs → ph'.unsubs = c.unsubs →
      (∀ a d, ph' ≠ .cleanup a d) → CInv M' r ph' := by
    intro ph' hpend hme hno hlook hfw hsub huns hcl
    constructor
    · intro x j hm
      obtain ⟨hm, hxa⟩ := (hM x j).1 hm
      rcases h.F x j hm with h1 | h1 | h1
      · exact .inl h1
      · exact absurd h1 hxa
      · exact .inr ((hpend x j).2 h1)
    · intro j hj
      rcases h.R j hj with ⟨x, h1⟩ | h1
      · by_cases hxa : x = a
        · subst hxa
          exfalso
          cases c with
          | unsub rest d => exact h.unsubs x (h.clean x rest d rfl) j h1 hj
          | purge aids fin =>
            have := h.noRev rfl
            rw [this] at hj
            simp at hj
          | cap d => exact h.noCap x d rfl
        · exact .inl ⟨x, (hM x j).2 ⟨h1, hxa⟩⟩
      · exact h1.elim
    · exact h.sorted
    · exact h.len
    · intro h0
      have := h.ne h0
      simp [Phase.mayEmpty] at this
    · intro h0
      exact h.noRev (hno h0)
    · intro x j h0; rw [hlook] at h0; simp at h0
    · intro x j b rest d he; exact absurd he (hfw x j b rest d)
    · intro x hx
      rw [hsub] at hx
      cases c with
      | cap d => exact absurd rfl (h.noCap a d)
      | unsub => simp [Cont.subs] at hx
      | purge => simp [Cont.subs] at hx
    · intro x hx j hm
      rw [huns] at hx
      exact h.unsubs x hx j ((hM x j).1 hm).1
    · intro x d; exact hcl x _
    · intro x rest d he; exact absurd he (hcl x _)
  constructor
  · cases c with
    | unsub rest d =>
      exact base _ (fun x j => Iff.rfl) rfl (fun h0 => h0) rfl (by intros; simp [Cont.phase]) rfl rfl (by intros; simp [Cont.phase])
    | purge aids fin =>
      exact base _ (fun x j => Iff.rfl) rfl (fun h0 => h0) rfl (by intros; simp [Cont.phase]) rfl rfl (by intros; simp [Cont.phase])
    | cap d => exact absurd rfl (h.noCap a d)
  · intro i
    exact base _ (fun x j => Iff.rfl) rfl (fun h0 => h0) rfl (by intros; simp) rfl rfl (by intros; simp)

/-- The reverse entry is removed. -/
theorem CInv.purged {fin : Bool} (h : CInv M r (.purgeStart fin)) : CInv M none (.purge (r.getD []) fin) := by
  constructor
  · intro x j hm
    rcases h.F x j hm with h1 | h1
    · exact .inr h1
    · exact h1.elim
  · intro j hj; simp at hj
  · simp
  · simp
  · intro h0; simp at h0
  · intro _; rfl
  · intro x j h0; simp [Phase.look] at h0
  · intro x j c rest' d he; simp at he
  · intro x hx; simp [Phase.subs] at hx
  · intro x hx; simp [Phase.unsubs] at hx
  · intro x d h0; simp at h0
  · intro x r d h0; simp at h0

end Tycho.Subs
