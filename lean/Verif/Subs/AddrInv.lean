import Verif.Subs.Model

/-! The address side of the subscriptions index: holds in every execution. -/
namespace Tycho.Subs

theorem upd_same {β : Type} (f : Nat → β) (a : Nat) (b : β) : upd f a b a = b := by simp [upd]
theorem upd_ne {β : Type} (f : Nat → β) {a x : Nat} (b : β) (h : x ≠ a) : upd f a b x = f x := by simp [upd, h]

/-- The interned id a thread is about to give back. -/
def Phase.limbo : Phase → Option Nat
  | .rm1 aid _ _ => some aid
  | .rm2 aid _ => some aid
  | _ => none

/-- The thread made the entry of this address and has not added its client yet. -/
def Phase.creator : Phase → Nat → Nat → Prop
  | .subRev a aid true _ _, x, i => x = a ∧ i = aid
  | .subFwd a aid true _ _, x, i => x = a ∧ i = aid
  | .atCap a aid true _, x, i => x = a ∧ i = aid
  | _, _, _ => False

structure AddrInv (s : State) : Prop where
  inj : ∀ a a' i f f', s.fwd a = some (i, f) → s.fwd a' = some (i, f') → a = a'
  back : ∀ a i f, s.fwd a = some (i, f) → s.int i = some a
  int : ∀ i a, s.int i = some a → (∃ f, s.fwd a = some (i, f)) ∨ ∃ t k c, s.thr t = some k ∧ k.ph = .rm1 i a c
  wf : ∀ a i f, s.fwd a = some (i, f) → f.WF s.cap
  used : ∀ a i f, s.fwd a = some (i, f) → i < s.apool.next ∧ i ∉ s.apool.free
  pool : s.apool.free.Nodup ∧ (∀ i ∈ s.apool.free, i < s.apool.next) ∧ s.apool.next ≤ s.apool.max
  limbo : ∀ t k i, s.thr t = some k → k.ph.limbo = some i → i < s.apool.next ∧ i ∉ s.apool.free ∧ ∀ a f, s.fwd a ≠ some (i, f)
  limboU : ∀ t t' k k' i, s.thr t = some k → s.thr t' = some k' → k.ph.limbo = some i → k'.ph.limbo = some i → t = t'
  empty : ∀ a i f, s.fwd a = some (i, f) → f.isEmpty = true → ∃ t k, s.thr t = some k ∧ k.ph.creator a i
  noLeak : ∀ i, i < s.apool.next → i ∈ s.apool.free ∨ (∃ a f, s.fwd a = some (i, f)) ∨ ∃ t k, s.thr t = some k ∧ k.ph.limbo = some i

theorem addrInv_new (cap ma mc : Nat) : AddrInv (State.new cap ma mc) := by
  constructor <;> simp [State.new]

/-- A step that changes neither the maps nor the pool. -/
theorem addrInv_frame {s s' : State} (h : AddrInv s) (t : Nat) (hf : s'.fwd = s.fwd) (hi : s'.int = s.int) (hp : s'.apool = s.apool)
    (hc : s'.cap = s.cap) (ho : ∀ x, x ≠ t → s'.thr x = s.thr x)
    (hl : ∀ k, s.thr t = some k → k.ph.limbo = none) (hl' : ∀ k, s'.thr t = some k → k.ph.limbo = none)
    (hcr : ∀ k a i, s.thr t = some k → k.ph.creator a i →
      (∃ k', s'.thr t = some k' ∧ k'.ph.creator a i) ∨ ∀ f, s.fwd a = some (i, f) → f.isEmpty = false) : AddrInv s' := by
  have hlim : ∀ x k i, s.thr x = some k → k.ph.limbo = some i → x ≠ t := by
    rintro x k i hk hi rfl
    rw [hl k hk] at hi; simp at hi
  have hlim' : ∀ x k i, s'.thr x = some k → k.ph.limbo = some i → s.thr x = some k := by
    intro x k i hk hi
    by_cases hx : x = t
    · subst hx; rw [hl' k hk] at hi; simp at hi
    · rwa [ho x hx] at hk
  constructor
  · rw [hf]; exact h.inj
  · rw [hf, hi]; exact h.back
  · rw [hf, hi]
    intro i a hia
    rcases h.int i a hia with h1 | ⟨x, k, c, hx, hk⟩
    · exact .inl h1
    · refine .inr ⟨x, k, c, ?_, hk⟩
      rw [ho x (hlim x k i hx (by rw [hk]; rfl))]; exact hx
  · rw [hf, hc]; exact h.wf
  · rw [hf, hp]; exact h.used
  · rw [hp]; exact h.pool
  · intro x k i hx hk
    rw [hp, hf]
    exact h.limbo x k i (hlim' x k i hx hk) hk
  · intro x x' k k' i hx hx' hk hk'
    exact h.limboU x x' k k' i (hlim' x k i hx hk) (hlim' x' k' i hx' hk') hk hk'
  · rw [hf]
    intro a i f hfa he
    obtain ⟨x, k, hx, hk⟩ := h.empty a i f hfa he
    by_cases hxt : x = t
    · subst hxt
      rcases hcr k a i hx hk with ⟨k', hk', hc'⟩ | h1
      · exact ⟨x, k', hk', hc'⟩
      · rw [h1 f hfa] at he; simp at he
    · exact ⟨x, k, by rw [ho x hxt]; exact hx, hk⟩
  · intro i hin
    rw [hp] at hin ⊢
    rw [hf]
    rcases h.noLeak i hin with h1 | h1 | ⟨x, k, hx, hk⟩
    · exact .inl h1
    · exact .inr (.inl h1)
    · exact .inr (.inr ⟨x, k, by rw [ho x (hlim x k i hx hk)]; exact hx, hk⟩)

theorem goto_thr_same (s : State) (t : Nat) (k : Call) (ph : Phase) : (s.goto t k ph).thr t = some { k with ph := ph } := upd_same ..
theorem goto_thr_ne (s : State) {t x : Nat} (k : Call) (ph : Phase) (h : x ≠ t) : (s.goto t k ph).thr x = s.thr x := upd_ne _ _ h

/-- A thread's step that changes neither the maps nor the pool. -/
theorem addrInv_goto {s s0 : State} (h : AddrInv s) {t : Nat} {k : Call} (hk : s.thr t = some k) {ph : Phase}
    (hf : s0.fwd = s.fwd) (hi : s0.int = s.int) (hp : s0.apool = s.apool) (hc : s0.cap = s.cap) (ht : s0.thr = s.thr)
    (hl : k.ph.limbo = none) (hl' : ph.limbo = none)
    (hcr : ∀ a i, k.ph.creator a i → ph.creator a i ∨ ∀ f, s.fwd a = some (i, f) → f.isEmpty = false) :
    AddrInv (s0.goto t k ph) := by
  refine addrInv_frame h t hf hi hp hc ?_ ?_ ?_ ?_
  · intro x hx; rw [goto_thr_ne _ _ _ hx, ht]
  · intro k' hk'; rw [hk] at hk'; obtain rfl := Option.some.inj hk'; exact hl
  · intro k' hk'; rw [goto_thr_same] at hk'; obtain rfl := Option.some.inj hk'; exact hl'
  · intro k' a i hk' hcr'
    rw [hk] at hk'; obtain rfl := Option.some.inj hk'
    rcases hcr a i hcr' with h1 | h1
    · exact .inl ⟨_, goto_thr_same .., h1⟩
    · exact .inr h1

theorem alloc_spec {p p' : Pool} {c : Choice} {i : Nat} (h : p.alloc c = some (some i, p'))
    (hp : p.free.Nodup ∧ (∀ i ∈ p.free, i < p.next) ∧ p.next ≤ p.max) :
    (p'.free.Nodup ∧ (∀ i ∈ p'.free, i < p'.next) ∧ p'.next ≤ p'.max) ∧ i < p'.next ∧ i ∉ p'.free ∧
    (∀ j, j < p.next → j ∉ p.free → j < p'.next ∧ j ∉ p'.free ∧ j ≠ i) ∧
    (∀ j, j < p'.next → j = i ∨ (j < p.next ∧ (j ∈ p.free → j ∈ p'.free))) ∧ p'.max = p.max ∧
    (∀ j, j ∈ p'.free → j ∈ p.free) := by
  obtain ⟨h1, h2, h3⟩ := hp
  cases c with
  | pop =>
    simp only [Pool.alloc] at h
    split at h
    · rename_i id rest heq
      simp only [Option.some.injEq, Prod.mk.injEq] at h
      obtain ⟨rfl, rfl⟩ := h
      rw [heq] at h1 h2
      have hn := List.nodup_cons.1 h1
      refine ⟨⟨hn.2, fun j hj => h2 j (by simp [hj]), h3⟩, h2 id (by simp), hn.1, ?_, ?_, rfl, ?_⟩
      · intro j hj hnf
        rw [heq] at hnf
        simp only [List.mem_cons, not_or] at hnf
        exact ⟨hj, hnf.2, hnf.1⟩
      · intro j hj
        rw [heq]
        by_cases hji : j = id
        · exact .inl hji
        · right
          refine ⟨hj, fun hm => ?_⟩
          rcases List.mem_cons.1 hm with h' | h'
          · exact absurd h' hji
          · exact h'
      · intro j hj; rw [heq]; exact List.mem_cons_of_mem _ hj
    · simp at h
  | fresh =>
    simp only [Pool.alloc] at h
    split at h
    · rename_i hlt
      simp only [Option.some.injEq, Prod.mk.injEq] at h
      obtain ⟨rfl, rfl⟩ := h
      refine ⟨⟨h1, fun j hj => Nat.lt_succ_of_lt (h2 j hj), hlt⟩, Nat.lt_succ_self _, fun hm => Nat.lt_irrefl _ (h2 _ hm), ?_, ?_, rfl, fun j hj => hj⟩
      · intro j hj hnf
        exact ⟨Nat.lt_succ_of_lt hj, hnf, Nat.ne_of_lt hj⟩
      · intro j hj
        simp only at hj
        by_cases hjn : j = p.next
        · exact .inl hjn
        · exact .inr ⟨by omega, fun hm => hm⟩
    · simp at h
  | fail =>
    simp only [Pool.alloc] at h
    split at h <;> simp at h

/-- An address is interned. -/
theorem addrInv_create {s s' : State} (h : AddrInv s) {t : Nat} {k : Call} (hk : s.thr t = some k) (hl : k.ph.limbo = none)
    (hcr0 : ∀ a i, ¬ k.ph.creator a i) {a aid : Nat} {rest done : List Nat} {p : Pool} {c : Choice}
    (hn : s.fwd a = none) (ha : s.apool.alloc c = some (some aid, p))
    (hf : s'.fwd = upd s.fwd a (some (aid, FSet.new s.cap))) (hi : s'.int = upd s.int aid (some a)) (hp : s'.apool = p)
    (hc : s'.cap = s.cap) (ht : s'.thr = upd s.thr t (some { k with ph := .subRev a aid true rest done })) : AddrInv s' := by
  obtain ⟨hpool, hlt, hnf, hold, hnew, _, hsub⟩ := alloc_spec ha h.pool
  have hfo : ∀ x i f, s'.fwd x = some (i, f) → (x = a ∧ i = aid ∧ f = FSet.new s.cap) ∨ (x ≠ a ∧ s.fwd x = some (i, f)) := by
    intro x i f hx
    rw [hf] at hx
    by_cases hxa : x = a
    · subst hxa
      rw [upd_same] at hx
      simp only [Option.some.injEq, Prod.mk.injEq] at hx
      exact .inl ⟨rfl, hx.1.symm, hx.2.symm⟩
    · rw [upd_ne _ _ hxa] at hx
      exact .inr ⟨hxa, hx⟩
  have hfo' : ∀ x i f, s.fwd x = some (i, f) → s'.fwd x = some (i, f) := by
    intro x i f hx
    have : x ≠ a := by rintro rfl; rw [hn] at hx; simp at hx
    rw [hf, upd_ne _ _ this]; exact hx
  have hneaid : ∀ x i f, s.fwd x = some (i, f) → i ≠ aid := fun x i f hx => (hold i (h.used x i f hx).1 (h.used x i f hx).2).2.2
  have htlim : ∀ x k' i, s'.thr x = some k' → k'.ph.limbo = some i → s.thr x = some k' := by
    intro x k' i hx hk'
    rw [ht] at hx
    by_cases hxt : x = t
    · subst hxt; rw [upd_same] at hx; obtain rfl := Option.some.inj hx; simp [Phase.limbo] at hk'
    · rwa [upd_ne _ _ hxt] at hx
  have htlim' : ∀ x k' i, s.thr x = some k' → k'.ph.limbo = some i → s'.thr x = some k' := by
    intro x k' i hx hk'
    have : x ≠ t := by rintro rfl; rw [hk] at hx; obtain rfl := Option.some.inj hx; rw [hl] at hk'; simp at hk'
    rw [ht, upd_ne _ _ this]; exact hx
  constructor
  · intro x x' i f f' hx hx'
    rcases hfo x i f hx with ⟨rfl, rfl, rfl⟩ | ⟨hxa, hx⟩
    · rcases hfo x' _ f' hx' with ⟨rfl, _, _⟩ | ⟨hxa', hx'⟩
      · rfl
      · exact absurd rfl (hneaid x' _ f' hx')
    · rcases hfo x' _ f' hx' with ⟨rfl, rfl, _⟩ | ⟨hxa', hx'⟩
      · exact absurd rfl (hneaid x _ f hx)
      · exact h.inj x x' i f f' hx hx'
  · intro x i f hx
    rw [hi]
    rcases hfo x i f hx with ⟨rfl, rfl, rfl⟩ | ⟨hxa, hx⟩
    · exact upd_same ..
    · rw [upd_ne _ _ (hneaid x i f hx)]; exact h.back x i f hx
  · intro i x hx
    rw [hi] at hx
    by_cases hia : i = aid
    · subst hia
      rw [upd_same] at hx
      obtain rfl := Option.some.inj hx
      exact .inl ⟨FSet.new s.cap, by rw [hf]; exact upd_same ..⟩
    · rw [upd_ne _ _ hia] at hx
      rcases h.int i x hx with ⟨f, hfx⟩ | ⟨y, k', c', hy, hk'⟩
      · exact .inl ⟨f, hfo' x i f hfx⟩
      · exact .inr ⟨y, k', c', htlim' y k' i hy (by rw [hk']; rfl), hk'⟩
  · intro x i f hx
    rw [hc]
    rcases hfo x i f hx with ⟨rfl, rfl, rfl⟩ | ⟨hxa, hx⟩
    · exact FSet.wf_new _
    · exact h.wf x i f hx
  · intro x i f hx
    rw [hp]
    rcases hfo x i f hx with ⟨rfl, rfl, rfl⟩ | ⟨hxa, hx⟩
    · exact ⟨hlt, hnf⟩
    · have := hold i (h.used x i f hx).1 (h.used x i f hx).2
      exact ⟨this.1, this.2.1⟩
  · rw [hp]; exact hpool
  · intro x k' i hx hk'
    obtain ⟨h1, h2, h3⟩ := h.limbo x k' i (htlim x k' i hx hk') hk'
    have := hold i h1 h2
    rw [hp]
    refine ⟨this.1, this.2.1, ?_⟩
    intro y f hy
    rcases hfo y i f hy with ⟨_, h4, _⟩ | ⟨_, hy⟩
    · exact this.2.2 h4
    · exact h3 y f hy
  · intro x x' k1 k2 i hx hx' h1 h2
    exact h.limboU x x' k1 k2 i (htlim x k1 i hx h1) (htlim x' k2 i hx' h2) h1 h2
  · intro x i f hx he
    rcases hfo x i f hx with ⟨rfl, rfl, rfl⟩ | ⟨hxa, hx⟩
    · exact ⟨t, _, by rw [ht]; exact upd_same .., by simp [Phase.creator]⟩
    · obtain ⟨y, k', hy, hk'⟩ := h.empty x i f hx he
      have : y ≠ t := by rintro rfl; rw [hk] at hy; obtain rfl := Option.some.inj hy; exact hcr0 _ _ hk'
      exact ⟨y, k', by rw [ht, upd_ne _ _ this]; exact hy, hk'⟩
  · intro i hin
    rw [hp] at hin ⊢
    rcases hnew i hin with rfl | ⟨h1, h2⟩
    · exact .inr (.inl ⟨a, _, by rw [hf]; exact upd_same ..⟩)
    · rcases h.noLeak i h1 with h3 | ⟨x, f, hx⟩ | ⟨x, k', hx, hk'⟩
      · exact .inl (h2 h3)
      · exact .inr (.inl ⟨x, f, hfo' x i f hx⟩)
      · exact .inr (.inr ⟨x, k', htlim' x k' i hx hk', hk'⟩)

/-- The set of an entry changes (a client is added or removed) and is not empty. -/
theorem addrInv_set {s s' : State} (h : AddrInv s) {t : Nat} {k : Call} (hk : s.thr t = some k) (hl : k.ph.limbo = none)
    {a aid : Nat} {f f' : FSet} {ph : Phase} (hl' : ph.limbo = none)
    (hcr : ∀ x i, k.ph.creator x i → x = a)
    (ha : s.fwd a = some (aid, f)) (hwf : f'.WF s.cap) (hne : f'.isEmpty = false)
    (hf : s'.fwd = upd s.fwd a (some (aid, f'))) (hi : s'.int = s.int) (hp : s'.apool = s.apool)
    (hc : s'.cap = s.cap) (ht : s'.thr = upd s.thr t (some { k with ph := ph })) : AddrInv s' := by
  have hfo : ∀ x i g, s'.fwd x = some (i, g) → ∃ g', s.fwd x = some (i, g') ∧ (g' = g ∨ (x = a ∧ g = f')) := by
    intro x i g hx
    rw [hf] at hx
    by_cases hxa : x = a
    · subst hxa
      rw [upd_same] at hx
      simp only [Option.some.injEq, Prod.mk.injEq] at hx
      obtain ⟨rfl, rfl⟩ := hx
      exact ⟨f, ha, .inr ⟨rfl, rfl⟩⟩
    · rw [upd_ne _ _ hxa] at hx
      exact ⟨g, hx, .inl rfl⟩
  have hfo' : ∀ x i g, s.fwd x = some (i, g) → ∃ g', s'.fwd x = some (i, g') := by
    intro x i g hx
    rw [hf]
    by_cases hxa : x = a
    · subst hxa
      rw [ha] at hx
      simp only [Option.some.injEq, Prod.mk.injEq] at hx
      obtain ⟨rfl, rfl⟩ := hx
      exact ⟨f', upd_same ..⟩
    · exact ⟨g, by rw [upd_ne _ _ hxa]; exact hx⟩
  have htlim : ∀ x k' i, s'.thr x = some k' → k'.ph.limbo = some i → s.thr x = some k' := by
    intro x k' i hx hk'
    rw [ht] at hx
    by_cases hxt : x = t
    · subst hxt; rw [upd_same] at hx; obtain rfl := Option.some.inj hx; simp [hl'] at hk'
    · rwa [upd_ne _ _ hxt] at hx
  have htlim' : ∀ x k' i, s.thr x = some k' → k'.ph.limbo = some i → s'.thr x = some k' := by
    intro x k' i hx hk'
    have : x ≠ t := by rintro rfl; rw [hk] at hx; obtain rfl := Option.some.inj hx; rw [hl] at hk'; simp at hk'
    rw [ht, upd_ne _ _ this]; exact hx
  constructor
  · intro x x' i g g' hx hx'
    obtain ⟨_, h1, _⟩ := hfo x i g hx
    obtain ⟨_, h2, _⟩ := hfo x' i g' hx'
    exact h.inj x x' i _ _ h1 h2
  · intro x i g hx
    obtain ⟨_, h1, _⟩ := hfo x i g hx
    rw [hi]; exact h.back x i _ h1
  · intro i x hx
    rw [hi] at hx
    rcases h.int i x hx with ⟨g, hg⟩ | ⟨y, k', c', hy, hk'⟩
    · obtain ⟨g', hg'⟩ := hfo' x i g hg
      exact .inl ⟨g', hg'⟩
    · exact .inr ⟨y, k', c', htlim' y k' i hy (by rw [hk']; rfl), hk'⟩
  · intro x i g hx
    rw [hc]
    obtain ⟨g', h1, h2 | ⟨_, h2⟩⟩ := hfo x i g hx
    · subst h2; exact h.wf x i _ h1
    · subst h2; exact hwf
  · intro x i g hx
    obtain ⟨_, h1, _⟩ := hfo x i g hx
    rw [hp]; exact h.used x i _ h1
  · rw [hp]; exact h.pool
  · intro x k' i hx hk'
    obtain ⟨h1, h2, h3⟩ := h.limbo x k' i (htlim x k' i hx hk') hk'
    rw [hp]
    refine ⟨h1, h2, ?_⟩
    intro y g hy
    obtain ⟨_, h4, _⟩ := hfo y i g hy
    exact h3 y _ h4
  · intro x x' k1 k2 i hx hx' h1 h2
    exact h.limboU x x' k1 k2 i (htlim x k1 i hx h1) (htlim x' k2 i hx' h2) h1 h2
  · intro x i g hx he
    obtain ⟨g', h1, h2 | ⟨_, h2⟩⟩ := hfo x i g hx
    · subst h2
      obtain ⟨y, k', hy, hk'⟩ := h.empty x i _ h1 he
      by_cases hyt : y = t
      · subst hyt
        rw [hk] at hy
        obtain rfl := Option.some.inj hy
        obtain rfl := hcr x i hk'
        rw [hf, upd_same] at hx
        simp only [Option.some.injEq, Prod.mk.injEq] at hx
        rw [← hx.2, hne] at he
        simp at he
      · exact ⟨y, k', by rw [ht, upd_ne _ _ hyt]; exact hy, hk'⟩
    · subst h2; rw [hne] at he; simp at he
  · intro i hin
    rw [hp] at hin ⊢
    rcases h.noLeak i hin with h3 | ⟨x, g, hx⟩ | ⟨x, k', hx, hk'⟩
    · exact .inl h3
    · obtain ⟨g', hg'⟩ := hfo' x i g hx
      exact .inr (.inl ⟨x, g', hg'⟩)
    · exact .inr (.inr ⟨x, k', htlim' x k' i hx hk', hk'⟩)

/-- An entry is removed. -/
theorem addrInv_drop {s s' : State} (h : AddrInv s) {t : Nat} {k : Call} (hk : s.thr t = some k) (hl : k.ph.limbo = none)
    {a aid : Nat} {f : FSet} {c : Cont} (hcr : ∀ x i, k.ph.creator x i → x = a)
    (ha : s.fwd a = some (aid, f))
    (hf : s'.fwd = upd s.fwd a none) (hi : s'.int = s.int) (hp : s'.apool = s.apool)
    (hc : s'.cap = s.cap) (ht : s'.thr = upd s.thr t (some { k with ph := .rm1 aid a c })) : AddrInv s' := by
  have hfo : ∀ x i g, s'.fwd x = some (i, g) → x ≠ a ∧ s.fwd x = some (i, g) := by
    intro x i g hx
    rw [hf] at hx
    by_cases hxa : x = a
    · subst hxa; rw [upd_same] at hx; simp at hx
    · rw [upd_ne _ _ hxa] at hx; exact ⟨hxa, hx⟩
  have htlim : ∀ x k' i, s'.thr x = some k' → k'.ph.limbo = some i → (x = t ∧ i = aid) ∨ (x ≠ t ∧ s.thr x = some k') := by
    intro x k' i hx hk'
    rw [ht] at hx
    by_cases hxt : x = t
    · subst hxt; rw [upd_same] at hx; obtain rfl := Option.some.inj hx
      simp only [Phase.limbo, Option.some.injEq] at hk'
      exact .inl ⟨rfl, hk'.symm⟩
    · rw [upd_ne _ _ hxt] at hx; exact .inr ⟨hxt, hx⟩
  have htlim' : ∀ x k' i, s.thr x = some k' → k'.ph.limbo = some i → s'.thr x = some k' := by
    intro x k' i hx hk'
    have : x ≠ t := by rintro rfl; rw [hk] at hx; obtain rfl := Option.some.inj hx; rw [hl] at hk'; simp at hk'
    rw [ht, upd_ne _ _ this]; exact hx
  constructor
  · intro x x' i g g' hx hx'
    exact h.inj x x' i _ _ (hfo x i g hx).2 (hfo x' i g' hx').2
  · intro x i g hx
    rw [hi]; exact h.back x i _ (hfo x i g hx).2
  · intro i x hx
    rw [hi] at hx
    rcases h.int i x hx with ⟨g, hg⟩ | ⟨y, k', c', hy, hk'⟩
    · by_cases hxa : x = a
      · subst hxa
        rw [ha] at hg
        simp only [Option.some.injEq, Prod.mk.injEq] at hg
        obtain ⟨rfl, rfl⟩ := hg
        exact .inr ⟨t, _, c, by rw [ht]; exact upd_same .., rfl⟩
      · exact .inl ⟨g, by rw [hf, upd_ne _ _ hxa]; exact hg⟩
    · exact .inr ⟨y, k', c', htlim' y k' i hy (by rw [hk']; rfl), hk'⟩
  · intro x i g hx
    rw [hc]; exact h.wf x i g (hfo x i g hx).2
  · intro x i g hx
    rw [hp]; exact h.used x i g (hfo x i g hx).2
  · rw [hp]; exact h.pool
  · intro x k' i hx hk'
    rw [hp]
    rcases htlim x k' i hx hk' with ⟨_, rfl⟩ | ⟨_, hx⟩
    · refine ⟨(h.used a _ f ha).1, (h.used a _ f ha).2, ?_⟩
      intro y g hy
      have := hfo y _ g hy
      exact this.1 (h.inj y a _ _ _ this.2 ha)
    · obtain ⟨h1, h2, h3⟩ := h.limbo x k' i hx hk'
      exact ⟨h1, h2, fun y g hy => h3 y g (hfo y i g hy).2⟩
  · intro x x' k1 k2 i hx hx' h1 h2
    rcases htlim x k1 i hx h1 with ⟨e1, rfl⟩ | ⟨_, hx⟩
    · rcases htlim x' k2 _ hx' h2 with ⟨e2, _⟩ | ⟨_, hx'⟩
      · rw [e1, e2]
      · exact absurd ha ((h.limbo x' k2 _ hx' h2).2.2 a f)
    · rcases htlim x' k2 _ hx' h2 with ⟨e2, rfl⟩ | ⟨_, hx'⟩
      · exact absurd ha ((h.limbo x k1 _ hx h1).2.2 a f)
      · exact h.limboU x x' k1 k2 i hx hx' h1 h2
  · intro x i g hx he
    have h1 := hfo x i g hx
    obtain ⟨y, k', hy, hk'⟩ := h.empty x i _ h1.2 he
    have : y ≠ t := by
      rintro rfl
      rw [hk] at hy
      obtain rfl := Option.some.inj hy
      exact h1.1 (hcr x i hk')
    exact ⟨y, k', by rw [ht, upd_ne _ _ this]; exact hy, hk'⟩
  · intro i hin
    rw [hp] at hin ⊢
    rcases h.noLeak i hin with h3 | ⟨x, g, hx⟩ | ⟨x, k', hx, hk'⟩
    · exact .inl h3
    · by_cases hxa : x = a
      · subst hxa
        rw [ha] at hx
        simp only [Option.some.injEq, Prod.mk.injEq] at hx
        obtain ⟨rfl, rfl⟩ := hx
        exact .inr (.inr ⟨t, _, by rw [ht]; exact upd_same .., rfl⟩)
      · exact .inr (.inl ⟨x, g, by rw [hf, upd_ne _ _ hxa]; exact hx⟩)
    · exact .inr (.inr ⟨x, k', htlim' x k' i hx hk', hk'⟩)

theorem addrInv_rm1 {s s' : State} (h : AddrInv s) {t : Nat} {k : Call} (hk : s.thr t = some k) {a aid : Nat} {c : Cont}
    (hph : k.ph = .rm1 aid a c) (hf : s'.fwd = s.fwd) (hi : s'.int = upd s.int aid none) (hp : s'.apool = s.apool)
    (hc : s'.cap = s.cap) (ht : s'.thr = upd s.thr t (some { k with ph := .rm2 aid c })) : AddrInv s' := by
  have hlk : k.ph.limbo = some aid := by rw [hph]; rfl
  have hal := h.limbo t k aid hk hlk
  have htlim : ∀ x k' i, s'.thr x = some k' → k'.ph.limbo = some i → ∃ k'', s.thr x = some k'' ∧ k''.ph.limbo = some i := by
    intro x k' i hx hk'
    rw [ht] at hx
    by_cases hxt : x = t
    · subst hxt; rw [upd_same] at hx; obtain rfl := Option.some.inj hx
      exact ⟨k, hk, by rw [hlk]; exact hk'⟩
    · rw [upd_ne _ _ hxt] at hx; exact ⟨k', hx, hk'⟩
  constructor
  · rw [hf]; exact h.inj
  · intro x i g hx
    rw [hf] at hx
    have : i ≠ aid := by rintro rfl; exact hal.2.2 x g hx
    rw [hi, upd_ne _ _ this]; exact h.back x i g hx
  · intro i x hx
    rw [hi] at hx
    by_cases hia : i = aid
    · subst hia; rw [upd_same] at hx; simp at hx
    · rw [upd_ne _ _ hia] at hx
      rw [hf]
      rcases h.int i x hx with h1 | ⟨y, k', c', hy, hk'⟩
      · exact .inl h1
      · refine .inr ⟨y, k', c', ?_, hk'⟩
        have : y ≠ t := by
          rintro rfl
          rw [hk] at hy; obtain rfl := Option.some.inj hy
          rw [hph] at hk'
          simp only [Phase.rm1.injEq] at hk'
          exact hia hk'.1.symm
        rw [ht, upd_ne _ _ this]; exact hy
  · rw [hf, hc]; exact h.wf
  · rw [hf, hp]; exact h.used
  · rw [hp]; exact h.pool
  · intro x k' i hx hk'
    obtain ⟨k'', h1, h2⟩ := htlim x k' i hx hk'
    rw [hp, hf]; exact h.limbo x k'' i h1 h2
  · intro x x' k1 k2 i hx hx' h1 h2
    obtain ⟨k1', e1, e2⟩ := htlim x k1 i hx h1
    obtain ⟨k2', e3, e4⟩ := htlim x' k2 i hx' h2
    exact h.limboU x x' k1' k2' i e1 e3 e2 e4
  · rw [hf]
    intro x i g hx he
    obtain ⟨y, k', hy, hk'⟩ := h.empty x i _ hx he
    have : y ≠ t := by
      rintro rfl
      rw [hk] at hy; obtain rfl := Option.some.inj hy
      rw [hph] at hk'; exact hk'
    exact ⟨y, k', by rw [ht, upd_ne _ _ this]; exact hy, hk'⟩
  · intro i hin
    rw [hp] at hin ⊢
    rw [hf]
    rcases h.noLeak i hin with h3 | h3 | ⟨x, k', hx, hk'⟩
    · exact .inl h3
    · exact .inr (.inl h3)
    · by_cases hxt : x = t
      · subst hxt
        rw [hk] at hx; obtain rfl := Option.some.inj hx
        rw [hlk] at hk'
        exact .inr (.inr ⟨x, { k with ph := .rm2 aid c }, by rw [ht]; exact upd_same .., hk'⟩)
      · exact .inr (.inr ⟨x, k', by rw [ht, upd_ne _ _ hxt]; exact hx, hk'⟩)

theorem addrInv_rm2 {s s' : State} (h : AddrInv s) {t : Nat} {k : Call} (hk : s.thr t = some k) {aid : Nat} {c : Cont}
    (hph : k.ph = .rm2 aid c) (hf : s'.fwd = s.fwd) (hi : s'.int = s.int) (hp : s'.apool = s.apool.release aid)
    (hc : s'.cap = s.cap) (ht : s'.thr = upd s.thr t (some { k with ph := c.phase })) : AddrInv s' := by
  have hlk : k.ph.limbo = some aid := by rw [hph]; rfl
  have hal := h.limbo t k aid hk hlk
  have hcl : c.phase.limbo = none := by cases c <;> rfl
  have htlim : ∀ x k' i, s'.thr x = some k' → k'.ph.limbo = some i → x ≠ t ∧ s.thr x = some k' := by
    intro x k' i hx hk'
    rw [ht] at hx
    by_cases hxt : x = t
    · subst hxt; rw [upd_same] at hx; obtain rfl := Option.some.inj hx
      rw [hcl] at hk'; simp at hk'
    · rw [upd_ne _ _ hxt] at hx; exact ⟨hxt, hx⟩
  have hnext : s'.apool.next = s.apool.next := by rw [hp]; rfl
  have hfree : s'.apool.free = s.apool.free ++ [aid] := by rw [hp]; rfl
  constructor
  · rw [hf]; exact h.inj
  · rw [hf, hi]; exact h.back
  · intro i x hx
    rw [hi] at hx
    rw [hf]
    rcases h.int i x hx with h1 | ⟨y, k', c', hy, hk'⟩
    · exact .inl h1
    · refine .inr ⟨y, k', c', ?_, hk'⟩
      have : y ≠ t := by
        rintro rfl
        rw [hk] at hy; obtain rfl := Option.some.inj hy
        rw [hph] at hk'; simp at hk'
      rw [ht, upd_ne _ _ this]; exact hy
  · rw [hf, hc]; exact h.wf
  · intro x i g hx
    rw [hf] at hx
    rw [hnext, hfree, List.mem_append, List.mem_singleton]
    refine ⟨(h.used x i g hx).1, ?_⟩
    rintro (h1 | rfl)
    · exact (h.used x i g hx).2 h1
    · exact hal.2.2 x g hx
  · rw [hnext, hfree]
    refine ⟨?_, ?_, by rw [hp]; exact h.pool.2.2⟩
    · rw [List.nodup_append]
      refine ⟨h.pool.1, by simp, ?_⟩
      intro x hx y hy
      rw [List.mem_singleton] at hy
      rintro rfl
      exact hal.2.1 (hy ▸ hx)
    · intro i hin
      rcases List.mem_append.1 hin with h1 | h1
      · exact h.pool.2.1 i h1
      · rw [List.mem_singleton] at h1; subst h1; exact hal.1
  · intro x k' i hx hk'
    obtain ⟨hxt, hx⟩ := htlim x k' i hx hk'
    obtain ⟨h1, h2, h3⟩ := h.limbo x k' i hx hk'
    rw [hnext, hfree, hf, List.mem_append, List.mem_singleton]
    refine ⟨h1, ?_, h3⟩
    rintro (h4 | rfl)
    · exact h2 h4
    · exact hxt (h.limboU x t k' k _ hx hk hk' hlk)
  · intro x x' k1 k2 i hx hx' h1 h2
    exact h.limboU x x' k1 k2 i (htlim x k1 i hx h1).2 (htlim x' k2 i hx' h2).2 h1 h2
  · rw [hf]
    intro x i g hx he
    obtain ⟨y, k', hy, hk'⟩ := h.empty x i _ hx he
    have : y ≠ t := by
      rintro rfl
      rw [hk] at hy; obtain rfl := Option.some.inj hy
      rw [hph] at hk'; exact hk'
    exact ⟨y, k', by rw [ht, upd_ne _ _ this]; exact hy, hk'⟩
  · intro i hin
    rw [hnext] at hin
    rw [hf, hfree]
    rcases h.noLeak i hin with h3 | h3 | ⟨x, k', hx, hk'⟩
    · exact .inl (List.mem_append_left _ h3)
    · exact .inr (.inl h3)
    · by_cases hxt : x = t
      · subst hxt
        rw [hk] at hx; obtain rfl := Option.some.inj hx
        rw [hlk] at hk'
        obtain rfl := Option.some.inj hk'
        exact .inl (by simp)
      · exact .inr (.inr ⟨x, k', by rw [ht, upd_ne _ _ hxt]; exact hx, hk'⟩)

/-! ### Every step -/

theorem cont_limbo (c : Cont) : c.phase.limbo = none := by cases c <;> rfl
theorem start_limbo (op : Op) : (startPhase op).limbo = none := by
  cases op <;> simp only [startPhase]
  · split <;> rfl
  all_goals rfl

theorem addrInv_stepThread {s s' : State} (h : AddrInv s) {t : Nat} {k : Call} (hk : s.thr t = some k) {c : Choice}
    (hs : stepThread s t k c = some s') : AddrInv s' := by
  unfold stepThread at hs
  split at hs
  · -- wait
    rename_i op hph
    split at hs
    · simp at hs
    · obtain rfl := Option.some.inj hs
      exact addrInv_goto h hk rfl rfl rfl rfl rfl (by rw [hph]; rfl) (start_limbo op) (by rw [hph]; intro _ _ hc; exact hc.elim)
  · -- subLoop []
    rename_i done hph
    obtain rfl := Option.some.inj hs
    exact addrInv_goto h hk rfl rfl rfl rfl rfl (by rw [hph]; rfl) rfl (by rw [hph]; intro _ _ hc; exact hc.elim)
  · -- ensure
    rename_i a rest done hph
    unfold stepEnsure at hs
    split at hs
    · obtain rfl := Option.some.inj hs
      exact addrInv_goto h hk rfl rfl rfl rfl rfl (by rw [hph]; rfl) rfl (by rw [hph]; intro _ _ hc; exact hc.elim)
    · rename_i hn
      split at hs
      · simp at hs
      · rename_i aid p ha
        obtain rfl := Option.some.inj hs
        exact addrInv_create h hk (by rw [hph]; rfl) (by rw [hph]; intro _ _ hc; exact hc.elim) hn ha rfl rfl rfl rfl rfl
      · obtain rfl := Option.some.inj hs
        exact addrInv_goto h hk rfl rfl rfl rfl rfl (by rw [hph]; rfl) rfl (by rw [hph]; intro _ _ hc; exact hc.elim)
  · -- subRev
    rename_i a aid created rest done hph
    obtain rfl := Option.some.inj hs
    have hcr : ∀ ph' : Phase, (∀ x i, created = true → x = a ∧ i = aid → ph'.creator x i) →
        ∀ x i, k.ph.creator x i → ph'.creator x i ∨ ∀ f, s.fwd x = some (i, f) → f.isEmpty = false := by
      intro ph' hp x i hc
      rw [hph] at hc
      cases created with
      | false => exact hc.elim
      | true => exact .inl (hp x i rfl hc)
    unfold stepSubRev
    split
    · exact addrInv_goto h hk rfl rfl rfl rfl rfl (by rw [hph]; rfl) rfl (hcr _ (by rintro x i rfl hx; exact hx))
    · split
      · exact addrInv_goto h hk rfl rfl rfl rfl rfl (by rw [hph]; rfl) rfl (hcr _ (by rintro x i rfl hx; exact hx))
      · exact addrInv_goto h hk rfl rfl rfl rfl rfl (by rw [hph]; rfl) rfl (hcr _ (by rintro x i rfl hx; exact hx))
  · -- subFwd
    rename_i a aid created rest done hph
    obtain rfl := Option.some.inj hs
    have hcr : ∀ x i, k.ph.creator x i → x = a ∧ i = aid := by
      intro x i hc
      rw [hph] at hc
      cases created with
      | false => exact hc.elim
      | true => exact hc
    unfold stepSubFwd
    split
    · rename_i aid' f hf
      split
      · rename_i he
        subst he
        refine addrInv_set h hk (by rw [hph]; rfl) rfl (fun x i hc => (hcr x i hc).1) hf (FSet.wf_add (h.wf _ _ _ hf) k.cid) ?_ rfl rfl rfl rfl rfl
        rw [Bool.eq_false_iff]
        intro he
        rw [FSet.isEmpty_iff (FSet.wf_add (h.wf _ _ _ hf) k.cid)] at he
        have : k.cid ∈ (f.add s.cap k.cid).members := (FSet.mem_add (h.wf _ _ _ hf)).2 (.inr rfl)
        rw [he] at this
        simp at this
      · rename_i hne
        refine addrInv_goto h hk rfl rfl rfl rfl rfl (by rw [hph]; rfl) rfl ?_
        intro x i hc
        obtain ⟨rfl, rfl⟩ := hcr x i hc
        right
        intro f' hf'
        rw [hf] at hf'
        simp only [Option.some.injEq, Prod.mk.injEq] at hf'
        exact absurd hf'.1 hne
    · rename_i hn
      refine addrInv_goto h hk rfl rfl rfl rfl rfl (by rw [hph]; rfl) rfl ?_
      intro x i hc
      obtain ⟨rfl, rfl⟩ := hcr x i hc
      right
      intro f' hf'
      rw [hn] at hf'
      simp at hf'
  · -- atCap
    rename_i a aid created done hph
    obtain rfl := Option.some.inj hs
    have hcr : ∀ x i, k.ph.creator x i → created = true ∧ x = a ∧ i = aid := by
      intro x i hc
      rw [hph] at hc
      cases created with
      | false => exact hc.elim
      | true => exact ⟨rfl, hc⟩
    unfold stepAtCap
    split
    · rename_i aid' f hf
      split
      · rename_i he
        obtain ⟨he1, rfl, he2⟩ := he
        exact addrInv_drop h hk (by rw [hph]; rfl) (fun x i hc => (hcr x i hc).2.1) hf rfl rfl rfl rfl rfl
      · rename_i hne
        refine addrInv_goto h hk rfl rfl rfl rfl rfl (by rw [hph]; rfl) rfl ?_
        intro x i hc
        obtain ⟨h1, rfl, rfl⟩ := hcr x i hc
        right
        intro f' hf'
        rw [hf] at hf'
        simp only [Option.some.injEq, Prod.mk.injEq] at hf'
        obtain ⟨rfl, rfl⟩ := hf'
        rw [Bool.eq_false_iff]
        intro he
        exact hne ⟨h1, rfl, he⟩
    · rename_i hn
      refine addrInv_goto h hk rfl rfl rfl rfl rfl (by rw [hph]; rfl) rfl ?_
      intro x i hc
      obtain ⟨_, rfl, rfl⟩ := hcr x i hc
      right
      intro f' hf'
      rw [hn] at hf'
      simp at hf'
  · -- capEnd
    rename_i done hph
    obtain rfl := Option.some.inj hs
    exact addrInv_goto h hk rfl rfl rfl rfl rfl (by rw [hph]; rfl) rfl (by rw [hph]; intro _ _ hc; exact hc.elim)
  · -- unsubLoop []
    rename_i done hph
    obtain rfl := Option.some.inj hs
    exact addrInv_goto h hk rfl rfl rfl rfl rfl (by rw [hph]; rfl) rfl (by rw [hph]; intro _ _ hc; exact hc.elim)
  · -- unsubLoop
    rename_i a rest done hph
    split at hs
    all_goals
      obtain rfl := Option.some.inj hs
      exact addrInv_goto h hk rfl rfl rfl rfl rfl (by rw [hph]; rfl) rfl (by rw [hph]; intro _ _ hc; exact hc.elim)
  · -- unsubRev
    rename_i a aid rest done hph
    obtain rfl := Option.some.inj hs
    unfold stepUnsubRev
    split
    · exact addrInv_goto h hk rfl rfl rfl rfl rfl (by rw [hph]; rfl) rfl (by rw [hph]; intro _ _ hc; exact hc.elim)
    · split
      all_goals exact addrInv_goto h hk rfl rfl rfl rfl rfl (by rw [hph]; rfl) rfl (by rw [hph]; intro _ _ hc; exact hc.elim)
  · -- cleanup
    rename_i a co hph
    obtain rfl := Option.some.inj hs
    unfold stepCleanup
    split
    · exact addrInv_goto h hk rfl rfl rfl rfl rfl (by rw [hph]; rfl) (cont_limbo co) (by rw [hph]; intro _ _ hc; exact hc.elim)
    · rename_i aid f hf
      split
      · exact addrInv_drop h hk (by rw [hph]; rfl) (by rw [hph]; intro _ _ hc; exact hc.elim) hf rfl rfl rfl rfl rfl
      · rename_i hne
        exact addrInv_set h hk (by rw [hph]; rfl) (cont_limbo co) (by rw [hph]; intro _ _ hc; exact hc.elim) hf
          (FSet.wf_remove (h.wf _ _ _ hf) k.cid) (Bool.eq_false_iff.2 hne) rfl rfl rfl rfl rfl
  · -- rm1
    rename_i aid a co hph
    obtain rfl := Option.some.inj hs
    exact addrInv_rm1 h hk hph rfl rfl rfl rfl rfl
  · -- rm2
    rename_i aid co hph
    obtain rfl := Option.some.inj hs
    exact addrInv_rm2 h hk hph rfl rfl rfl rfl rfl
  · -- detach
    rename_i hph
    obtain rfl := Option.some.inj hs
    unfold stepDetach
    split
    · exact addrInv_goto h hk rfl rfl rfl rfl rfl (by rw [hph]; rfl) rfl (by rw [hph]; intro _ _ hc; exact hc.elim)
    · split
      all_goals exact addrInv_goto h hk rfl rfl rfl rfl rfl (by rw [hph]; rfl) rfl (by rw [hph]; intro _ _ hc; exact hc.elim)
  · -- purgeStart
    rename_i fin hph
    obtain rfl := Option.some.inj hs
    exact addrInv_goto h hk rfl rfl rfl rfl rfl (by rw [hph]; rfl) rfl (by rw [hph]; intro _ _ hc; exact hc.elim)
  · -- purge
    rename_i aids fin hph
    obtain rfl := Option.some.inj hs
    unfold stepPurge
    split
    · refine addrInv_goto h hk rfl rfl rfl rfl rfl (by rw [hph]; rfl) ?_ (by rw [hph]; intro _ _ hc; exact hc.elim)
      cases fin <;> rfl
    · split
      all_goals exact addrInv_goto h hk rfl rfl rfl rfl rfl (by rw [hph]; rfl) rfl (by rw [hph]; intro _ _ hc; exact hc.elim)
  · -- reclaim
    rename_i hph
    obtain rfl := Option.some.inj hs
    exact addrInv_goto h hk rfl rfl rfl rfl rfl (by rw [hph]; rfl) rfl (by rw [hph]; intro _ _ hc; exact hc.elim)
  all_goals
    rename_i hph
    obtain rfl := Option.some.inj hs
    refine addrInv_frame h t rfl rfl rfl rfl (fun x hx => upd_ne _ _ hx) ?_ ?_ ?_
    · intro k' hk'; rw [hk] at hk'; obtain rfl := Option.some.inj hk'; rw [hph]; rfl
    · intro k' hk'; simp [upd] at hk'
    · intro k' a i hk' hc; rw [hk] at hk'; obtain rfl := Option.some.inj hk'; rw [hph] at hc; exact hc.elim

theorem newEntry_frame {s s' : State} {u : Nat} {c : Choice} {r : Option (Nat × Nat)} (h : newEntry s u c = some (r, s')) :
    s'.fwd = s.fwd ∧ s'.int = s.int ∧ s'.apool = s.apool ∧ s'.cap = s.cap ∧ s'.thr = s.thr ∧ s'.rev = s.rev ∧ s'.locked = s.locked ∧ s'.log = s.log := by
  unfold newEntry at h
  split at h
  · simp at h
  · simp only [Option.some.injEq, Prod.mk.injEq] at h
    obtain ⟨_, rfl⟩ := h
    exact ⟨rfl, rfl, rfl, rfl, rfl, rfl, rfl, rfl⟩
  · simp only [Option.some.injEq, Prod.mk.injEq] at h
    obtain ⟨_, rfl⟩ := h
    exact ⟨rfl, rfl, rfl, rfl, rfl, rfl, rfl, rfl⟩

theorem addrInv_same {s s' : State} (h : AddrInv s) (hf : s'.fwd = s.fwd) (hi : s'.int = s.int) (hp : s'.apool = s.apool)
    (hc : s'.cap = s.cap) (ht : s'.thr = s.thr) : AddrInv s' := by
  constructor
  · rw [hf]; exact h.inj
  · rw [hf, hi]; exact h.back
  · rw [hf, hi, ht]; exact h.int
  · rw [hf, hc]; exact h.wf
  · rw [hf, hp]; exact h.used
  · rw [hp]; exact h.pool
  · rw [ht, hp, hf]; exact h.limbo
  · rw [ht]; exact h.limboU
  · rw [hf, ht]; exact h.empty
  · rw [hp, hf, ht]; exact h.noLeak

/-- What a call's beginning changes. -/
theorem begin_cases {s s' : State} {t u : Nat} {op : Op} {c : Choice} (h : begin s t u op c = some s') :
    s' = s ∨ (∃ id lk, s.reg u = some (id, lk) ∧ s' = { s with thr := upd s.thr t (some ⟨u, id, lk, op, .wait op⟩) }) ∨
    (∃ s1, s.reg u = none ∧ newEntry s u c = some (none, s1) ∧ s' = s1) ∨
    ∃ s1 id lk, s.reg u = none ∧ newEntry s u c = some (some (id, lk), s1) ∧
      s' = { s1 with thr := upd s1.thr t (some ⟨u, id, lk, op, .wait op⟩) } := by
  unfold begin at h
  split at h
  · rename_i id lk hr
    obtain rfl := Option.some.inj h
    exact .inr (.inl ⟨id, lk, hr, rfl⟩)
  · rename_i hr
    split at h
    · split at h
      · simp at h
      · rename_i id lk s1 hn
        obtain rfl := Option.some.inj h
        exact .inr (.inr (.inr ⟨s1, id, lk, hr, hn, rfl⟩))
      · rename_i s1 hn
        obtain rfl := Option.some.inj h
        exact .inr (.inr (.inl ⟨_, hr, hn, rfl⟩))
    · obtain rfl := Option.some.inj h
      exact .inl rfl

theorem addrInv_begin {s s' : State} (h : AddrInv s) {t u : Nat} {op : Op} {c : Choice} (hn : s.thr t = none)
    (hs : begin s t u op c = some s') : AddrInv s' := by
  have key : ∀ s1 : State, AddrInv s1 → s1.thr t = none → ∀ k : Call, k.ph = .wait k.op →
      AddrInv { s1 with thr := upd s1.thr t (some k) } := by
    intro s1 h1 hn1 k hk
    refine addrInv_frame h1 t rfl rfl rfl rfl (fun x hx => upd_ne _ _ hx) ?_ ?_ ?_
    · intro k' hk'; rw [hn1] at hk'; simp at hk'
    · intro k' hk'
      simp only [upd_same] at hk'
      obtain rfl := Option.some.inj hk'
      rw [hk]; rfl
    · intro k' a i hk'; rw [hn1] at hk'; simp at hk'
  rcases begin_cases hs with rfl | ⟨id, lk, _, rfl⟩ | ⟨s1, _, h1, rfl⟩ | ⟨s1, id, lk, _, h1, rfl⟩
  · exact h
  · exact key s h hn _ rfl
  · obtain ⟨e1, e2, e3, e4, e5, _⟩ := newEntry_frame h1
    exact addrInv_same h e1 e2 e3 e4 e5
  · obtain ⟨e1, e2, e3, e4, e5, _⟩ := newEntry_frame h1
    exact key s1 (addrInv_same h e1 e2 e3 e4 e5) (by rw [e5]; exact hn) _ rfl

theorem addrInv_step {s s' : State} (h : AddrInv s) {e : Ev} (hs : step s e = some s') : AddrInv s' := by
  cases e with
  | register u c =>
    simp only [step] at hs
    split at hs
    · obtain rfl := Option.some.inj hs; exact h
    · rw [Option.map_eq_some_iff] at hs
      obtain ⟨⟨r, s1⟩, h1, rfl⟩ := hs
      obtain ⟨e1, e2, e3, e4, e5, _⟩ := newEntry_frame h1
      exact addrInv_same h e1 e2 e3 e4 e5
  | start t u op c =>
    simp only [step] at hs
    split at hs
    · simp at hs
    · rename_i hn
      exact addrInv_begin h hn hs
  | go t c =>
    simp only [step] at hs
    split at hs
    · simp at hs
    · rename_i k hk
      exact addrInv_stepThread h hk hs

end Tycho.Subs
