import Verif.Subs.AddrInv

/-! The registry of clients, their mutexes and ids, in executions in which no call locks the mutex of a removed client. -/
namespace Tycho.Subs

/-- What a phase says of the client entry: waiting for the mutex; working with a registered client; `detach` before its check;
working with a client that is no more registered; the end of a removal. -/
inductive Cls
  | wait | active | pre | gone | leave
  deriving DecidableEq

def Cont.cls : Cont → Cls
  | .purge _ true => .gone
  | _ => .active

def Phase.cls : Phase → Cls
  | .wait _ => .wait
  | .detach => .pre
  | .leave => .leave
  | .reclaim => .gone
  | .purgeStart true => .gone
  | .purge _ true => .gone
  | .cleanup _ c => c.cls
  | .rm1 _ _ c => c.cls
  | .rm2 _ c => c.cls
  | _ => .active

/-- A call locks the mutex of a client that is still registered (a removal may find it gone). -/
def Fresh (s : State) : Ev → Prop
  | .go t _ => ∀ k op, s.thr t = some k → k.ph = .wait op → op ≠ .remove → s.reg k.uuid = some (k.cid, k.lk)
  | _ => True

structure RegInv (s : State) : Prop where
  regU : ∀ u u' c c' l l', s.reg u = some (c, l) → s.reg u' = some (c', l') → c = c' ∨ l = l' → u = u'
  regB : ∀ u c l, s.reg u = some (c, l) → l < s.nextLk ∧ c < s.cpool.next ∧ c ∉ s.cpool.free
  pool : s.cpool.free.Nodup ∧ (∀ i ∈ s.cpool.free, i < s.cpool.next) ∧ s.cpool.next ≤ s.cpool.max
  callLk : ∀ t k, s.thr t = some k → k.lk < s.nextLk
  callReg : ∀ t k u c, s.thr t = some k → s.reg u = some (c, k.lk) → u = k.uuid ∧ c = k.cid
  held : ∀ t k, s.thr t = some k → k.ph.cls ≠ .wait → s.locked k.lk = true
  lkU : ∀ t t' k k', s.thr t = some k → s.thr t' = some k' → k.ph.cls ≠ .wait → k'.ph.cls ≠ .wait → k.lk = k'.lk → t = t'
  cur : ∀ t k, s.thr t = some k → k.ph.cls = .active → s.reg k.uuid = some (k.cid, k.lk)
  det : ∀ t k, s.thr t = some k → k.ph.cls = .gone → k.cid < s.cpool.next ∧ k.cid ∉ s.cpool.free ∧ ∀ u l, s.reg u ≠ some (k.cid, l)
  detU : ∀ t t' k k', s.thr t = some k → s.thr t' = some k' → k.ph.cls = .gone → k'.ph.cls = .gone → k.cid = k'.cid → t = t'
  noLeak : ∀ c, c < s.cpool.next → c ∈ s.cpool.free ∨ (∃ u l, s.reg u = some (c, l)) ∨ ∃ t k, s.thr t = some k ∧ k.ph.cls = .gone ∧ k.cid = c

theorem regInv_new (cap ma mc : Nat) : RegInv (State.new cap ma mc) := by
  constructor <;> simp [State.new]

/-- A step that leaves the class of the phase and the registry as they are. -/
theorem regInv_frame {s s' : State} (h : RegInv s) {t : Nat} {k : Call} (hk : s.thr t = some k) {ph : Phase}
    (hc : ph.cls = k.ph.cls) (ht : s'.thr = upd s.thr t (some { k with ph := ph })) (h1 : s'.reg = s.reg) (h2 : s'.cpool = s.cpool)
    (h3 : s'.nextLk = s.nextLk) (h4 : s'.locked = s.locked) : RegInv s' := by
  have hto : ∀ x k', s'.thr x = some k' → ∃ k0, s.thr x = some k0 ∧ k0.ph.cls = k'.ph.cls ∧ k0.uuid = k'.uuid ∧ k0.cid = k'.cid ∧ k0.lk = k'.lk := by
    intro x k' hx
    rw [ht] at hx
    by_cases hxt : x = t
    · subst hxt; rw [upd_same] at hx; obtain rfl := Option.some.inj hx
      exact ⟨k, hk, hc.symm, rfl, rfl, rfl⟩
    · rw [upd_ne _ _ hxt] at hx; exact ⟨k', hx, rfl, rfl, rfl, rfl⟩
  have hfrom : ∀ x k0, s.thr x = some k0 → ∃ k', s'.thr x = some k' ∧ k0.ph.cls = k'.ph.cls ∧ k0.cid = k'.cid := by
    intro x k0 hx
    by_cases hxt : x = t
    · subst hxt; rw [hk] at hx; obtain rfl := Option.some.inj hx
      exact ⟨{ k with ph := ph }, by rw [ht]; exact upd_same .., hc.symm, rfl⟩
    · exact ⟨k0, by rw [ht, upd_ne _ _ hxt]; exact hx, rfl, rfl⟩
  constructor
  · rw [h1]; exact h.regU
  · rw [h1, h2, h3]; exact h.regB
  · rw [h2]; exact h.pool
  · intro x k' hx
    obtain ⟨k0, e1, e2, e3, e4, e5⟩ := hto x k' hx
    rw [h3, ← e5]; exact h.callLk x k0 e1
  · intro x k' u c hx hr
    obtain ⟨k0, e1, e2, e3, e4, e5⟩ := hto x k' hx
    rw [h1, ← e5] at hr
    rw [← e3, ← e4]; exact h.callReg x k0 u c e1 hr
  · intro x k' hx hw
    obtain ⟨k0, e1, e2, e3, e4, e5⟩ := hto x k' hx
    rw [h4, ← e5]; exact h.held x k0 e1 (by rw [e2]; exact hw)
  · intro x y k1 k2 hx hy w1 w2 he
    obtain ⟨k0, e1, e2, e3, e4, e5⟩ := hto x k1 hx
    obtain ⟨k0', f1, f2, f3, f4, f5⟩ := hto y k2 hy
    exact h.lkU x y k0 k0' e1 f1 (by rw [e2]; exact w1) (by rw [f2]; exact w2) (by rw [e5, f5]; exact he)
  · intro x k' hx ha
    obtain ⟨k0, e1, e2, e3, e4, e5⟩ := hto x k' hx
    rw [h1, ← e3, ← e4, ← e5]; exact h.cur x k0 e1 (by rw [e2]; exact ha)
  · intro x k' hx ha
    obtain ⟨k0, e1, e2, e3, e4, e5⟩ := hto x k' hx
    rw [h1, h2, ← e4]; exact h.det x k0 e1 (by rw [e2]; exact ha)
  · intro x y k1 k2 hx hy w1 w2 he
    obtain ⟨k0, e1, e2, e3, e4, e5⟩ := hto x k1 hx
    obtain ⟨k0', f1, f2, f3, f4, f5⟩ := hto y k2 hy
    exact h.detU x y k0 k0' e1 f1 (by rw [e2]; exact w1) (by rw [f2]; exact w2) (by rw [e4, f4]; exact he)
  · intro c hcn
    rw [h2] at hcn ⊢
    rw [h1]
    rcases h.noLeak c hcn with h5 | h5 | ⟨x, k0, e1, e2, e3⟩
    · exact .inl h5
    · exact .inr (.inl h5)
    · obtain ⟨k', f1, f2, f3⟩ := hfrom x k0 e1
      exact .inr (.inr ⟨x, k', f1, by rw [← f2]; exact e2, by rw [← f3]; exact e3⟩)

theorem thr_upd {f : Nat → Option Call} {t x : Nat} {k k' : Call} (h : upd f t (some k) x = some k') :
    (x = t ∧ k' = k) ∨ (x ≠ t ∧ f x = some k') := by
  by_cases hx : x = t
  · subst hx; rw [upd_same] at h; exact .inl ⟨rfl, (Option.some.inj h).symm⟩
  · rw [upd_ne _ _ hx] at h; exact .inr ⟨hx, h⟩

/-- The mutex is taken. -/
theorem regInv_acquire {s s' : State} (h : RegInv s) {t : Nat} {k : Call} (hk : s.thr t = some k) (hw : k.ph.cls = .wait) {ph : Phase}
    (hfree : s.locked k.lk = false) (hc : ph.cls = .pre ∨ (ph.cls = .active ∧ s.reg k.uuid = some (k.cid, k.lk)))
    (ht : s'.thr = upd s.thr t (some { k with ph := ph })) (h1 : s'.reg = s.reg) (h2 : s'.cpool = s.cpool)
    (h3 : s'.nextLk = s.nextLk) (h4 : s'.locked = upd s.locked k.lk true) : RegInv s' := by
  have hlk : ∀ x k', s.thr x = some k' → k'.ph.cls ≠ .wait → k'.lk ≠ k.lk := by
    intro x k' hx hw' he
    have := h.held x k' hx hw'
    rw [he, hfree] at this
    simp at this
  have hng : ph.cls ≠ .gone := by rcases hc with hc | ⟨hc, _⟩ <;> rw [hc] <;> simp
  constructor
  · rw [h1]; exact h.regU
  · rw [h1, h2, h3]; exact h.regB
  · rw [h2]; exact h.pool
  · intro x k' hx
    rw [ht] at hx
    rw [h3]
    rcases thr_upd hx with ⟨rfl, rfl⟩ | ⟨_, hx⟩
    · exact h.callLk x k hk
    · exact h.callLk x k' hx
  · intro x k' u c hx hr
    rw [ht] at hx
    rw [h1] at hr
    rcases thr_upd hx with ⟨rfl, rfl⟩ | ⟨_, hx⟩
    · exact h.callReg x k u c hk hr
    · exact h.callReg x k' u c hx hr
  · intro x k' hx hw'
    rw [ht] at hx
    rw [h4]
    rcases thr_upd hx with ⟨rfl, rfl⟩ | ⟨_, hx⟩
    · exact upd_same ..
    · rw [upd_ne _ _ (hlk x k' hx hw')]; exact h.held x k' hx hw'
  · intro x y k1 k2 hx hy w1 w2 he
    rw [ht] at hx hy
    rcases thr_upd hx with ⟨rfl, rfl⟩ | ⟨_, hx⟩
    · rcases thr_upd hy with ⟨rfl, rfl⟩ | ⟨_, hy⟩
      · rfl
      · exact absurd he.symm (hlk y k2 hy w2)
    · rcases thr_upd hy with ⟨rfl, rfl⟩ | ⟨_, hy⟩
      · exact absurd he (hlk x k1 ‹s.thr x = some k1› w1)
      · exact h.lkU x y k1 k2 hx hy w1 w2 he
  · intro x k' hx ha
    rw [ht] at hx
    rw [h1]
    rcases thr_upd hx with ⟨rfl, rfl⟩ | ⟨_, hx⟩
    · rcases hc with hc | ⟨_, hc⟩
      · have ha' : ph.cls = .active := ha
        rw [hc] at ha'; simp at ha'
      · exact hc
    · exact h.cur x k' hx ha
  · intro x k' hx ha
    rw [ht] at hx
    rw [h1, h2]
    rcases thr_upd hx with ⟨rfl, rfl⟩ | ⟨_, hx⟩
    · exact absurd ha hng
    · exact h.det x k' hx ha
  · intro x y k1 k2 hx hy w1 w2 he
    rw [ht] at hx hy
    rcases thr_upd hx with ⟨rfl, rfl⟩ | ⟨_, hx⟩
    · exact absurd w1 hng
    · rcases thr_upd hy with ⟨rfl, rfl⟩ | ⟨_, hy⟩
      · exact absurd w2 hng
      · exact h.detU x y k1 k2 hx hy w1 w2 he
  · intro c hcn
    rw [h2] at hcn ⊢
    rw [h1]
    rcases h.noLeak c hcn with h5 | h5 | ⟨x, k0, e1, e2, e3⟩
    · exact .inl h5
    · exact .inr (.inl h5)
    · have : x ≠ t := by rintro rfl; rw [hk] at e1; obtain rfl := Option.some.inj e1; rw [hw] at e2; simp at e2
      exact .inr (.inr ⟨x, k0, by rw [ht, upd_ne _ _ this]; exact e1, e2, e3⟩)

/-- The holder of a client's mutex is the only one that works for the client. -/
theorem busy_unique {s : State} (h : RegInv s) {t t' : Nat} {k k' : Call} (hk : s.thr t = some k) (hk' : s.thr t' = some k')
    (hb : k.ph.cls = .active ∨ k.ph.cls = .gone) (hb' : k'.ph.cls = .active ∨ k'.ph.cls = .gone) (hc : k.cid = k'.cid) : t = t' := by
  rcases hb with hb | hb
  · have h1 := h.cur t k hk hb
    rcases hb' with hb' | hb'
    · have h2 := h.cur t' k' hk' hb'
      have hu := h.regU _ _ _ _ _ _ h1 h2 (.inl hc)
      rw [hu, h2] at h1
      simp only [Option.some.injEq, Prod.mk.injEq] at h1
      exact h.lkU t t' k k' hk hk' (by rw [hb]; simp) (by rw [hb']; simp) h1.2.symm
    · exact absurd (hc ▸ h1) ((h.det t' k' hk' hb').2.2 _ _)
  · rcases hb' with hb' | hb'
    · have h2 := h.cur t' k' hk' hb'
      exact absurd (hc ▸ h2) ((h.det t k hk hb).2.2 _ _)
    · exact h.detU t t' k k' hk hk' hb hb' hc

/-- A thread that holds the mutex of a registered client and does not work for it yet: nobody else works for it. -/
theorem holder_alone {s : State} (h : RegInv s) {t : Nat} {k : Call} (hk : s.thr t = some k) (hw : k.ph.cls ≠ .wait)
    (hr : s.reg k.uuid = some (k.cid, k.lk)) {t' : Nat} {k' : Call} (hk' : s.thr t' = some k')
    (hb' : k'.ph.cls = .active ∨ k'.ph.cls = .gone) (hc : k'.cid = k.cid) : t' = t := by
  rcases hb' with hb' | hb'
  · have h2 := h.cur t' k' hk' hb'
    have hu := h.regU _ _ _ _ _ _ hr h2 (.inl hc.symm)
    rw [← hu, hr] at h2
    simp only [Option.some.injEq, Prod.mk.injEq] at h2
    exact h.lkU t' t k' k hk' hk (by rw [hb']; simp) hw h2.2.symm
  · exact absurd (hc ▸ hr) ((h.det t' k' hk' hb').2.2 _ _)

/-- Nobody works for a client whose mutex is free. -/
theorem free_alone {s : State} (h : RegInv s) {u c l : Nat} (hr : s.reg u = some (c, l)) (hf : s.locked l = false)
    {t' : Nat} {k' : Call} (hk' : s.thr t' = some k') (hb' : k'.ph.cls = .active ∨ k'.ph.cls = .gone) : k'.cid ≠ c := by
  intro hc
  rcases hb' with hb' | hb'
  · have h2 := h.cur t' k' hk' hb'
    have hu := h.regU _ _ _ _ _ _ hr h2 (.inl hc.symm)
    rw [← hu, hr] at h2
    simp only [Option.some.injEq, Prod.mk.injEq] at h2
    have := h.held t' k' hk' (by rw [hb']; simp)
    rw [← h2.2, hf] at this
    simp at this
  · exact absurd (hc ▸ hr) ((h.det t' k' hk' hb').2.2 _ _)

/-- The entry is detached. -/
theorem regInv_detach {s s' : State} (h : RegInv s) {t : Nat} {k : Call} (hk : s.thr t = some k) (hph : k.ph = .detach)
    (hr : s.reg k.uuid = some (k.cid, k.lk))
    (ht : s'.thr = upd s.thr t (some { k with ph := .purgeStart true })) (h1 : s'.reg = upd s.reg k.uuid none) (h2 : s'.cpool = s.cpool)
    (h3 : s'.nextLk = s.nextLk) (h4 : s'.locked = s.locked) : RegInv s' := by
  have hro : ∀ u c l, s'.reg u = some (c, l) → u ≠ k.uuid ∧ s.reg u = some (c, l) := by
    intro u c l hu
    rw [h1] at hu
    by_cases hx : u = k.uuid
    · rw [hx, upd_same] at hu; simp at hu
    · rw [upd_ne _ _ hx] at hu; exact ⟨hx, hu⟩
  have hlku : ∀ x k', s.thr x = some k' → x ≠ t → k'.ph.cls ≠ .wait → k'.lk ≠ k.lk :=
    fun x k' hx hne hw he => hne (h.lkU x t k' k hx hk hw (by rw [hph]; simp [Phase.cls]) he)
  constructor
  · intro u u' c c' l l' hu hu' he
    exact h.regU u u' c c' l l' (hro _ _ _ hu).2 (hro _ _ _ hu').2 he
  · intro u c l hu
    rw [h2, h3]; exact h.regB u c l (hro _ _ _ hu).2
  · rw [h2]; exact h.pool
  · intro x k' hx
    rw [ht] at hx
    rw [h3]
    rcases thr_upd hx with ⟨rfl, rfl⟩ | ⟨_, hx⟩
    · exact h.callLk x k hk
    · exact h.callLk x k' hx
  · intro x k' u c hx hu
    rw [ht] at hx
    rcases thr_upd hx with ⟨rfl, rfl⟩ | ⟨_, hx⟩
    · exact h.callReg x k u c hk (hro _ _ _ hu).2
    · exact h.callReg x k' u c hx (hro _ _ _ hu).2
  · intro x k' hx hw'
    rw [ht] at hx
    rw [h4]
    rcases thr_upd hx with ⟨rfl, rfl⟩ | ⟨_, hx⟩
    · exact h.held x k hk (by rw [hph]; simp [Phase.cls])
    · exact h.held x k' hx hw'
  · intro x y k1 k2 hx hy w1 w2 he
    rw [ht] at hx hy
    rcases thr_upd hx with ⟨rfl, rfl⟩ | ⟨hxt, hx⟩
    · rcases thr_upd hy with ⟨rfl, rfl⟩ | ⟨hyt, hy⟩
      · rfl
      · exact absurd he.symm (hlku y k2 hy hyt w2)
    · rcases thr_upd hy with ⟨rfl, rfl⟩ | ⟨_, hy⟩
      · exact absurd he (hlku x k1 ‹s.thr x = some k1› hxt w1)
      · exact h.lkU x y k1 k2 hx hy w1 w2 he
  · intro x k' hx ha
    rw [ht] at hx
    rcases thr_upd hx with ⟨rfl, rfl⟩ | ⟨hxt, hx⟩
    · simp [Phase.cls] at ha
    · have hcur := h.cur x k' hx ha
      rw [h1, upd_ne]
      · exact hcur
      · intro he
        rw [he, hr] at hcur
        simp only [Option.some.injEq, Prod.mk.injEq] at hcur
        exact hlku x k' hx hxt (by rw [ha]; simp) hcur.2.symm
  · intro x k' hx ha
    rw [ht] at hx
    rw [h2]
    rcases thr_upd hx with ⟨rfl, rfl⟩ | ⟨_, hx⟩
    · obtain ⟨_, e2, e3⟩ := h.regB _ _ _ hr
      refine ⟨e2, e3, ?_⟩
      intro u l hu
      obtain ⟨hne, hu⟩ := hro _ _ _ hu
      exact hne (h.regU _ _ _ _ _ _ hu hr (.inl rfl))
    · obtain ⟨e1, e2, e3⟩ := h.det x k' hx ha
      exact ⟨e1, e2, fun u l hu => e3 u l (hro _ _ _ hu).2⟩
  · intro x y k1 k2 hx hy w1 w2 he
    rw [ht] at hx hy
    rcases thr_upd hx with ⟨rfl, rfl⟩ | ⟨_, hx⟩
    · rcases thr_upd hy with ⟨rfl, rfl⟩ | ⟨_, hy⟩
      · rfl
      · exact absurd (show s.reg k.uuid = some (k2.cid, k.lk) by rw [← he]; exact hr) ((h.det y k2 hy w2).2.2 _ _)
    · rcases thr_upd hy with ⟨rfl, rfl⟩ | ⟨_, hy⟩
      · exact absurd (show s.reg k.uuid = some (k1.cid, k.lk) by rw [he]; exact hr) ((h.det x k1 ‹s.thr x = some k1› w1).2.2 _ _)
      · exact h.detU x y k1 k2 hx hy w1 w2 he
  · intro c hcn
    rw [h2] at hcn ⊢
    rcases h.noLeak c hcn with h5 | ⟨u, l, hu⟩ | ⟨x, k0, e1, e2, e3⟩
    · exact .inl h5
    · by_cases hx : u = k.uuid
      · rw [hx, hr] at hu
        simp only [Option.some.injEq, Prod.mk.injEq] at hu
        exact .inr (.inr ⟨t, { k with ph := .purgeStart true }, by rw [ht]; exact upd_same .., rfl, hu.1⟩)
      · exact .inr (.inl ⟨u, l, by rw [h1, upd_ne _ _ hx]; exact hu⟩)
    · have : x ≠ t := by rintro rfl; rw [hk] at e1; obtain rfl := Option.some.inj e1; rw [hph] at e2; simp [Phase.cls] at e2
      exact .inr (.inr ⟨x, k0, by rw [ht, upd_ne _ _ this]; exact e1, e2, e3⟩)

/-- The end of a removal, without or with giving back the id. -/
theorem regInv_leave {s s' : State} (h : RegInv s) {t : Nat} {k : Call} (hk : s.thr t = some k)
    (hp : (k.ph = .detach ∧ s'.cpool = s.cpool) ∨ (k.ph = .reclaim ∧ s'.cpool = s.cpool.release k.cid))
    (ht : s'.thr = upd s.thr t (some { k with ph := .leave })) (h1 : s'.reg = s.reg)
    (h3 : s'.nextLk = s.nextLk) (h4 : s'.locked = s.locked) : RegInv s' := by
  have hw : k.ph.cls ≠ .wait := by rcases hp with ⟨hp, _⟩ | ⟨hp, _⟩ <;> rw [hp] <;> simp [Phase.cls]
  have hlku : ∀ x k', s.thr x = some k' → x ≠ t → k'.ph.cls ≠ .wait → k'.lk ≠ k.lk :=
    fun x k' hx hne hw' he => hne (h.lkU x t k' k hx hk hw' hw he)
  have hnext : s'.cpool.next = s.cpool.next ∧ s'.cpool.max = s.cpool.max := by
    rcases hp with ⟨_, hp⟩ | ⟨_, hp⟩ <;> rw [hp] <;> exact ⟨rfl, rfl⟩
  have hfree : ∀ c, c ∈ s'.cpool.free → c ∈ s.cpool.free ∨ (k.ph = .reclaim ∧ c = k.cid) := by
    intro c hc
    rcases hp with ⟨_, hp⟩ | ⟨hph, hp⟩
    · rw [hp] at hc; exact .inl hc
    · rw [hp] at hc
      rcases List.mem_append.1 hc with hc | hc
      · exact .inl hc
      · exact .inr ⟨hph, by simpa using hc⟩
  have hgone : k.ph = .reclaim → k.ph.cls = .gone := fun e => by rw [e]; rfl
  constructor
  · rw [h1]; exact h.regU
  · intro u c l hu
    rw [h1] at hu
    obtain ⟨e1, e2, e3⟩ := h.regB u c l hu
    rw [h3, hnext.1]
    refine ⟨e1, e2, ?_⟩
    intro hc
    rcases hfree c hc with hc | ⟨hph, rfl⟩
    · exact e3 hc
    · exact (h.det t k hk (hgone hph)).2.2 u l hu
  · rw [hnext.1, hnext.2]
    refine ⟨?_, ?_, h.pool.2.2⟩
    · rcases hp with ⟨_, hp⟩ | ⟨hph, hp⟩
      · rw [hp]; exact h.pool.1
      · rw [hp]
        show (s.cpool.free ++ [k.cid]).Nodup
        rw [List.nodup_append]
        refine ⟨h.pool.1, by simp, ?_⟩
        intro x hx y hy
        rw [List.mem_singleton] at hy
        rintro rfl
        exact (h.det t k hk (hgone hph)).2.1 (hy ▸ hx)
    · intro i hi
      rcases hfree i hi with hi | ⟨hph, rfl⟩
      · exact h.pool.2.1 i hi
      · exact (h.det t k hk (hgone hph)).1
  · intro x k' hx
    rw [ht] at hx
    rw [h3]
    rcases thr_upd hx with ⟨rfl, rfl⟩ | ⟨_, hx⟩
    · exact h.callLk x k hk
    · exact h.callLk x k' hx
  · intro x k' u c hx hu
    rw [ht] at hx
    rw [h1] at hu
    rcases thr_upd hx with ⟨rfl, rfl⟩ | ⟨_, hx⟩
    · exact h.callReg x k u c hk hu
    · exact h.callReg x k' u c hx hu
  · intro x k' hx hw'
    rw [ht] at hx
    rw [h4]
    rcases thr_upd hx with ⟨rfl, rfl⟩ | ⟨_, hx⟩
    · exact h.held x k hk hw
    · exact h.held x k' hx hw'
  · intro x y k1 k2 hx hy w1 w2 he
    rw [ht] at hx hy
    rcases thr_upd hx with ⟨rfl, rfl⟩ | ⟨hxt, hx⟩
    · rcases thr_upd hy with ⟨rfl, rfl⟩ | ⟨hyt, hy⟩
      · rfl
      · exact absurd he.symm (hlku y k2 hy hyt w2)
    · rcases thr_upd hy with ⟨rfl, rfl⟩ | ⟨_, hy⟩
      · exact absurd he (hlku x k1 ‹s.thr x = some k1› hxt w1)
      · exact h.lkU x y k1 k2 hx hy w1 w2 he
  · intro x k' hx ha
    rw [ht] at hx
    rw [h1]
    rcases thr_upd hx with ⟨rfl, rfl⟩ | ⟨hxt, hx⟩
    · simp [Phase.cls] at ha
    · exact h.cur x k' hx ha
  · intro x k' hx ha
    rw [ht] at hx
    rw [h1, hnext.1]
    rcases thr_upd hx with ⟨rfl, rfl⟩ | ⟨hxt, hx⟩
    · simp [Phase.cls] at ha
    · obtain ⟨e1, e2, e3⟩ := h.det x k' hx ha
      refine ⟨e1, ?_, e3⟩
      intro hc
      rcases hfree _ hc with hc | ⟨hph, he⟩
      · exact e2 hc
      · exact hxt (h.detU x t k' k hx hk ha (hgone hph) he)
  · intro x y k1 k2 hx hy w1 w2 he
    rw [ht] at hx hy
    rcases thr_upd hx with ⟨rfl, rfl⟩ | ⟨_, hx⟩
    · simp [Phase.cls] at w1
    · rcases thr_upd hy with ⟨rfl, rfl⟩ | ⟨_, hy⟩
      · simp [Phase.cls] at w2
      · exact h.detU x y k1 k2 hx hy w1 w2 he
  · intro c hcn
    rw [hnext.1] at hcn
    rw [h1]
    have hmono : ∀ c, c ∈ s.cpool.free → c ∈ s'.cpool.free := by
      intro c hc
      rcases hp with ⟨_, hp⟩ | ⟨_, hp⟩ <;> rw [hp]
      · exact hc
      · exact List.mem_append_left _ hc
    rcases h.noLeak c hcn with h5 | h5 | ⟨x, k0, e1, e2, e3⟩
    · exact .inl (hmono c h5)
    · exact .inr (.inl h5)
    · by_cases hx : x = t
      · subst hx
        rw [hk] at e1; obtain rfl := Option.some.inj e1
        rcases hp with ⟨hph, _⟩ | ⟨hph, hp⟩
        · rw [hph] at e2; simp [Phase.cls] at e2
        · left
          rw [hp, ← e3]
          exact List.mem_append_right _ (by simp)
      · exact .inr (.inr ⟨x, k0, by rw [ht, upd_ne _ _ hx]; exact e1, e2, e3⟩)

/-- The mutex is released. -/
theorem regInv_release {s s' : State} (h : RegInv s) {t : Nat} {k : Call} (hk : s.thr t = some k)
    (hw : k.ph.cls ≠ .wait) (hg : k.ph.cls ≠ .gone)
    (ht : s'.thr = upd s.thr t none) (h1 : s'.reg = s.reg) (h2 : s'.cpool = s.cpool)
    (h3 : s'.nextLk = s.nextLk) (h4 : s'.locked = upd s.locked k.lk false) : RegInv s' := by
  have hto : ∀ x k', s'.thr x = some k' → x ≠ t ∧ s.thr x = some k' := by
    intro x k' hx
    rw [ht] at hx
    by_cases hxt : x = t
    · subst hxt; rw [upd_same] at hx; simp at hx
    · rw [upd_ne _ _ hxt] at hx; exact ⟨hxt, hx⟩
  constructor
  · rw [h1]; exact h.regU
  · rw [h1, h2, h3]; exact h.regB
  · rw [h2]; exact h.pool
  · intro x k' hx
    rw [h3]; exact h.callLk x k' (hto x k' hx).2
  · intro x k' u c hx
    rw [h1]; exact h.callReg x k' u c (hto x k' hx).2
  · intro x k' hx hw'
    obtain ⟨hxt, hx⟩ := hto x k' hx
    rw [h4, upd_ne]
    · exact h.held x k' hx hw'
    · exact fun he => hxt (h.lkU x t k' k hx hk hw' hw he)
  · intro x y k1 k2 hx hy
    exact h.lkU x y k1 k2 (hto x k1 hx).2 (hto y k2 hy).2
  · intro x k' hx
    rw [h1]; exact h.cur x k' (hto x k' hx).2
  · intro x k' hx
    rw [h1, h2]; exact h.det x k' (hto x k' hx).2
  · intro x y k1 k2 hx hy
    exact h.detU x y k1 k2 (hto x k1 hx).2 (hto y k2 hy).2
  · intro c hcn
    rw [h2] at hcn ⊢
    rw [h1]
    rcases h.noLeak c hcn with h5 | h5 | ⟨x, k0, e1, e2, e3⟩
    · exact .inl h5
    · exact .inr (.inl h5)
    · have : x ≠ t := by rintro rfl; rw [hk] at e1; obtain rfl := Option.some.inj e1; exact hg e2
      exact .inr (.inr ⟨x, k0, by rw [ht, upd_ne _ _ this]; exact e1, e2, e3⟩)

theorem newEntry_cases {s s' : State} {u : Nat} {c : Choice} {r : Option (Nat × Nat)} (h : newEntry s u c = some (r, s')) :
    (r = none ∧ s' = s) ∨ ∃ id p, s.cpool.alloc c = some (some id, p) ∧ r = some (id, s.nextLk) ∧
      s' = { s with cpool := p, reg := upd s.reg u (some (id, s.nextLk)), nextLk := s.nextLk + 1 } := by
  unfold newEntry at h
  split at h
  · simp at h
  · rename_i id p ha
    simp only [Option.some.injEq, Prod.mk.injEq] at h
    exact .inr ⟨id, p, ha, h.1.symm, h.2.symm⟩
  · simp only [Option.some.injEq, Prod.mk.injEq] at h
    exact .inl ⟨h.1.symm, h.2.symm⟩

/-- A client is registered. -/
theorem regInv_newEntry {s s' : State} (h : RegInv s) {u : Nat} {c : Choice} {r : Option (Nat × Nat)} (hn : s.reg u = none)
    (he : newEntry s u c = some (r, s')) : RegInv s' := by
  rcases newEntry_cases he with ⟨_, rfl⟩ | ⟨id, p, ha, _, rfl⟩
  · exact h
  · obtain ⟨hpool, hlt, hnf, hold, hnew, _, hsub⟩ := alloc_spec ha h.pool
    have hro : ∀ u' c l, upd s.reg u (some (id, s.nextLk)) u' = some (c, l) →
        (u' = u ∧ c = id ∧ l = s.nextLk) ∨ (u' ≠ u ∧ s.reg u' = some (c, l)) := by
      intro u' c l hu
      by_cases hx : u' = u
      · subst hx
        rw [upd_same] at hu
        simp only [Option.some.injEq, Prod.mk.injEq] at hu
        exact .inl ⟨rfl, hu.1.symm, hu.2.symm⟩
      · rw [upd_ne _ _ hx] at hu; exact .inr ⟨hx, hu⟩
    have hneid : ∀ u' c l, s.reg u' = some (c, l) → c ≠ id ∧ l ≠ s.nextLk := by
      intro u' c l hu
      obtain ⟨e1, e2, e3⟩ := h.regB u' c l hu
      exact ⟨(hold c e2 e3).2.2, by omega⟩
    constructor
    · intro u1 u2 c1 c2 l1 l2 hu1 hu2 hcl
      rcases hro _ _ _ hu1 with ⟨rfl, rfl, rfl⟩ | ⟨_, hu1⟩
      · rcases hro _ _ _ hu2 with ⟨rfl, rfl, rfl⟩ | ⟨_, hu2⟩
        · rfl
        · have := hneid _ _ _ hu2
          rcases hcl with hcl | hcl
          · exact absurd hcl.symm this.1
          · exact absurd hcl.symm this.2
      · rcases hro _ _ _ hu2 with ⟨rfl, rfl, rfl⟩ | ⟨_, hu2⟩
        · have := hneid _ _ _ ‹s.reg u1 = some (c1, l1)›
          rcases hcl with hcl | hcl
          · exact absurd hcl this.1
          · exact absurd hcl this.2
        · exact h.regU _ _ _ _ _ _ hu1 hu2 hcl
    · intro u' c' l hu
      rcases hro _ _ _ hu with ⟨rfl, rfl, rfl⟩ | ⟨_, hu⟩
      · exact ⟨Nat.lt_succ_self _, hlt, hnf⟩
      · obtain ⟨e1, e2, e3⟩ := h.regB u' c' l hu
        have := hold c' e2 e3
        exact ⟨Nat.lt_succ_of_lt e1, this.1, this.2.1⟩
    · exact hpool
    · intro t k hk
      exact Nat.lt_succ_of_lt (h.callLk t k hk)
    · intro t k u' c' hk hu
      rcases hro _ _ _ hu with ⟨_, _, hl⟩ | ⟨_, hu⟩
      · exact absurd hl (Nat.ne_of_lt (h.callLk t k hk))
      · exact h.callReg t k u' c' hk hu
    · exact h.held
    · exact h.lkU
    · intro t k hk ha'
      have hcur := h.cur t k hk ha'
      have : k.uuid ≠ u := by rintro rfl'; rw [rfl', hn] at hcur; simp at hcur
      show upd s.reg u _ k.uuid = _
      rw [upd_ne _ _ this]
      exact hcur
    · intro t k hk hg
      obtain ⟨e1, e2, e3⟩ := h.det t k hk hg
      have := hold _ e1 e2
      refine ⟨this.1, this.2.1, ?_⟩
      intro u' l hu
      rcases hro _ _ _ hu with ⟨_, hc, _⟩ | ⟨_, hu⟩
      · exact this.2.2 hc
      · exact e3 u' l hu
    · exact h.detU
    · intro c' hc'
      rcases hnew c' hc' with rfl | ⟨e1, e2⟩
      · exact .inr (.inl ⟨u, s.nextLk, upd_same ..⟩)
      · rcases h.noLeak c' e1 with h5 | ⟨u', l, hu⟩ | h5
        · exact .inl (e2 h5)
        · have : u' ≠ u := by rintro rfl; rw [hn] at hu; simp at hu
          exact .inr (.inl ⟨u', l, by show upd s.reg u _ u' = _; rw [upd_ne _ _ this]; exact hu⟩)
        · exact .inr (.inr h5)

/-- A call got its client entry. -/
theorem regInv_wait {s : State} (h : RegInv s) {t u id lk : Nat} {op : Op} (hn : s.thr t = none) (hr : s.reg u = some (id, lk)) :
    RegInv { s with thr := upd s.thr t (some ⟨u, id, lk, op, .wait op⟩) } := by
  constructor
  · exact h.regU
  · exact h.regB
  · exact h.pool
  · intro x k' hx
    rcases thr_upd hx with ⟨rfl, rfl⟩ | ⟨_, hx⟩
    · exact (h.regB u id lk hr).1
    · exact h.callLk x k' hx
  · intro x k' u' c' hx hu
    rcases thr_upd hx with ⟨rfl, rfl⟩ | ⟨_, hx⟩
    · have hu : s.reg u' = some (c', lk) := hu
      have he := h.regU _ _ _ _ _ _ hu hr (.inr rfl)
      subst he
      rw [hr] at hu
      simp only [Option.some.injEq, Prod.mk.injEq] at hu
      exact ⟨rfl, hu.1.symm⟩
    · exact h.callReg x k' u' c' hx hu
  · intro x k' hx hw
    rcases thr_upd hx with ⟨rfl, rfl⟩ | ⟨_, hx⟩
    · simp [Phase.cls] at hw
    · exact h.held x k' hx hw
  · intro x y k1 k2 hx hy w1 w2 he
    rcases thr_upd hx with ⟨rfl, rfl⟩ | ⟨_, hx⟩
    · simp [Phase.cls] at w1
    · rcases thr_upd hy with ⟨rfl, rfl⟩ | ⟨_, hy⟩
      · simp [Phase.cls] at w2
      · exact h.lkU x y k1 k2 hx hy w1 w2 he
  · intro x k' hx hw
    rcases thr_upd hx with ⟨rfl, rfl⟩ | ⟨_, hx⟩
    · simp [Phase.cls] at hw
    · exact h.cur x k' hx hw
  · intro x k' hx hw
    rcases thr_upd hx with ⟨rfl, rfl⟩ | ⟨_, hx⟩
    · simp [Phase.cls] at hw
    · exact h.det x k' hx hw
  · intro x y k1 k2 hx hy w1 w2 he
    rcases thr_upd hx with ⟨rfl, rfl⟩ | ⟨_, hx⟩
    · simp [Phase.cls] at w1
    · rcases thr_upd hy with ⟨rfl, rfl⟩ | ⟨_, hy⟩
      · simp [Phase.cls] at w2
      · exact h.detU x y k1 k2 hx hy w1 w2 he
  · intro c hc
    rcases h.noLeak c hc with h5 | h5 | ⟨x, k0, e1, e2, e3⟩
    · exact .inl h5
    · exact .inr (.inl h5)
    · have : x ≠ t := by rintro rfl; rw [hn] at e1; simp at e1
      exact .inr (.inr ⟨x, k0, by show upd s.thr t _ x = _; rw [upd_ne _ _ this]; exact e1, e2, e3⟩)

theorem start_cls (op : Op) : (startPhase op).cls = if op = .remove then .pre else .active := by
  cases op with
  | sub addrs => simp only [startPhase]; split <;> rfl
  | unsub addrs => rfl
  | clear => rfl
  | remove => rfl

theorem cont_cls (c : Cont) : c.phase.cls = c.cls := by
  cases c with
  | unsub => rfl
  | purge aids fin => cases fin <;> rfl
  | cap => rfl

theorem regInv_stepThread {s s' : State} (h : RegInv s) {t : Nat} {k : Call} (hk : s.thr t = some k) {c : Choice}
    (hfr : ∀ op, k.ph = .wait op → op ≠ .remove → s.reg k.uuid = some (k.cid, k.lk))
    (hs : stepThread s t k c = some s') : RegInv s' := by
  unfold stepThread at hs
  split at hs
  · rename_i op hph
    split at hs
    · simp at hs
    · rename_i hl
      obtain rfl := Option.some.inj hs
      refine regInv_acquire h hk (by rw [hph]; rfl) (by simpa using hl) ?_ rfl rfl rfl rfl rfl
      rw [start_cls]
      by_cases ho : op = .remove
      · rw [if_pos ho]; exact .inl rfl
      · rw [if_neg ho]; exact .inr ⟨rfl, hfr op hph ho⟩
  · rename_i done hph
    obtain rfl := Option.some.inj hs
    exact regInv_frame h hk (by rw [hph]; rfl) rfl rfl rfl rfl rfl
  · rename_i a rest done hph
    unfold stepEnsure at hs
    split at hs
    · obtain rfl := Option.some.inj hs
      exact regInv_frame h hk (by rw [hph]; rfl) rfl rfl rfl rfl rfl
    · split at hs
      · simp at hs
      all_goals
        obtain rfl := Option.some.inj hs
        exact regInv_frame h hk (by rw [hph]; rfl) rfl rfl rfl rfl rfl
  · rename_i a aid created rest done hph
    obtain rfl := Option.some.inj hs
    unfold stepSubRev
    split
    · exact regInv_frame h hk (by rw [hph]; rfl) rfl rfl rfl rfl rfl
    · split
      all_goals exact regInv_frame h hk (by rw [hph]; rfl) rfl rfl rfl rfl rfl
  · rename_i a aid created rest done hph
    obtain rfl := Option.some.inj hs
    unfold stepSubFwd
    split
    · split
      all_goals exact regInv_frame h hk (by rw [hph]; rfl) rfl rfl rfl rfl rfl
    · exact regInv_frame h hk (by rw [hph]; rfl) rfl rfl rfl rfl rfl
  · rename_i a aid created done hph
    obtain rfl := Option.some.inj hs
    unfold stepAtCap
    split
    · split
      all_goals exact regInv_frame h hk (by rw [hph]; rfl) rfl rfl rfl rfl rfl
    · exact regInv_frame h hk (by rw [hph]; rfl) rfl rfl rfl rfl rfl
  · rename_i done hph
    obtain rfl := Option.some.inj hs
    exact regInv_frame h hk (by rw [hph]; rfl) rfl rfl rfl rfl rfl
  · rename_i done hph
    obtain rfl := Option.some.inj hs
    exact regInv_frame h hk (by rw [hph]; rfl) rfl rfl rfl rfl rfl
  · rename_i a rest done hph
    split at hs
    all_goals
      obtain rfl := Option.some.inj hs
      exact regInv_frame h hk (by rw [hph]; rfl) rfl rfl rfl rfl rfl
  · rename_i a aid rest done hph
    obtain rfl := Option.some.inj hs
    unfold stepUnsubRev
    split
    · exact regInv_frame h hk (by rw [hph]; rfl) rfl rfl rfl rfl rfl
    · split
      all_goals exact regInv_frame h hk (by rw [hph]; rfl) rfl rfl rfl rfl rfl
  · rename_i a co hph
    obtain rfl := Option.some.inj hs
    unfold stepCleanup
    split
    · exact regInv_frame h hk (by rw [hph, cont_cls]; rfl) rfl rfl rfl rfl rfl
    · split
      · exact regInv_frame h hk (by rw [hph]; rfl) rfl rfl rfl rfl rfl
      · exact regInv_frame h hk (by rw [hph, cont_cls]; rfl) rfl rfl rfl rfl rfl
  · rename_i aid a co hph
    obtain rfl := Option.some.inj hs
    exact regInv_frame h hk (by rw [hph]; rfl) rfl rfl rfl rfl rfl
  · rename_i aid co hph
    obtain rfl := Option.some.inj hs
    exact regInv_frame h hk (by rw [hph, cont_cls]; rfl) rfl rfl rfl rfl rfl
  · rename_i hph
    obtain rfl := Option.some.inj hs
    unfold stepDetach
    split
    · exact regInv_leave h hk (.inl ⟨hph, rfl⟩) rfl rfl rfl rfl
    · rename_i c' lk hr
      split
      · rename_i hl
        subst hl
        have := (h.callReg t k _ _ hk hr).2
        subst this
        exact regInv_detach h hk hph hr rfl rfl rfl rfl rfl
      · exact regInv_leave h hk (.inl ⟨hph, rfl⟩) rfl rfl rfl rfl
  · rename_i fin hph
    obtain rfl := Option.some.inj hs
    exact regInv_frame h hk (by rw [hph]; cases fin <;> rfl) rfl rfl rfl rfl rfl
  · rename_i aids fin hph
    obtain rfl := Option.some.inj hs
    unfold stepPurge
    split
    · exact regInv_frame h hk (by rw [hph]; cases fin <;> rfl) rfl rfl rfl rfl rfl
    · split
      all_goals exact regInv_frame h hk (by rw [hph]; cases fin <;> rfl) rfl rfl rfl rfl rfl
  · rename_i hph
    obtain rfl := Option.some.inj hs
    exact regInv_leave h hk (.inr ⟨hph, rfl⟩) rfl rfl rfl rfl
  all_goals
    rename_i hph
    obtain rfl := Option.some.inj hs
    exact regInv_release h hk (by rw [hph]; simp [Phase.cls]) (by rw [hph]; simp [Phase.cls]) rfl rfl rfl rfl rfl

theorem regInv_step {s s' : State} (h : RegInv s) {e : Ev} (hf : Fresh s e) (hs : step s e = some s') : RegInv s' := by
  cases e with
  | register u c =>
    simp only [step] at hs
    split at hs
    · obtain rfl := Option.some.inj hs; exact h
    · rename_i hn
      rw [Option.map_eq_some_iff] at hs
      obtain ⟨⟨r, s1⟩, h1, rfl⟩ := hs
      exact regInv_newEntry h hn h1
  | start t u op c =>
    simp only [step] at hs
    split at hs
    · simp at hs
    · rename_i hn
      rcases begin_cases hs with rfl | ⟨id, lk, hr, rfl⟩ | ⟨s1, hr, h1, rfl⟩ | ⟨s1, id, lk, hr, h1, rfl⟩
      · exact h
      · exact regInv_wait h hn hr
      · exact regInv_newEntry h hr h1
      · have h2 := regInv_newEntry h hr h1
        have e5 := (newEntry_frame h1).2.2.2.2.1
        refine regInv_wait h2 (by rw [e5]; exact hn) ?_
        rcases newEntry_cases h1 with ⟨e, _⟩ | ⟨id', p, _, e, rfl⟩
        · simp at e
        · rw [e]; exact upd_same ..
  | go t c =>
    simp only [step] at hs
    split at hs
    · simp at hs
    · rename_i k hk
      exact regInv_stepThread h hk (fun op hph ho => hf k op hk hph ho) hs

end Tycho.Subs
