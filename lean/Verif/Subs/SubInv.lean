import Verif.Subs.ClientInv

/-! All clients, and the subscriptions the calls asked for. -/
namespace Tycho.Subs

/-- Specification: what an event does to a subscription. -/
def Event.apply (u a : Nat) (b : Bool) : Event → Bool
  | .sub u' a' => if u' = u ∧ a' = a then true else b
  | .unsub u' a' => if u' = u ∧ a' = a then false else b
  | .clear u' => if u' = u then false else b

/-- Specification: whether a client asked for an address, by the events so far. -/
def want (log : List Event) (u a : Nat) : Bool := log.foldl (Event.apply u a) false

theorem want_snoc (log : List Event) (e : Event) (u a : Nat) : want (log ++ [e]) u a = e.apply u a (want log u a) := by
  simp [want]

/-- The client is in the set of address `a`, interned as `i`. -/
def Mem (s : State) (c a i : Nat) : Prop := ∃ f, s.fwd a = some (i, f) ∧ c ∈ f.members

/-- The client is subscribed: both sides agree. -/
def Eff (s : State) (c a : Nat) : Prop := ∃ i, Mem s c a i ∧ i ∈ s.revList c

def Phase.busy (ph : Phase) : Prop := ph.cls = .active ∨ ph.cls = .gone

structure SubInv (s : State) : Prop where
  busy : ∀ t k, s.thr t = some k → k.ph.busy → CInv (Mem s k.cid) (s.rev k.cid) k.ph
  idle : ∀ c, (∀ t k, s.thr t = some k → k.ph.busy → k.cid ≠ c) → CInv (Mem s c) (s.rev c) .leave
  unreg : ∀ c, (∀ u l, s.reg u ≠ some (c, l)) → (∀ t k, s.thr t = some k → k.ph.busy → k.cid ≠ c) → s.rev c = none
  wants : ∀ u c l, s.reg u = some (c, l) → ∀ a, want s.log u a = true ↔ Eff s c a
  wantN : ∀ u, s.reg u = none → ∀ a, want s.log u a = false

theorem cinv_idle : CInv (fun _ _ => False) none .leave := by
  constructor <;> simp [Phase.noRev, Phase.look, Phase.subs, Phase.unsubs]

theorem subInv_new (cap ma mc : Nat) : SubInv (State.new cap ma mc) := by
  constructor
  · intro t k h; simp [State.new] at h
  · intro c _
    have : Mem (State.new cap ma mc) c = fun _ _ => False := by
      funext a i; simp [Mem, State.new]
    rw [this]; exact cinv_idle
  · intro c _ _; rfl
  · intro u c l h; simp [State.new] at h
  · intro u _ a; rfl

theorem mem_inj {s : State} (h : AddrInv s) (c : Nat) : ∀ x y j, Mem s c x j → Mem s c y j → x = y := by
  rintro x y j ⟨f, h1, _⟩ ⟨g, h2, _⟩
  exact h.inj x y j f g h1 h2

theorem mem_fun {s : State} (c : Nat) : ∀ x j j', Mem s c x j → Mem s c x j' → j = j' := by
  rintro x j j' ⟨f, h1, _⟩ ⟨g, h2, _⟩
  rw [h1] at h2
  simp only [Option.some.injEq, Prod.mk.injEq] at h2
  exact h2.1

/-- A step of the thread that works for a client. -/
theorem subInv_local {s s' : State} (h : SubInv s) (hr : RegInv s) {t : Nat} {k : Call} (hk : s.thr t = some k) (hb : k.ph.busy)
    {ph : Phase} (hb' : ph.busy) (ht : s'.thr = upd s.thr t (some { k with ph := ph })) (hreg : s'.reg = s.reg)
    (hM : ∀ c, c ≠ k.cid → ∀ a i, Mem s' c a i ↔ Mem s c a i) (hrev : ∀ c, c ≠ k.cid → s'.rev c = s.rev c)
    (hloc : CInv (Mem s k.cid) (s.rev k.cid) k.ph → CInv (Mem s' k.cid) (s'.rev k.cid) ph)
    (hlog : ∀ u, u ≠ k.uuid ∨ k.ph.cls = .gone → ∀ a, want s'.log u a = want s.log u a)
    (hwant : k.ph.cls = .active → ∀ a, (want s.log k.uuid a = true ↔ Eff s k.cid a) → (want s'.log k.uuid a = true ↔ Eff s' k.cid a)) :
    SubInv s' := by
  have hMe : ∀ c, c ≠ k.cid → Mem s' c = Mem s c := by
    intro c hc; funext a i; exact propext (hM c hc a i)
  have hEff : ∀ c, c ≠ k.cid → ∀ a, Eff s' c a ↔ Eff s c a := by
    intro c hc a
    unfold Eff State.revList
    rw [hMe c hc, hrev c hc]
  have hme : k.ph.cls = .active → ∀ u c l, s.reg u = some (c, l) → (c = k.cid ↔ u = k.uuid) := by
    intro ha u c l hu
    have hcur := hr.cur t k hk ha
    constructor
    · rintro rfl; exact hr.regU _ _ _ _ _ _ hu hcur (.inl rfl)
    · rintro rfl
      rw [hu] at hcur
      simp only [Option.some.injEq, Prod.mk.injEq] at hcur
      exact hcur.1
  constructor
  · intro x k' hx hbx
    rw [ht] at hx
    rcases thr_upd hx with ⟨rfl, rfl⟩ | ⟨hxt, hx⟩
    · exact hloc (h.busy x k hk hb)
    · have hne : k'.cid ≠ k.cid := fun he => hxt (busy_unique hr hx hk hbx hb he)
      rw [hMe _ hne, hrev _ hne]
      exact h.busy x k' hx hbx
  · intro c hc
    have hne : c ≠ k.cid := by
      rintro rfl
      exact hc t { k with ph := ph } (by rw [ht]; exact upd_same ..) hb' rfl
    rw [hMe _ hne, hrev _ hne]
    refine h.idle c ?_
    intro x k' hx hbx
    by_cases hxt : x = t
    · subst hxt
      rw [hk] at hx; obtain rfl := Option.some.inj hx
      exact hne.symm
    · exact hc x k' (by rw [ht, upd_ne _ _ hxt]; exact hx) hbx
  · intro c hnr hc
    rw [hreg] at hnr
    have hne : c ≠ k.cid := by
      rintro rfl
      exact hc t { k with ph := ph } (by rw [ht]; exact upd_same ..) hb' rfl
    rw [hrev _ hne]
    refine h.unreg c hnr ?_
    intro x k' hx hbx
    by_cases hxt : x = t
    · subst hxt
      rw [hk] at hx; obtain rfl := Option.some.inj hx
      exact hne.symm
    · exact hc x k' (by rw [ht, upd_ne _ _ hxt]; exact hx) hbx
  · intro u c l hu a
    rw [hreg] at hu
    rcases hb with hb | hb
    · by_cases hcu : c = k.cid
      · have huk := (hme hb u c l hu).1 hcu
        subst hcu; subst huk
        exact hwant hb a (h.wants _ _ _ hu a)
      · have huk : u ≠ k.uuid := fun e => hcu ((hme hb u c l hu).2 e)
        rw [hEff c hcu, hlog u (.inl huk)]
        exact h.wants u c l hu a
    · have hcu : c ≠ k.cid := by rintro rfl; exact (hr.det t k hk hb).2.2 u l hu
      rw [hEff c hcu, hlog u (.inr hb)]
      exact h.wants u c l hu a
  · intro u hu a
    rw [hreg] at hu
    rw [hlog u ?_]
    · exact h.wantN u hu a
    · rcases hb with hb | hb
      · left
        rintro rfl
        rw [hr.cur t k hk hb] at hu
        simp at hu
      · exact .inr hb

/-- Such a step that does not touch the sets, the reverse entry or the log. -/
theorem subInv_quiet {s s' : State} (h : SubInv s) (hr : RegInv s) {t : Nat} {k : Call} (hk : s.thr t = some k) (hb : k.ph.busy)
    {ph : Phase} (hb' : ph.busy) (ht : s'.thr = upd s.thr t (some { k with ph := ph })) (hreg : s'.reg = s.reg)
    (hf : s'.fwd = s.fwd) (hlogE : s'.log = s.log) (hrev : ∀ c, c ≠ k.cid → s'.rev c = s.rev c)
    (hrl : (s'.rev k.cid).getD [] = (s.rev k.cid).getD [])
    (hloc : CInv (Mem s k.cid) (s.rev k.cid) k.ph → CInv (Mem s k.cid) (s'.rev k.cid) ph) : SubInv s' := by
  have hMe : ∀ c, Mem s' c = Mem s c := by intro c; funext a i; unfold Mem; rw [hf]
  refine subInv_local h hr hk hb hb' ht hreg (fun c _ a i => by rw [hMe]) hrev (by rw [hMe]; exact hloc) (fun u _ a => by rw [hlogE]) ?_
  intro _ a hw
  rw [hlogE, hw]
  unfold Eff State.revList
  rw [hMe, hrl]

/-- The mutex is taken, or the entry detached: a thread begins to work for a client nobody works for. -/
theorem subInv_enter {s s' : State} (h : SubInv s) {t : Nat} {k : Call} (hk : s.thr t = some k) (hnb : ¬ k.ph.busy) {ph : Phase}
    (hb' : ph.busy) (ht : s'.thr = upd s.thr t (some { k with ph := ph })) (hf : s'.fwd = s.fwd)
    (halone : ∀ t' k', s.thr t' = some k' → k'.ph.busy → k'.cid ≠ k.cid) (hrev : ∀ c, c ≠ k.cid → s'.rev c = s.rev c)
    (hrl : (s'.rev k.cid).getD [] = (s.rev k.cid).getD [])
    (hloc : CInv (Mem s k.cid) (s.rev k.cid) .leave → CInv (Mem s k.cid) (s'.rev k.cid) ph)
    (hregc : ∀ c, c ≠ k.cid → (∀ u l, s'.reg u ≠ some (c, l)) → ∀ u l, s.reg u ≠ some (c, l))
    (hwant : ∀ u c l, s'.reg u = some (c, l) → ∀ a, want s'.log u a = true ↔ Eff s c a)
    (hwantN : ∀ u, s'.reg u = none → ∀ a, want s'.log u a = false) : SubInv s' := by
  have hMe : ∀ c, Mem s' c = Mem s c := by intro c; funext a i; unfold Mem; rw [hf]
  have hrl' : ∀ c, (s'.rev c).getD [] = (s.rev c).getD [] := by
    intro c
    by_cases hc : c = k.cid
    · rw [hc]; exact hrl
    · rw [hrev c hc]
  constructor
  · intro x k' hx hbx
    rw [hMe]
    rw [ht] at hx
    rcases thr_upd hx with ⟨rfl, rfl⟩ | ⟨hxt, hx⟩
    · exact hloc (h.idle k.cid halone)
    · rw [hrev _ (halone x k' hx hbx)]
      exact h.busy x k' hx hbx
  · intro c hc
    rw [hMe]
    have hne : c ≠ k.cid := by
      rintro rfl
      exact hc t { k with ph := ph } (by rw [ht]; exact upd_same ..) hb' rfl
    rw [hrev _ hne]
    refine h.idle c ?_
    intro x k' hx hbx
    have hxt : x ≠ t := by rintro rfl; rw [hk] at hx; obtain rfl := Option.some.inj hx; exact hnb hbx
    exact hc x k' (by rw [ht, upd_ne _ _ hxt]; exact hx) hbx
  · intro c hnr hc
    have hne : c ≠ k.cid := by
      rintro rfl
      exact hc t { k with ph := ph } (by rw [ht]; exact upd_same ..) hb' rfl
    rw [hrev _ hne]
    refine h.unreg c (hregc c hne hnr) ?_
    intro x k' hx hbx
    have hxt : x ≠ t := by rintro rfl; rw [hk] at hx; obtain rfl := Option.some.inj hx; exact hnb hbx
    exact hc x k' (by rw [ht, upd_ne _ _ hxt]; exact hx) hbx
  · intro u c l hu a
    rw [hwant u c l hu a]
    unfold Eff State.revList
    rw [hMe, hrl']
  · exact hwantN

/-- A thread stops working for its client. -/
theorem subInv_exit {s s' : State} (h : SubInv s) {t : Nat} {k : Call} (hk : s.thr t = some k)
    (hth : ∀ x, x ≠ t → s'.thr x = s.thr x) (hnew : ∀ k', s'.thr t = some k' → ¬ k'.ph.busy)
    (hf : s'.fwd = s.fwd) (hrev : s'.rev = s.rev) (hreg : s'.reg = s.reg) (hlog : s'.log = s.log)
    (hu : ∀ t' k', s.thr t' = some k' → k'.ph.busy → k.ph.busy → k'.cid = k.cid → t' = t)
    (hloc : k.ph.busy → CInv (Mem s k.cid) (s.rev k.cid) k.ph → CInv (Mem s k.cid) (s.rev k.cid) .leave)
    (hnone : k.ph.busy → (∀ u l, s.reg u ≠ some (k.cid, l)) → s.rev k.cid = none) : SubInv s' := by
  have hMe : ∀ c, Mem s' c = Mem s c := by intro c; funext a i; unfold Mem; rw [hf]
  have hold : ∀ x k', s'.thr x = some k' → k'.ph.busy → s.thr x = some k' := by
    intro x k' hx hbx
    by_cases hxt : x = t
    · subst hxt; exact absurd hbx (hnew k' hx)
    · rw [hth x hxt] at hx; exact hx
  constructor
  · intro x k' hx hbx
    rw [hMe, hrev]
    exact h.busy x k' (hold x k' hx hbx) hbx
  · intro c hc
    rw [hMe, hrev]
    by_cases hcase : k.ph.busy ∧ k.cid = c
    · obtain ⟨hb, rfl⟩ := hcase
      exact hloc hb (h.busy t k hk hb)
    · refine h.idle c ?_
      intro x k' hx hbx hcc
      by_cases hxt : x = t
      · subst hxt; rw [hk] at hx; obtain rfl := Option.some.inj hx; exact hcase ⟨hbx, hcc⟩
      · exact hc x k' (by rw [hth x hxt]; exact hx) hbx hcc
  · intro c hnr hc
    rw [hreg] at hnr
    rw [hrev]
    by_cases hcase : k.ph.busy ∧ k.cid = c
    · obtain ⟨hb, rfl⟩ := hcase
      exact hnone hb hnr
    · refine h.unreg c hnr ?_
      intro x k' hx hbx hcc
      by_cases hxt : x = t
      · subst hxt; rw [hk] at hx; obtain rfl := Option.some.inj hx; exact hcase ⟨hbx, hcc⟩
      · exact hc x k' (by rw [hth x hxt]; exact hx) hbx hcc
  · intro u c l hu a
    rw [hreg] at hu
    rw [hlog, h.wants u c l hu a]
    unfold Eff State.revList
    rw [hMe, hrev]
  · intro u hu a
    rw [hreg] at hu
    rw [hlog]; exact h.wantN u hu a

/-- A client is registered. -/
theorem subInv_newEntry {s s' : State} (h : SubInv s) (hr : RegInv s) {u : Nat} {c : Choice} {r : Option (Nat × Nat)} (hn : s.reg u = none)
    (he : newEntry s u c = some (r, s')) : SubInv s' := by
  rcases newEntry_cases he with ⟨_, rfl⟩ | ⟨id, p, ha, _, rfl⟩
  · exact h
  · obtain ⟨hpool, hlt, hnf, hold, hnew, _, hsub⟩ := alloc_spec ha hr.pool
    have hidnr : ∀ u l, s.reg u ≠ some (id, l) := by
      intro u' l hu
      obtain ⟨_, e2, e3⟩ := hr.regB u' id l hu
      exact (hold id e2 e3).2.2 rfl
    have hidle : ∀ t k, s.thr t = some k → k.ph.busy → k.cid ≠ id := by
      intro t k hk hb he
      rcases hb with hb | hb
      · exact hidnr _ _ (he ▸ hr.cur t k hk hb)
      · obtain ⟨e1, e2, _⟩ := hr.det t k hk hb
        rw [he] at e1 e2
        exact (hold id e1 e2).2.2 rfl
    have hnorev := h.unreg id hidnr hidle
    constructor
    · exact h.busy
    · exact h.idle
    · intro c' hnr hc
      refine h.unreg c' ?_ hc
      intro u' l hu
      have : u' ≠ u := by rintro rfl; rw [hn] at hu; simp at hu
      exact hnr u' l (by show upd s.reg u _ u' = _; rw [upd_ne _ _ this]; exact hu)
    · intro u' c' l hu a
      by_cases hx : u' = u
      · subst hx
        have hu : upd s.reg u' (some (id, s.nextLk)) u' = some (c', l) := hu
        rw [upd_same] at hu
        simp only [Option.some.injEq, Prod.mk.injEq] at hu
        obtain ⟨rfl, _⟩ := hu
        show want s.log u' a = true ↔ Eff s id a
        rw [h.wantN u' hn a]
        constructor
        · intro h0; simp at h0
        · rintro ⟨i, _, hi⟩
          unfold State.revList at hi
          rw [hnorev] at hi
          simp at hi
      · have hu : upd s.reg u (some (id, s.nextLk)) u' = some (c', l) := hu
        rw [upd_ne _ _ hx] at hu
        exact h.wants u' c' l hu a
    · intro u' hu a
      have hu : upd s.reg u (some (id, s.nextLk)) u' = none := hu
      by_cases hx : u' = u
      · subst hx; rw [upd_same] at hu; simp at hu
      · rw [upd_ne _ _ hx] at hu
        exact h.wantN u' hu a

/-- A call waits for its mutex. -/
theorem subInv_wait {s : State} (h : SubInv s) {t u id lk : Nat} {op : Op} (hn : s.thr t = none) :
    SubInv { s with thr := upd s.thr t (some ⟨u, id, lk, op, .wait op⟩) } := by
  have hnb : ¬ (Phase.wait op).busy := by simp [Phase.busy, Phase.cls]
  have hold : ∀ x k', upd s.thr t (some ⟨u, id, lk, op, .wait op⟩) x = some k' → k'.ph.busy → s.thr x = some k' := by
    intro x k' hx hbx
    rcases thr_upd hx with ⟨rfl, rfl⟩ | ⟨hxt, hx⟩
    · exact absurd hbx hnb
    · exact hx
  have hback : ∀ x k', s.thr x = some k' → upd s.thr t (some ⟨u, id, lk, op, .wait op⟩) x = some k' := by
    intro x k' hx
    have : x ≠ t := by rintro rfl; rw [hn] at hx; simp at hx
    rw [upd_ne _ _ this]; exact hx
  constructor
  · intro x k' hx hbx
    exact h.busy x k' (hold x k' hx hbx) hbx
  · intro c hc
    exact h.idle c (fun x k' hx hbx => hc x k' (hback x k' hx) hbx)
  · intro c hnr hc
    exact h.unreg c hnr (fun x k' hx hbx => hc x k' (hback x k' hx) hbx)
  · exact h.wants
  · exact h.wantN

end Tycho.Subs
