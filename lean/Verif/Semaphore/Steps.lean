import Verif.Semaphore.Inv

/-! Every step keeps the invariants. -/
namespace Tycho.Semaphore

/-- Each future joins a wait list at most once. -/
def Joined (s : Sys) : Prop := ∀ p, (s.joined p).Nodup ∧
  ∀ id ∈ s.joined p, ∃ f ∈ s.futs, f.id = id ∧ (f.queued = true ∨ f.pc = .gone)

/-- What a step does. -/
structure StepOk (k : Nat) (s s' : Sys) : Prop where
  inv : Inv s'
  fifo : Fifo s → Fifo s'
  joined : Joined s → Joined s'
  total : total s' + s.created = total s + s'.created
  prio : s'.served false ≠ s.served false → s'.q true = []
  heldClosed : s.closed = true → s'.held ≤ s.held
  closed : s.closed = true → s'.closed = true
  lost : s'.closed = false → s'.lost = s.lost
  created : s'.created = s.created + k

theorem fifo_moves {s s' : Sys} (h : Moves s s') (hj : s'.joined = s.joined) (hf : Fifo s) : Fifo s' := by
  intro p
  obtain ⟨l, h1, h2⟩ := h p
  have := hf p
  rw [h1, hj, List.append_assoc, ← h2]
  exact this

/-- The futures keep their ids, and never leave the waiting state for a fresh one. -/
structure FutsMono (s s' : Sys) : Prop where
  keep : ∀ f ∈ s.futs, (f.queued = true ∨ f.pc = .gone) → ∃ g ∈ s'.futs, g.id = f.id ∧ (g.queued = true ∨ g.pc = .gone)

theorem joined_mono {s s' : Sys} (h : FutsMono s s') (hj : s'.joined = s.joined) (h0 : Joined s) : Joined s' := by
  intro p
  rw [hj]
  refine ⟨(h0 p).1, ?_⟩
  intro id hid
  obtain ⟨f, hf, h1, h2⟩ := (h0 p).2 id hid
  obtain ⟨g, hg, h3, h4⟩ := h.keep f hf h2
  exact ⟨g, hg, h3.trans h1, h4⟩

theorem mono_refl {s s' : Sys} (h : s'.futs = s.futs) : FutsMono s s' := ⟨fun f hf hq => ⟨f, by rw [h]; exact hf, rfl, hq⟩⟩

theorem mono_trans {a b c : Sys} (h : FutsMono a b) (g : FutsMono b c) : FutsMono a c := by
  refine ⟨fun f hf hq => ?_⟩
  obtain ⟨x, hx, h1, h2⟩ := h.keep f hf hq
  obtain ⟨y, hy, h3, h4⟩ := g.keep x hx h2
  exact ⟨y, hy, h3.trans h1, h4⟩

theorem mono_set {s s' : Sys} (I : Inv s) {f f' : Fut} (hf : f ∈ s.futs) (hid : f'.id = f.id)
    (hfu : s'.futs = setFut s.futs f') (h : (f.queued = true ∨ f.pc = .gone) → f'.queued = true ∨ f'.pc = .gone) :
    FutsMono s s' := by
  refine ⟨fun g hg hq => ?_⟩
  by_cases he : g.id = f.id
  · obtain rfl := List.inj_on_of_nodup_map I.ids hg hf he
    exact ⟨f', by rw [hfu]; exact mem_setFut.2 (Or.inl ⟨rfl, g, hg, hid.symm⟩), hid, h hq⟩
  · exact ⟨g, by rw [hfu]; exact mem_setFut.2 (Or.inr ⟨hg, by rw [hid]; exact he⟩), rfl, hq⟩

theorem tryHead_mono {s : Sys} (I : Inv s) (p : Bool) (rem : Nat) : FutsMono s (tryHead p s rem).1 := by
  rcases tryHead_cases I p rem with ⟨-, h⟩ | ⟨f, rest, hf, hq, hp, hpos, ⟨hle, h⟩ | ⟨hlt, h⟩⟩
  · rw [h]; exact mono_refl rfl
  · rw [h]; exact mono_set (f' := { f with state := 0, woken := true }) I hf rfl rfl id
  · rw [h]; exact mono_set (f' := { f with state := f.state - rem }) I hf rfl rfl id

theorem serve_mono (cap : Nat) {s : Sys} (I : Inv s) (rem : Nat) : FutsMono s (serve cap s rem).1 := by
  induction cap generalizing s rem with
  | zero => exact mono_refl rfl
  | succ cap ih =>
    have I1 := tryHead_inv I true rem
    have m1 := tryHead_mono I true rem
    unfold serve
    simp only
    split
    · exact mono_trans m1 (ih I1 _)
    · have I2 := tryHead_inv I1 false (tryHead true s rem).2.1
      have m2 := tryHead_mono I1 false (tryHead true s rem).2.1
      split
      · exact mono_trans m1 (mono_trans m2 (ih I2 _))
      · exact mono_trans m1 m2

theorem addSection_mono {s s' : Sys} (I : Inv s) {rem : Nat} (h : addSection s rem = some s') : FutsMono s s' := by
  have m := serve_mono wakeCap I rem
  unfold addSection at h
  split at h
  · simp at h; subst h; exact mono_refl rfl
  · simp only at h
    generalize serve wakeCap s rem = r at m h
    split at h
    · split at h
      · split at h
        · simp at h; subst h; exact mono_trans m (mono_refl rfl)
        · simp at h
      · simp at h; subst h; exact mono_trans m (mono_refl rfl)
    · simp at h; subst h; exact m

/-- A step that only runs a critical section of `add_permits_locked` after a change `s → s1`. -/
theorem step_of_added {s s1 s' : Sys} {rem : Nat} (ha : addSection s1 rem = some s') (h : Added s1 rem s') (I1 : Inv s1)
    (hsub : ∀ p, (s1.q p).Sublist (s.q p)) (hserved : s1.served = s.served) (hjoined : s1.joined = s.joined)
    (hm : FutsMono s s1) (ht : total s1 + rem = total s) (hcr : s1.created = s.created) (hcl : s1.closed = s.closed)
    (hheld : s.closed = true → s1.held ≤ s.held) (hlost : s1.lost = s.lost) : StepOk 0 s s' := by
  refine ⟨h.inv, ?_, ?_, ?_, ?_, ?_, ?_, ?_, ?_⟩
  · intro hf
    refine fifo_moves h.moves h.joined ?_
    intro p
    rw [hserved, hjoined]
    exact ((hsub p).append_left _).trans (hf p)
  · exact joined_mono (mono_trans hm (addSection_mono I1 ha)) (h.joined.trans hjoined)
  · rw [h.total, h.created, hcr, ht]
  · intro hne; apply h.prio; rw [hserved]; exact hne
  · intro hc; rw [h.held]; exact hheld hc
  · intro hc; rw [h.closed, hcl]; exact hc
  · intro _; rw [h.lost, hlost]
  · rw [h.created, hcr]; rfl

/-- A step that changes one future and counters, not the wait lists. -/
theorem step_of_fut {s s' : Sys} (I : Inv s) {f f' : Fut} (hf : f ∈ s.futs) (hid : f'.id = f.id) (hpr : f'.prio = f.prio)
    (hfu : s'.futs = setFut s.futs f') (hcl : s'.closed = s.closed) (hq : s'.q = s.q) (hp : s'.permits ≤ s.permits)
    (hok : FOk (f.id ∈ s.q f.prio) s.closed f') (hmono : (f.queued = true ∨ f.pc = .gone) → f'.queued = true ∨ f'.pc = .gone)
    (hserved : s'.served = s.served) (hjoined : s'.joined = s.joined) (hcr : s'.created = s.created)
    (hfl : s'.flight = s.flight)
    (ht : s'.permits + owned f' + s'.held + s'.lost = s.permits + owned f + s.held + s.lost)
    (hheld : s.closed = true → s'.held ≤ s.held) (hlost : s.closed = false → s'.lost = s.lost) : StepOk 0 s s' := by
  refine ⟨inv_fut I hf hid hpr hfu hcl hq hp hok, ?_, ?_, ?_, ?_, hheld, by rw [hcl]; exact id, by rw [hcl]; exact hlost,
    by rw [hcr]; rfl⟩
  · intro h p; rw [hserved, hjoined, hq]; exact h p
  · exact joined_mono (mono_set I hf hid hfu hmono) hjoined
  · have := ownedSum_set I.ids hf hid
    unfold total
    rw [hfu, hfl, hcr]
    omega
  · intro h; rw [hserved] at h; exact absurd rfl h

theorem step_refl {s : Sys} (I : Inv s) : StepOk 0 s s :=
  ⟨I, id, id, rfl, fun h => absurd rfl h, fun _ => Nat.le_refl _, id, fun _ => rfl, rfl⟩

/-- The end of a poll with the lock held. `s0` is the state before the poll took permits from the counter. -/
theorem finishPoll_ok {s0 s : Sys} (I : Inv s) {f : Fut} (hf : f ∈ s.futs) (hclosed : s.closed = false) {acq : Nat}
    (hcase : (f.queued = true ∧ f.state = 0 ∧ f.id ∉ s.q f.prio) ∨
      (f.queued = true ∧ f.id ∈ s.q f.prio ∧ acq = 0) ∨
      (f.queued = false ∧ f.state = f.num ∧ f.pc ≠ .gone ∧ acq < f.num ∧ s.permits = 0))
    (hmax : total s0 ≤ maxPermits)
    (h0 : total s + acq + (f.num - f.state) = total s0 + owned f) (hfu : s0.futs = s.futs) (hq : s0.q = s.q)
    (hserved : s0.served = s.served) (hjoined : s0.joined = s.joined) (hcr : s0.created = s.created)
    (hcl : s0.closed = s.closed) (hheld : s0.held = s.held) (hlost : s0.lost = s.lost) :
    ∃ s', finishPoll s f acq = some s' ∧ StepOk 0 s0 s' := by
  have ok := I.ok f hf
  rcases hcase with ⟨hqd, hst, hnin⟩ | ⟨hqd, hin, hacq⟩ | ⟨hqd, hst, hpc, hlt, hperm⟩
  · -- it already has everything it needs
    unfold finishPoll
    rw [if_pos (by omega), hst, Nat.zero_min, Nat.sub_zero]
    have I1 : Inv { s with futs := setFut s.futs { f with state := 0, queued := false, pc := .gone }, held := s.held + f.num } := by
      refine inv_fut (f := f) (f' := { f with state := 0, queued := false, pc := .gone }) I hf rfl rfl rfl rfl rfl (Nat.le_refl _) ?_
      refine ⟨ok.pos, by simp, by simp, fun h => absurd h hnin, by simp, by simp, by simp⟩
    have ht1 : total { s with futs := setFut s.futs { f with state := 0, queued := false, pc := .gone }, held := s.held + f.num } +
        acq = total s0 := by
      have hs := ownedSum_set (f' := { f with state := 0, queued := false, pc := .gone }) I.ids hf rfl
      have : owned { f with state := 0, queued := false, pc := .gone } = 0 := rfl
      unfold total at h0 ⊢
      simp only
      omega
    obtain ⟨s', h1, h2⟩ := addSection_ok I1 (rem := acq) (by omega)
    refine ⟨s', h1, step_of_added h1 h2 I1 ?_ hserved.symm hjoined.symm ?_ ht1 hcr.symm hcl.symm ?_ hlost.symm⟩
    · intro p; rw [hq]
    · have := mono_set (s := s) (s' := { s with futs := setFut s.futs { f with state := 0, queued := false, pc := .gone }, held := s.held + f.num })
        (f' := { f with state := 0, queued := false, pc := .gone }) I hf rfl rfl (fun _ => Or.inr rfl)
      exact mono_trans (mono_refl hfu.symm) this
    · intro hc; rw [hcl, hclosed] at hc; simp at hc
  · -- still waiting
    have hw := ok.wait hin
    subst hacq
    unfold finishPoll
    rw [if_neg (by omega)]
    simp only [Nat.min_zero, Nat.sub_zero, hqd, if_true]
    refine ⟨_, rfl, ?_⟩
    have I1 : Inv { s with futs := setFut s.futs { f with queued := true, pc := .idle } } := by
      refine inv_fut (f := f) (f' := { f with queued := true, pc := .idle }) I hf rfl rfl rfl rfl rfl (Nat.le_refl _) ?_
      exact ⟨ok.pos, ok.le, by simp, fun _ => ⟨rfl, hw.2.1, Or.inl rfl⟩, fun _ _ h => absurd hin h, by simp, by simp⟩
    have hm : FutsMono s0 { s with futs := setFut s.futs { f with queued := true, pc := .idle } } :=
      mono_trans (mono_refl (s := s0) (s' := s) hfu.symm) (mono_set (f' := { f with queued := true, pc := .idle }) I hf rfl rfl
        (fun _ => Or.inl rfl))
    refine ⟨I1, ?_, joined_mono hm hjoined.symm, ?_, ?_, ?_, ?_, ?_, ?_⟩
    · intro h p; have := h p; rw [hserved, hjoined, hq] at this; exact this
    · have hs := ownedSum_set (f' := { f with queued := true, pc := .idle }) I.ids hf rfl
      have h1 : owned { f with queued := true, pc := .idle } = f.num - f.state := rfl
      unfold total at h0 ⊢
      simp only
      rw [hcr]
      omega
    · intro h; exact absurd hserved.symm (by intro he; apply h; show s.served false = _; rw [he])
    · intro hc; rw [hcl, hclosed] at hc; simp at hc
    · intro hc; rw [hcl, hclosed] at hc; simp at hc
    · intro _; exact hlost.symm
    · rw [hcr]; rfl
  · -- it joins a wait list
    have hnin : f.id ∉ s.q f.prio := fun h => by have := (ok.wait h).1; rw [hqd] at this; simp at this
    unfold finishPoll
    rw [if_neg (by omega)]
    simp only [hqd, Bool.false_eq_true, if_false]
    rw [Nat.min_eq_right (by omega)]
    refine ⟨_, rfl, ?_⟩
    have hset : ∀ b, s.q b = [] ∨ True := fun _ => Or.inr trivial
    have hclq : s.closed = true → False := by rw [hclosed]; simp
    have I1 : Inv { s with futs := setFut s.futs { f with state := f.state - acq, queued := true, pc := .idle },
                           q := setq s.q f.prio (s.q f.prio ++ [f.id]),
                           joined := setq s.joined f.prio (s.joined f.prio ++ [f.id]) } := by
      refine inv_upd (f := f) (f' := { f with state := f.state - acq, queued := true, pc := .idle }) I hf rfl rfl rfl rfl
        ?_ ?_ ?_ ?_ ?_
      · intro p id hne
        by_cases hp : p = f.prio
        · subst hp
          have hid : id ≠ f.id := by rcases hne with h | h; exact h; exact absurd rfl h
          simp [setq_same, hid]
        · simp only [setq_ne _ _ hp]
      · intro p
        by_cases hp : p = f.prio
        · subst hp
          simp only [setq_same]
          rw [List.nodup_append]
          refine ⟨I.qn _, by simp, ?_⟩
          intro a ha b hb; simp at hb; subst hb; intro e; subst e; exact hnin ha
        · simp only [setq_ne _ _ hp]; exact I.qn p
      · have hin : f.id ∈ setq s.q f.prio (s.q f.prio ++ [f.id]) f.prio := by simp [setq_same]
        refine ⟨ok.pos, ?_, by simp, fun _ => ⟨rfl, ?_, Or.inl rfl⟩, fun _ _ h => absurd hin h, by simp, by simp⟩
        · have := ok.le; simp; omega
        · simp; omega
      · intro p _; exact hperm
      · intro h; exact absurd h hclq
    refine ⟨I1, ?_, ?_, ?_, ?_, ?_, ?_, ?_, ?_⟩
    · intro h p
      have hp' := h p
      rw [hserved, hjoined, hq] at hp'
      show (s.served p ++ setq s.q f.prio (s.q f.prio ++ [f.id]) p).Sublist (setq s.joined f.prio (s.joined f.prio ++ [f.id]) p)
      by_cases hp : p = f.prio
      · subst hp
        simp only [setq_same]
        rw [← List.append_assoc]
        exact hp'.append_right _
      · simp only [setq_ne _ _ hp]; exact hp'
    · intro h p
      have hkeep : ∀ g ∈ s.futs, (g.queued = true ∨ g.pc = .gone) → ∃ x ∈ setFut s.futs { f with state := f.state - acq, queued := true, pc := .idle }, x.id = g.id ∧ (x.queued = true ∨ x.pc = .gone) :=
        (mono_set (s' := { s with futs := setFut s.futs { f with state := f.state - acq, queued := true, pc := .idle } })
          (f' := { f with state := f.state - acq, queued := true, pc := .idle }) I hf rfl rfl (fun _ => Or.inl rfl)).keep
      have h1 := (h p).1
      have h2 := (h p).2
      rw [hjoined] at h1 h2
      rw [hfu] at h2
      have h3 : ∀ id ∈ s.joined p, ∃ x ∈ setFut s.futs { f with state := f.state - acq, queued := true, pc := .idle }, x.id = id ∧ (x.queued = true ∨ x.pc = .gone) := by
        intro id hid
        obtain ⟨g, hg, e1, e2⟩ := h2 id hid
        obtain ⟨x, hx, e3, e4⟩ := hkeep g hg e2
        exact ⟨x, hx, e3.trans e1, e4⟩
      show (setq s.joined f.prio (s.joined f.prio ++ [f.id]) p).Nodup ∧ ∀ id ∈ setq s.joined f.prio (s.joined f.prio ++ [f.id]) p, _
      by_cases hp : p = f.prio
      · subst hp
        simp only [setq_same]
        refine ⟨?_, ?_⟩
        · rw [List.nodup_append]
          refine ⟨h1, by simp, ?_⟩
          intro a ha b hb
          simp at hb
          subst hb
          intro e
          subst e
          obtain ⟨g, hg, e1, e2⟩ := h2 _ ha
          obtain rfl := List.inj_on_of_nodup_map I.ids hg hf e1
          rcases e2 with e2 | e2
          · rw [hqd] at e2; simp at e2
          · exact hpc e2
        · intro id hid
          rcases List.mem_append.1 hid with hid | hid
          · exact h3 id hid
          · simp at hid
            subst hid
            exact ⟨_, mem_setFut.2 (Or.inl ⟨rfl, f, hf, rfl⟩), rfl, Or.inl rfl⟩
      · simp only [setq_ne _ _ hp]
        exact ⟨h1, h3⟩
    · have hs := ownedSum_set (f' := { f with state := f.state - acq, queued := true, pc := .idle }) I.ids hf rfl
      have h1 : owned { f with state := f.state - acq, queued := true, pc := .idle } = f.num - (f.state - acq) := rfl
      unfold total at h0 ⊢
      simp only
      rw [hcr]
      omega
    · intro h; exact absurd hserved.symm (by intro he; apply h; show s.served false = _; rw [he])
    · intro hc; rw [hcl, hclosed] at hc; simp at hc
    · intro hc; rw [hcl, hclosed] at hc; simp at hc
    · intro _; exact hlost.symm
    · rw [hcr]; rfl

end Tycho.Semaphore
