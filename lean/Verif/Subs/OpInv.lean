import Verif.Subs.SubStep

/-! The phase of a call against its operation; the mutexes; the limits. -/
namespace Tycho.Subs

def Cont.ok (op : Op) : Cont → Prop
  | .unsub rest done => op = .unsub (done ++ rest)
  | .purge _ fin => op = if fin then .remove else .clear
  | .cap done => ∃ rest, op = .sub (done ++ rest)

def Phase.ok (op : Op) : Phase → Prop
  | .wait o => op = o
  | .subLoop todo done => op = .sub (done ++ todo)
  | .subRev a _ _ rest done => op = .sub (done ++ a :: rest)
  | .subFwd a _ _ rest done => op = .sub (done ++ a :: rest)
  | .atCap _ _ _ done => ∃ rest, op = .sub (done ++ rest)
  | .capEnd done => ∃ rest, op = .sub (done ++ rest)
  | .unsubLoop todo done => op = .unsub (done ++ todo)
  | .unsubRev a _ rest done => op = .unsub (done ++ a :: rest)
  | .cleanup _ c => c.ok op
  | .rm1 _ _ c => c.ok op
  | .rm2 _ c => c.ok op
  | .detach => op = .remove
  | .purgeStart fin => op = if fin then .remove else .clear
  | .purge _ fin => op = if fin then .remove else .clear
  | .reclaim => op = .remove
  | .exit .ok subs unsubs => (op = .sub subs ∧ unsubs = []) ∨ (op = .unsub unsubs ∧ subs = [])
  | .exit _ subs unsubs => (∃ rest, op = .sub (subs ++ rest) ∧ unsubs = []) ∨ (∃ rest, op = .unsub (unsubs ++ rest) ∧ subs = [])
  | .cleared => op = .clear
  | .leave => op = .remove

/-- The phase fits the operation. -/
def OpInv (s : State) : Prop := ∀ t k, s.thr t = some k → k.ph.ok k.op

theorem contPhase_ok {c : Cont} {op : Op} (h : c.ok op) : c.phase.ok op := by cases c <;> exact h

theorem opInv_goto {s s0 : State} (h : OpInv s) {t : Nat} {k : Call} {ph : Phase} (ht : s0.thr = s.thr) (hp : ph.ok k.op) : OpInv (s0.goto t k ph) := by
  intro x k' hx
  have hx : upd s0.thr t (some { k with ph := ph }) x = some k' := hx
  rcases thr_upd hx with ⟨_, rfl⟩ | ⟨_, hx⟩
  · exact hp
  · rw [ht] at hx; exact h x k' hx

theorem opInv_stepThread {s s' : State} (h : OpInv s) {t : Nat} {k : Call} (hk : s.thr t = some k) {c : Choice}
    (hs : stepThread s t k c = some s') : OpInv s' := by
  have ho := h t k hk
  unfold stepThread at hs
  split at hs
  · rename_i op hph
    rw [hph] at ho
    obtain rfl : k.op = op := ho
    split at hs
    · simp at hs
    · obtain rfl := Option.some.inj hs
      refine opInv_goto h rfl ?_
      unfold startPhase
      split
      · rename_i addrs heq
        split
        · rename_i ha
          subst ha
          exact .inl ⟨heq, rfl⟩
        · exact heq
      · rename_i addrs heq; exact heq
      · rename_i heq; exact heq
      · rename_i heq; exact heq
  · rename_i done hph
    rw [hph] at ho
    obtain rfl := Option.some.inj hs
    refine opInv_goto h rfl (.inl ⟨?_, rfl⟩)
    have ho : k.op = .sub (done ++ []) := ho
    rw [List.append_nil] at ho
    exact ho
  · rename_i a rest done hph
    rw [hph] at ho
    unfold stepEnsure at hs
    split at hs
    · obtain rfl := Option.some.inj hs
      exact opInv_goto h rfl ho
    · split at hs
      · simp at hs
      · obtain rfl := Option.some.inj hs
        exact opInv_goto h rfl ho
      · obtain rfl := Option.some.inj hs
        exact opInv_goto h rfl (.inl ⟨a :: rest, ho, rfl⟩)
  · rename_i a aid created rest done hph
    rw [hph] at ho
    obtain rfl := Option.some.inj hs
    unfold stepSubRev
    split
    · exact opInv_goto h rfl ho
    · split
      · exact opInv_goto h rfl ⟨_, ho⟩
      · exact opInv_goto h rfl ho
  · rename_i a aid created rest done hph
    rw [hph] at ho
    obtain rfl := Option.some.inj hs
    unfold stepSubFwd
    split
    · split
      · refine opInv_goto h rfl ?_
        show k.op = .sub (done ++ [a] ++ rest)
        rw [List.append_assoc]
        exact ho
      · exact opInv_goto h rfl ho
    · exact opInv_goto h rfl ho
  · rename_i a aid created done hph
    rw [hph] at ho
    obtain rfl := Option.some.inj hs
    unfold stepAtCap
    split
    · split
      · exact opInv_goto h rfl ho
      · exact opInv_goto h rfl ho
    · exact opInv_goto h rfl ho
  · rename_i done hph
    rw [hph] at ho
    obtain ⟨rest, ho⟩ := ho
    obtain rfl := Option.some.inj hs
    exact opInv_goto h rfl (.inl ⟨rest, ho, rfl⟩)
  · rename_i done hph
    rw [hph] at ho
    obtain rfl := Option.some.inj hs
    refine opInv_goto h rfl (.inr ⟨?_, rfl⟩)
    have ho : k.op = .unsub (done ++ []) := ho
    rw [List.append_nil] at ho
    exact ho
  · rename_i a rest done hph
    rw [hph] at ho
    split at hs
    · obtain rfl := Option.some.inj hs
      exact opInv_goto h rfl (.inr ⟨_, ho, rfl⟩)
    · obtain rfl := Option.some.inj hs
      exact opInv_goto h rfl ho
  · rename_i a aid rest done hph
    rw [hph] at ho
    obtain rfl := Option.some.inj hs
    unfold stepUnsubRev
    split
    · exact opInv_goto h rfl (.inr ⟨_, ho, rfl⟩)
    · split
      · refine opInv_goto h rfl ?_
        show k.op = .unsub (done ++ [a] ++ rest)
        rw [List.append_assoc]
        exact ho
      · exact opInv_goto h rfl (.inr ⟨_, ho, rfl⟩)
  · rename_i a co hph
    rw [hph] at ho
    obtain rfl := Option.some.inj hs
    unfold stepCleanup
    split
    · exact opInv_goto h rfl (contPhase_ok ho)
    · split
      · exact opInv_goto h rfl ho
      · exact opInv_goto h rfl (contPhase_ok ho)
  · rename_i aid a co hph
    rw [hph] at ho
    obtain rfl := Option.some.inj hs
    exact opInv_goto h rfl ho
  · rename_i aid co hph
    rw [hph] at ho
    obtain rfl := Option.some.inj hs
    exact opInv_goto h rfl (contPhase_ok ho)
  · rename_i hph
    rw [hph] at ho
    obtain rfl := Option.some.inj hs
    unfold stepDetach
    split
    · exact opInv_goto h rfl ho
    · split
      · exact opInv_goto h rfl ho
      · exact opInv_goto h rfl ho
  · rename_i fin hph
    rw [hph] at ho
    obtain rfl := Option.some.inj hs
    exact opInv_goto h rfl ho
  · rename_i aids fin hph
    rw [hph] at ho
    obtain rfl := Option.some.inj hs
    unfold stepPurge
    split
    · refine opInv_goto h rfl ?_
      cases fin
      · exact ho
      · exact ho
    · split
      · exact opInv_goto h rfl ho
      · exact opInv_goto h rfl ho
  · rename_i hph
    rw [hph] at ho
    obtain rfl := Option.some.inj hs
    exact opInv_goto h rfl ho
  all_goals
    obtain rfl := Option.some.inj hs
    intro x k' hx
    have hx : upd s.thr t none x = some k' := hx
    by_cases hxt : x = t
    · subst hxt; rw [upd_same] at hx; simp at hx
    · rw [upd_ne _ _ hxt] at hx; exact h x k' hx

theorem opInv_begin {s s' : State} (h : OpInv s) {t u : Nat} {op : Op} {c : Choice} (hs : begin s t u op c = some s') : OpInv s' := by
  have hw : ∀ s0 : State, OpInv s0 → ∀ id lk, OpInv { s0 with thr := upd s0.thr t (some ⟨u, id, lk, op, .wait op⟩) } := by
    intro s0 h0 id lk x k' hx
    have hx : upd s0.thr t (some ⟨u, id, lk, op, .wait op⟩) x = some k' := hx
    rcases thr_upd hx with ⟨_, rfl⟩ | ⟨_, hx⟩
    · rfl
    · exact h0 x k' hx
  have hn : ∀ {s1 r}, newEntry s u c = some (r, s1) → OpInv s1 := by
    intro s1 r h1 x k' hx
    rw [(newEntry_frame h1).2.2.2.2.1] at hx
    exact h x k' hx
  rcases begin_cases hs with rfl | ⟨id, lk, hr', rfl⟩ | ⟨s1, hr', h1, rfl⟩ | ⟨s1, id, lk, hr', h1, rfl⟩
  · exact h
  · exact hw s h id lk
  · exact hn h1
  · exact hw s1 (hn h1) id lk

theorem opInv_step {s s' : State} (h : OpInv s) {e : Ev} (hs : step s e = some s') : OpInv s' := by
  cases e with
  | register u c =>
    simp only [step] at hs
    split at hs
    · obtain rfl := Option.some.inj hs; exact h
    · rw [Option.map_eq_some_iff] at hs
      obtain ⟨⟨r, s1⟩, h1, rfl⟩ := hs
      intro x k' hx
      rw [(newEntry_frame h1).2.2.2.2.1] at hx
      exact h x k' hx
  | start t u op c =>
    simp only [step] at hs
    split at hs
    · simp at hs
    · exact opInv_begin h hs
  | go t c =>
    simp only [step] at hs
    split at hs
    · simp at hs
    · rename_i k hk
      exact opInv_stepThread h hk hs

/-! ### What a step of a thread leaves as it is -/

/-- A locked mutex has a holder. -/
def LockInv (s : State) : Prop := ∀ l, s.locked l = true → ∃ t k, s.thr t = some k ∧ k.lk = l ∧ ∀ op, k.ph ≠ .wait op

/-- The limits never change. -/
def Limits (cap ma mc : Nat) (s : State) : Prop := s.cap = cap ∧ s.apool.max = ma ∧ s.cpool.max = mc

theorem alloc_max {p p' : Pool} {c : Choice} {r : Option Nat} (h : p.alloc c = some (r, p')) : p'.max = p.max := by
  unfold Pool.alloc at h
  split at h
  · split at h
    · simp only [Option.some.injEq, Prod.mk.injEq] at h; rw [← h.2]
    · simp at h
  · split at h
    · simp only [Option.some.injEq, Prod.mk.injEq] at h; rw [← h.2]
    · simp at h
  · split at h
    · simp at h
    · simp only [Option.some.injEq, Prod.mk.injEq] at h; rw [← h.2]

theorem startPhase_ne (op o : Op) : startPhase op ≠ .wait o := by
  unfold startPhase; split
  · split <;> simp
  all_goals simp

theorem contPhase_ne (c : Cont) (o : Op) : c.phase ≠ .wait o := by cases c <;> simp [Cont.phase]

/-- A step of a call: it goes to another phase, or takes its mutex, or returns it and ends. -/
inductive Shape (s : State) (t : Nat) (k : Call) (s' : State) : Prop
  | goto (ph : Phase) (h1 : s'.thr = upd s.thr t (some { k with ph := ph })) (h2 : ∀ o, ph ≠ .wait o) (h3 : s'.locked = s.locked ∨ s'.locked = upd s.locked k.lk true)
  | finish (h1 : s'.thr = upd s.thr t none) (h2 : s'.locked = upd s.locked k.lk false)

theorem shape {s s' : State} {t : Nat} {k : Call} {c : Choice} (hs : stepThread s t k c = some s') : Shape s t k s' := by
  unfold stepThread at hs
  split at hs
  · split at hs
    · simp at hs
    · obtain rfl := Option.some.inj hs
      exact .goto _ rfl (startPhase_ne _) (.inr rfl)
  · obtain rfl := Option.some.inj hs
    exact .goto _ rfl (by simp) (.inl rfl)
  · unfold stepEnsure at hs
    split at hs
    · obtain rfl := Option.some.inj hs
      exact .goto _ rfl (by simp) (.inl rfl)
    · split at hs
      · simp at hs
      all_goals
        obtain rfl := Option.some.inj hs
        exact .goto _ rfl (by simp) (.inl rfl)
  · obtain rfl := Option.some.inj hs
    unfold stepSubRev
    split
    · exact .goto _ rfl (by simp) (.inl rfl)
    · split
      all_goals exact .goto _ rfl (by simp) (.inl rfl)
  · obtain rfl := Option.some.inj hs
    unfold stepSubFwd
    split
    · split
      all_goals exact .goto _ rfl (by simp) (.inl rfl)
    · exact .goto _ rfl (by simp) (.inl rfl)
  · obtain rfl := Option.some.inj hs
    unfold stepAtCap
    split
    · split
      all_goals exact .goto _ rfl (by simp) (.inl rfl)
    · exact .goto _ rfl (by simp) (.inl rfl)
  · obtain rfl := Option.some.inj hs
    exact .goto _ rfl (by simp) (.inl rfl)
  · obtain rfl := Option.some.inj hs
    exact .goto _ rfl (by simp) (.inl rfl)
  · split at hs
    all_goals
      obtain rfl := Option.some.inj hs
      exact .goto _ rfl (by simp) (.inl rfl)
  · obtain rfl := Option.some.inj hs
    unfold stepUnsubRev
    split
    · exact .goto _ rfl (by simp) (.inl rfl)
    · split
      all_goals exact .goto _ rfl (by simp) (.inl rfl)
  · obtain rfl := Option.some.inj hs
    unfold stepCleanup
    split
    · exact .goto _ rfl (contPhase_ne _) (.inl rfl)
    · split
      · exact .goto _ rfl (by simp) (.inl rfl)
      · exact .goto _ rfl (contPhase_ne _) (.inl rfl)
  · obtain rfl := Option.some.inj hs
    exact .goto _ rfl (by simp) (.inl rfl)
  · obtain rfl := Option.some.inj hs
    exact .goto _ rfl (contPhase_ne _) (.inl rfl)
  · obtain rfl := Option.some.inj hs
    unfold stepDetach
    split
    · exact .goto _ rfl (by simp) (.inl rfl)
    · split
      all_goals exact .goto _ rfl (by simp) (.inl rfl)
  · obtain rfl := Option.some.inj hs
    exact .goto _ rfl (by simp) (.inl rfl)
  · obtain rfl := Option.some.inj hs
    unfold stepPurge
    split
    · refine .goto _ rfl ?_ (.inl rfl)
      intro o; split <;> simp
    · split
      all_goals exact .goto _ rfl (by simp) (.inl rfl)
  · obtain rfl := Option.some.inj hs
    exact .goto _ rfl (by simp) (.inl rfl)
  all_goals
    obtain rfl := Option.some.inj hs
    exact .finish rfl rfl

theorem lockInv_wait {s s' : State} (h : LockInv s) {t : Nat} (hn : s.thr t = none) (hl : s'.locked = s.locked) (ht : ∀ x, x ≠ t → s'.thr x = s.thr x) : LockInv s' := by
  intro l h0
  rw [hl] at h0
  obtain ⟨x, k, h1, h2⟩ := h l h0
  refine ⟨x, k, ?_, h2⟩
  rw [ht x (by rintro rfl; rw [hn] at h1; simp at h1)]
  exact h1

theorem lockInv_newEntry {s s' : State} (h : LockInv s) {u : Nat} {c : Choice} {r : Option (Nat × Nat)} (he : newEntry s u c = some (r, s')) : LockInv s' := by
  rcases newEntry_cases he with ⟨_, rfl⟩ | ⟨id, p, _, _, rfl⟩
  · exact h
  · exact h

theorem lockInv_step {s s' : State} (h : LockInv s) {e : Ev} (hs : step s e = some s') : LockInv s' := by
  cases e with
  | register u c =>
    simp only [step] at hs
    split at hs
    · obtain rfl := Option.some.inj hs; exact h
    · rw [Option.map_eq_some_iff] at hs
      obtain ⟨⟨r, s1⟩, h1, rfl⟩ := hs
      exact lockInv_newEntry h h1
  | start t u op c =>
    simp only [step] at hs
    split at hs
    · simp at hs
    · rename_i hn
      rcases begin_cases hs with rfl | ⟨id, lk, hr', rfl⟩ | ⟨s1, hr', h1, rfl⟩ | ⟨s1, id, lk, hr', h1, rfl⟩
      · exact h
      · exact lockInv_wait h hn rfl (fun x hx => upd_ne _ _ hx)
      · exact lockInv_newEntry h h1
      · refine lockInv_wait (lockInv_newEntry h h1) (t := t) ?_ rfl (fun x hx => upd_ne _ _ hx)
        rw [(newEntry_frame h1).2.2.2.2.1]; exact hn
  | go t c =>
    simp only [step] at hs
    split at hs
    · simp at hs
    · rename_i k hk
      cases shape hs with
      | goto ph h1 h2 h3 =>
        intro l hl
        by_cases hlk : l = k.lk
        · subst hlk
          exact ⟨t, { k with ph := ph }, by rw [h1]; exact upd_same .., rfl, h2⟩
        · have hl' : s.locked l = true := by
            rcases h3 with h3 | h3
            · rw [h3] at hl; exact hl
            · rw [h3, upd_ne _ _ hlk] at hl; exact hl
          obtain ⟨x, k', e1, e2, e3⟩ := h l hl'
          have hx : x ≠ t := by
            rintro rfl
            rw [hk] at e1; obtain rfl := Option.some.inj e1
            exact hlk e2.symm
          exact ⟨x, k', by rw [h1, upd_ne _ _ hx]; exact e1, e2, e3⟩
      | finish h1 h2 =>
        intro l hl
        rw [h2] at hl
        have hlk : l ≠ k.lk := by rintro rfl; rw [upd_same] at hl; simp at hl
        rw [upd_ne _ _ hlk] at hl
        obtain ⟨x, k', e1, e2, e3⟩ := h l hl
        have hx : x ≠ t := by
          rintro rfl
          rw [hk] at e1; obtain rfl := Option.some.inj e1
          exact hlk e2.symm
        exact ⟨x, k', by rw [h1, upd_ne _ _ hx]; exact e1, e2, e3⟩

theorem limits_stepThread {cap ma mc : Nat} {s s' : State} (h : Limits cap ma mc s) {t : Nat} {k : Call} {c : Choice}
    (hs : stepThread s t k c = some s') : Limits cap ma mc s' := by
  unfold stepThread at hs
  split at hs
  · split at hs
    · simp at hs
    · obtain rfl := Option.some.inj hs; exact h
  · obtain rfl := Option.some.inj hs; exact h
  · unfold stepEnsure at hs
    split at hs
    · obtain rfl := Option.some.inj hs; exact h
    · split at hs
      · simp at hs
      · rename_i ha
        obtain rfl := Option.some.inj hs
        exact ⟨h.1, (alloc_max ha).trans h.2.1, h.2.2⟩
      · obtain rfl := Option.some.inj hs; exact h
  · obtain rfl := Option.some.inj hs
    unfold stepSubRev
    split
    · exact h
    · split <;> exact h
  · obtain rfl := Option.some.inj hs
    unfold stepSubFwd
    split
    · split <;> exact h
    · exact h
  · obtain rfl := Option.some.inj hs
    unfold stepAtCap
    split
    · split <;> exact h
    · exact h
  · obtain rfl := Option.some.inj hs; exact h
  · obtain rfl := Option.some.inj hs; exact h
  · split at hs <;> obtain rfl := Option.some.inj hs <;> exact h
  · obtain rfl := Option.some.inj hs
    unfold stepUnsubRev
    split
    · exact h
    · split <;> exact h
  · obtain rfl := Option.some.inj hs
    unfold stepCleanup
    split
    · exact h
    · split <;> exact h
  · obtain rfl := Option.some.inj hs; exact h
  · obtain rfl := Option.some.inj hs; exact h
  · obtain rfl := Option.some.inj hs
    unfold stepDetach
    split
    · exact h
    · split <;> exact h
  · obtain rfl := Option.some.inj hs; exact h
  · obtain rfl := Option.some.inj hs
    unfold stepPurge
    split
    · exact h
    · split <;> exact h
  all_goals obtain rfl := Option.some.inj hs; exact h

theorem limits_newEntry {cap ma mc : Nat} {s s' : State} (h : Limits cap ma mc s) {u : Nat} {c : Choice} {r : Option (Nat × Nat)} (he : newEntry s u c = some (r, s')) :
    Limits cap ma mc s' := by
  rcases newEntry_cases he with ⟨_, rfl⟩ | ⟨id, p, ha, _, rfl⟩
  · exact h
  · exact ⟨h.1, h.2.1, (alloc_max ha).trans h.2.2⟩

theorem limits_step {cap ma mc : Nat} {s s' : State} (h : Limits cap ma mc s) {e : Ev} (hs : step s e = some s') : Limits cap ma mc s' := by
  cases e with
  | register u c =>
    simp only [step] at hs
    split at hs
    · obtain rfl := Option.some.inj hs; exact h
    · rw [Option.map_eq_some_iff] at hs
      obtain ⟨⟨r, s1⟩, h1, rfl⟩ := hs
      exact limits_newEntry h h1
  | start t u op c =>
    simp only [step] at hs
    split at hs
    · simp at hs
    · rcases begin_cases hs with rfl | ⟨id, lk, hr', rfl⟩ | ⟨s1, hr', h1, rfl⟩ | ⟨s1, id, lk, hr', h1, rfl⟩
      · exact h
      · exact h
      · exact limits_newEntry h h1
      · have := limits_newEntry h h1
        exact this
  | go t c =>
    simp only [step] at hs
    split at hs
    · simp at hs
    · exact limits_stepThread h hs

end Tycho.Subs
