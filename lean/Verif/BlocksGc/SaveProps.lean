import Verif.BlocksGc.SaveModel

namespace Tycho.BlocksGc

theorem set_same (f : Nat → Bool) (b : Nat) (v : Bool) : set f b v b = v := by simp [set]
theorem set_other (f : Nat → Bool) (b x : Nat) (v : Bool) (h : x ≠ b) : set f b v x = f x := by simp [set, h]
theorem set_true (f : Nat → Bool) (b x : Nat) (h : f x = true) : set f b true x = true := by
  by_cases hx : x = b <;> simp [set, hx, h]

structure SvInv (deps : Nat → List Nat) (s : Save) : Prop where
  flagging : ∀ m todo, s.phase = .flagging m todo → s.pending = some m ∧ ∃ pre, deps m = pre ++ todo ∧ ∀ b ∈ pre, s.skip b = true
  saving : ∀ m, s.phase = .saving m → s.pending = some m ∧ ∀ b ∈ deps m, s.skip b = true
  finishing : ∀ m todo, s.phase = .finishing m todo → s.pending = some m ∧ (∀ b ∈ deps m, s.skip b = true) ∧
    (∀ b ∈ todo, b ∈ deps m) ∧ m ∈ s.completed
  idle : s.phase = .idle → s.pending = none
  safe : ∀ m, s.pending = some m → (∀ b ∈ deps m, s.fin b = false) →
    ∀ b ∈ deps m, s.live b = true ∧ (s.skip b = true ∨ s.outdated b = false)
  fin : ∀ b, s.fin b = true → ∃ m ∈ s.completed, b ∈ deps m

theorem sv_step (deps : Nat → List Nat) (s s' : Save) (hi : SvInv deps s) (h : SaveStep deps s s') : SvInv deps s' := by
  cases h with
  | begin m hp hl =>
    refine ⟨?_, (fun _ h => nomatch h), (fun _ _ h => nomatch h), (fun h => nomatch h), ?_, hi.fin⟩
    · intro m' todo h; cases h; exact ⟨rfl, [], rfl, by simp⟩
    · intro m' h _ b hb; cases h; exact ⟨(hl b hb).1, .inr (hl b hb).2⟩
  | flag m b todo hp hl =>
    obtain ⟨h1, pre, h2, h3⟩ := hi.flagging m _ hp
    refine ⟨?_, (fun _ h => nomatch h), (fun _ _ h => nomatch h), (fun h => nomatch h), ?_, hi.fin⟩
    · intro m' todo' h; cases h
      refine ⟨h1, pre ++ [b], by rw [h2]; simp, ?_⟩
      intro x hx
      rcases List.mem_append.1 hx with hx | hx
      · exact set_true _ _ _ (h3 x hx)
      · rw [List.mem_singleton.1 hx]; exact set_same _ _ _
    · intro m' h hfin x hx
      obtain ⟨a, c⟩ := hi.safe m' h hfin x hx
      exact ⟨a, c.imp (set_true _ _ _) id⟩
  | missing m b todo hp hl =>
    exact ⟨(fun _ _ h => nomatch h), (fun _ h => nomatch h), (fun _ _ h => nomatch h), (fun h => nomatch h), hi.safe, hi.fin⟩
  | save m hp =>
    obtain ⟨h1, pre, h2, h3⟩ := hi.flagging m _ hp
    refine ⟨(fun _ _ h => nomatch h), ?_, (fun _ _ h => nomatch h), (fun h => nomatch h), hi.safe, hi.fin⟩
    intro m' h; cases h
    refine ⟨h1, fun b hb => ?_⟩
    rw [h2, List.append_nil] at hb
    exact h3 b hb
  | saved m hp =>
    refine ⟨(fun _ _ h => nomatch h), (fun _ h => nomatch h), ?_, (fun h => nomatch h), hi.safe, ?_⟩
    · intro m' todo h; cases h
      exact ⟨(hi.saving m hp).1, (hi.saving m hp).2, fun b hb => hb, by simp⟩
    · intro b hb
      obtain ⟨m', h1, h2⟩ := hi.fin b hb
      exact ⟨m', List.mem_cons_of_mem _ h1, h2⟩
  | finish m b todo hp =>
    obtain ⟨h1, h2, h3, h4⟩ := hi.finishing m _ hp
    have hb : b ∈ deps m := h3 b (by simp)
    refine ⟨(fun _ _ h => nomatch h), (fun _ h => nomatch h), ?_, (fun h => nomatch h), ?_, ?_⟩
    · intro m' todo' h; cases h; exact ⟨h1, h2, fun x hx => h3 x (by simp [hx]), h4⟩
    · intro m' h hfin x hx
      have hm : some m' = some m := h.symm.trans h1
      cases hm
      have := hfin b hb
      simp only [set_same] at this
      cases this
    · intro x hx
      by_cases hxb : x = b
      · rw [hxb]; exact ⟨m, h4, hb⟩
      · exact hi.fin x (by rw [← set_other s.fin b x true hxb]; exact hx)
  | done m hp =>
    exact ⟨(fun _ _ h => nomatch h), (fun _ h => nomatch h), (fun _ _ h => nomatch h), fun _ => rfl, (fun _ h => nomatch h), hi.fin⟩
  | advance out h1 h2 h3 =>
    refine ⟨hi.flagging, hi.saving, hi.finishing, hi.idle, ?_, hi.fin⟩
    intro m hpm hfin b hb
    refine ⟨(hi.safe m hpm hfin b hb).1, .inl ?_⟩
    have hpm' : s.pending = some m := hpm
    cases hp : s.phase with
    | idle => rw [hi.idle hp] at hpm'; cases hpm'
    | flagging m' todo => exact absurd hp (h1 m' todo)
    | stopped => exact absurd hp h2
    | saving m' =>
      obtain ⟨x, y⟩ := hi.saving m' hp
      rw [x] at hpm'; cases hpm'
      exact y b hb
    | finishing m' todo =>
      obtain ⟨x, y, _⟩ := hi.finishing m' todo hp
      rw [x] at hpm'; cases hpm'
      exact y b hb
  | gc b ho hb =>
    refine ⟨hi.flagging, hi.saving, hi.finishing, hi.idle, ?_, hi.fin⟩
    intro m hpm hfin x hx
    obtain ⟨a, c⟩ := hi.safe m hpm hfin x hx
    refine ⟨?_, c⟩
    by_cases hxb : x = b
    · subst hxb
      have hfx : s.fin x = false := hfin x hx
      rcases c with c | c
      · rw [c, hfx] at hb; cases hb
      · rw [c] at ho; cases ho
    · show set s.live b false x = true
      rw [set_other _ _ _ _ hxb]; exact a
  | stop =>
    exact ⟨(fun _ _ h => nomatch h), (fun _ h => nomatch h), (fun _ _ h => nomatch h), (fun h => nomatch h), hi.safe, hi.fin⟩
  | restart hp =>
    cases hpm : s.pending with
    | none =>
      refine ⟨(fun _ _ h => nomatch h), (fun _ h => nomatch h), (fun _ _ h => nomatch h), fun _ => rfl, ?_, hi.fin⟩
      intro m h; cases h
    | some m =>
      refine ⟨?_, (fun _ h => nomatch h), (fun _ _ h => nomatch h), (fun h => nomatch h), ?_, hi.fin⟩
      · intro m' todo h; cases h; exact ⟨rfl, [], rfl, by simp⟩
      · intro m' h; cases h; exact hi.safe m hpm

theorem sv_inv (deps : Nat → List Nat) (s : Save) (h : SaveExec deps s) : SvInv deps s := by
  induction h with
  | init =>
    exact ⟨(fun _ _ h => nomatch h), (fun _ h => nomatch h), (fun _ _ h => nomatch h), fun _ => rfl, (fun _ h => nomatch h),
      (fun _ h => nomatch h)⟩
  | step s s' _ hs ih => exact sv_step deps s s' ih hs

/-- While a persistent state is being saved, also after stops and restarts, none of its items is collected, unless an item
was released by a completed save (of an earlier persistent state, or of this one before it was taken off the list). -/
theorem items_protected (deps : Nat → List Nat) (s : Save) (h : SaveExec deps s) (m : Nat) (hp : s.pending = some m)
    (hn : ∀ m' ∈ s.completed, ∀ b ∈ deps m, b ∉ deps m') : ∀ b ∈ deps m, s.live b = true := by
  have hi := sv_inv deps s h
  intro b hb
  refine (hi.safe m hp (fun x hx => ?_) b hb).1
  cases hf : s.fin x with
  | false => rfl
  | true =>
    obtain ⟨m', h1, h2⟩ := hi.fin x hf
    exact absurd h2 (hn m' h1 x hx)

/-- A running task always belongs to the pending id on the disk, so a stop at any point is resumed. -/
theorem pending_while_running (deps : Nat → List Nat) (s : Save) (h : SaveExec deps s) :
    (∀ m todo, s.phase = .flagging m todo → s.pending = some m) ∧ (∀ m, s.phase = .saving m → s.pending = some m) ∧
    (∀ m todo, s.phase = .finishing m todo → s.pending = some m) ∧ (s.phase = .idle → s.pending = none) := by
  have hi := sv_inv deps s h
  exact ⟨fun m t hp => (hi.flagging m t hp).1, fun m hp => (hi.saving m hp).1, fun m t hp => (hi.finishing m t hp).1, hi.idle⟩

inductive Steps (deps : Nat → List Nat) : Save → Save → Prop
  | refl (s) : Steps deps s s
  | tail (s s' s'') : Steps deps s s' → SaveStep deps s' s'' → Steps deps s s''

/-- Finding: a node that stopped with a pending save one of whose items is gone never gets past setting the flags again, however
often it is restarted. -/
theorem stuck_forever (deps : Nat → List Nat) (s s' : Save) (m b : Nat) (hp : s.phase = .stopped) (hm : s.pending = some m)
    (hb : b ∈ deps m) (hl : s.live b = false) (hr : Steps deps s s') :
    s'.phase = .stopped ∨ ∃ todo, s'.phase = .flagging m todo ∧ todo ≠ [] := by
  have key : s'.pending = some m ∧ s'.live b = false ∧ (s'.phase = .stopped ∨ ∃ todo, s'.phase = .flagging m todo ∧ b ∈ todo) := by
    induction hr with
    | refl => exact ⟨hm, hl, .inl hp⟩
    | tail t t' _ hs ih =>
      obtain ⟨h1, h2, h3⟩ := ih
      cases hs with
      | begin m' hp' _ => rcases h3 with h3 | ⟨todo, h3, _⟩ <;> rw [hp'] at h3 <;> cases h3
      | flag m' b' todo hp' hl' =>
        rcases h3 with h3 | ⟨todo', h3, h4⟩
        · rw [hp'] at h3; cases h3
        · rw [hp'] at h3; cases h3
          refine ⟨h1, h2, .inr ⟨todo, rfl, ?_⟩⟩
          rcases List.mem_cons.1 h4 with rfl | h4
          · rw [h2] at hl'; cases hl'
          · exact h4
      | missing m' b' todo hp' hl' => exact ⟨h1, h2, .inl rfl⟩
      | save m' hp' =>
        rcases h3 with h3 | ⟨todo', h3, h4⟩
        · rw [hp'] at h3; cases h3
        · rw [hp'] at h3; cases h3; cases h4
      | saved m' hp' => rcases h3 with h3 | ⟨todo, h3, _⟩ <;> rw [hp'] at h3 <;> cases h3
      | finish m' b' todo hp' => rcases h3 with h3 | ⟨todo, h3, _⟩ <;> rw [hp'] at h3 <;> cases h3
      | done m' hp' => rcases h3 with h3 | ⟨todo, h3, _⟩ <;> rw [hp'] at h3 <;> cases h3
      | advance out _ _ _ => exact ⟨h1, h2, h3⟩
      | gc b' _ _ =>
        refine ⟨h1, ?_, h3⟩
        by_cases hx : b = b'
        · rw [hx]; exact set_same _ _ _
        · show set t.live b' false b = false
          rw [set_other _ _ _ _ hx]; exact h2
      | stop => exact ⟨h1, h2, .inl rfl⟩
      | restart hp' =>
        refine ⟨h1, h2, .inr ⟨deps m, ?_, hb⟩⟩
        simp only [h1]
  rcases key.2.2 with h | ⟨todo, h, h'⟩
  · exact .inl h
  · exact .inr ⟨todo, h, fun hn => by rw [hn] at h'; cases h'⟩

end Tycho.BlocksGc
