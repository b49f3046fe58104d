import Verif.Providers.Model
import Mathlib.Tactic.ByContra

namespace Tycho.Providers

theorem other_other (p : Part) : p.other.other = p := by cases p <;> rfl
theorem other_ne (p : Part) : p.other ≠ p := by cases p <;> exact fun h => nomatch h

/-! ### Cycle -/

structure CInv (n0 : Nat) (tr : List Ev) (s : CycleSt) : Prop where
  le : n0 ≤ s.n
  idle : s.next = .idle → ∀ k, s.cyc.switchAt = some k → k ≤ s.n
  ask : ∀ p, s.next = .asking p → s.cyc.choose (s.n + 1) = p
  got : ∀ p, s.next = .got p → s.cyc.choose (s.n + 1) = p ∧ .next p s.n ∈ tr
  bound : ∀ k, s.cyc.switchAt = some k → k ≤ s.n + 1
  old : ∀ k, s.cyc.switchAt = some k → k ≤ s.n → s.cleaned = false ∧ n0 < s.n ∧ ∃ p, .none p (s.n - 1) ∈ tr
  new : ∀ k, s.cyc.switchAt = some k → k = s.n + 1 → ∃ p, .none p s.n ∈ tr
  src : s.cleaned = false → n0 < s.n ∧ .next s.src (s.n - 1) ∈ tr
  right : s.cleaned = false → s.cyc.choose s.n = s.src ∨ ((∃ p, .none p (s.n - 1) ∈ tr) ∧ ∃ p, .none p s.n ∈ tr)
  only : ∀ p m, .next p m ∈ tr → n0 ≤ m ∧ (m < s.n ∨ (m = s.n ∧ s.next = .got p))
  uniq : ∀ p q m, .next p m ∈ tr → .next q m ∈ tr → p = q

theorem cinv_step (n0 : Nat) (tr : List Ev) (s : CycleSt) (es : List Ev) (s' : CycleSt) (hi : CInv n0 tr s)
    (h : CycleStep s es s') : CInv n0 (es ++ tr) s' := by
  have mono : ∀ e, e ∈ tr → e ∈ es ++ tr := fun e he => List.mem_append.2 (.inr he)
  have mex : ∀ m, (∃ p, Ev.none p m ∈ tr) → ∃ p, Ev.none p m ∈ es ++ tr := fun m ⟨p, hp⟩ => ⟨p, mono _ hp⟩
  have quiet : ∀ s'' : CycleSt, s''.cyc = s.cyc → s''.n = s.n → s''.src = s.src → s''.cleaned = s.cleaned →
      (s''.next = .idle → s.next = .idle) →
      (∀ p, s''.next = .asking p → s.next = .asking p ∨ (s.next = .idle ∧ p = s.cyc.choose s.n)) →
      (∀ p, s''.next = .got p → s.next = .got p) → (∀ p, s.next = .got p → s''.next = .got p) →
      (∀ p m, Ev.next p m ∉ es) → CInv n0 (es ++ tr) s'' := by
    intro s'' h1 h2 h3 h4 h5 h6 h7 h7' h8
    refine ⟨by rw [h2]; exact hi.le, ?_, ?_, ?_, ?_, ?_, ?_, ?_, ?_, ?_, ?_⟩
    · intro hn; rw [h1, h2]; exact hi.idle (h5 hn)
    · intro p hp; rw [h1, h2]
      rcases h6 p hp with h | ⟨h, rfl⟩
      · exact hi.ask p h
      · have hk := hi.idle h
        unfold Cycle.choose
        cases hs : s.cyc.switchAt with
        | none => rfl
        | some k => have := hk k hs; dsimp only; rw [if_pos (by omega : k ≤ s.n + 1), if_pos this]
    · intro p hp; rw [h1, h2]
      obtain ⟨a, b⟩ := hi.got p (h7 p hp)
      exact ⟨a, mono _ b⟩
    · rw [h1, h2]; exact hi.bound
    · rw [h1, h2, h4]; intro k a b
      obtain ⟨x, y, z⟩ := hi.old k a b
      exact ⟨x, y, mex _ z⟩
    · rw [h1, h2]; intro k a b; exact mex _ (hi.new k a b)
    · rw [h4, h2, h3]; intro a
      obtain ⟨x, y⟩ := hi.src a
      exact ⟨x, mono _ y⟩
    · rw [h4, h1, h2, h3]; intro a
      exact (hi.right a).imp id (fun ⟨x, y⟩ => ⟨mex _ x, mex _ y⟩)
    · intro p m hm
      rw [h2]
      rcases List.mem_append.1 hm with hm | hm
      · exact absurd hm (h8 p m)
      · obtain ⟨a, b⟩ := hi.only p m hm
        exact ⟨a, b.imp id (fun ⟨x, y⟩ => ⟨x, h7' p y⟩)⟩
    · intro p q m hp hq
      rcases List.mem_append.1 hp with hp | hp
      · exact absurd hp (h8 p m)
      rcases List.mem_append.1 hq with hq | hq
      · exact absurd hq (h8 q m)
      exact hi.uniq p q m hp hq
  cases h with
  | block hc => exact quiet s rfl rfl rfl rfl id (fun p h => .inl h) (fun p h => h) (fun p h => h) (by simp)
  | start hn =>
    refine quiet _ rfl rfl rfl rfl (fun h => (nomatch h)) ?_ (fun p h => (nomatch h)) ?_ (by simp)
    · intro p hp; cases hp; exact .inr ⟨hn, rfl⟩
    · intro p hp; rw [hn] at hp; cases hp
  | none p hn =>
    have hask := hi.ask p hn
    have hnm : ∀ q m, Ev.next q m ∈ [Ev.ask (s.cyc.toggle (s.n + 1)).2 s.n, .none p s.n] ++ tr → Ev.next q m ∈ tr := by
      intro q m hm; simpa using hm
    have htn : ∃ q, Ev.none q s.n ∈ [Ev.ask (s.cyc.toggle (s.n + 1)).2 s.n, .none p s.n] ++ tr := ⟨p, by simp⟩
    clear quiet
    generalize hT : s.cyc.toggle (s.n + 1) = T at *
    cases hs : s.cyc.switchAt with
    | none =>
      have htog : s.cyc.toggle (s.n + 1) = (⟨s.cyc.current, some (s.n + 1)⟩, s.cyc.current.other) := by
        unfold Cycle.toggle; rw [hs]
      rw [hT] at htog
      subst htog
      refine ⟨hi.le, fun h => (nomatch h), ?_, fun p h => (nomatch h), ?_, ?_, ?_, ?_, ?_, ?_, ?_⟩
      · intro q hq; cases hq
        show (if s.n + 1 ≤ s.n + 1 then _ else _) = _
        rw [if_pos (Nat.le_refl _)]
      · intro k hk; cases hk; exact Nat.le_refl _
      · intro k hk hle; cases hk; simp only at hle; omega
      · intro k hk _; exact htn
      · intro hc; obtain ⟨a, b⟩ := hi.src hc; exact ⟨a, mono _ b⟩
      · intro hc
        rcases hi.right hc with h | ⟨a, b⟩
        · left
          show (if s.n + 1 ≤ s.n then _ else s.cyc.current) = s.src
          rw [if_neg (by omega), ← h]
          unfold Cycle.choose; rw [hs]
        · exact .inr ⟨mex _ a, mex _ b⟩
      · intro q m hm
        obtain ⟨a, b⟩ := hi.only q m (hnm q m hm)
        refine ⟨a, .inl ?_⟩
        rcases b with b | ⟨_, b⟩
        · exact b
        · rw [hn] at b; cases b
      · intro q r m hq hr; exact hi.uniq q r m (hnm q m hq) (hnm r m hr)
    | some k =>
      have htog : s.cyc.toggle (s.n + 1) = (⟨s.cyc.current, none⟩, s.cyc.current) := by
        unfold Cycle.toggle; rw [hs]
      rw [hT] at htog
      subst htog
      refine ⟨hi.le, fun h => (nomatch h), ?_, fun p h => (nomatch h), ?_, ?_, ?_, ?_, ?_, ?_, ?_⟩
      · intro q hq; cases hq; rfl
      · intro k hk; cases hk
      · intro k hk; cases hk
      · intro k hk; cases hk
      · intro hc; obtain ⟨a, b⟩ := hi.src hc; exact ⟨a, mono _ b⟩
      · intro hc
        rcases hi.right hc with h | ⟨a, b⟩
        · by_cases hk : k ≤ s.n
          · obtain ⟨_, _, z⟩ := hi.old k hs hk
            exact .inr ⟨mex _ z, htn⟩
          · left
            show s.cyc.current = s.src
            rw [← h]
            unfold Cycle.choose; rw [hs]; dsimp only; rw [if_neg hk]
        · exact .inr ⟨mex _ a, mex _ b⟩
      · intro q m hm
        obtain ⟨a, b⟩ := hi.only q m (hnm q m hm)
        refine ⟨a, .inl ?_⟩
        rcases b with b | ⟨_, b⟩
        · exact b
        · rw [hn] at b; cases b
      · intro q r m hq hr; exact hi.uniq q r m (hnm q m hq) (hnm r m hr)
  | some p hn =>
    have hask := hi.ask p hn
    have hnm : ∀ q m, Ev.next q m ∈ [Ev.next p s.n] ++ tr → (q = p ∧ m = s.n) ∨ Ev.next q m ∈ tr := by
      intro q m hm; simpa using hm
    have hno : ∀ q, Ev.next q s.n ∉ tr := by
      intro q hq
      rcases (hi.only q _ hq).2 with h | ⟨_, h⟩
      · omega
      · rw [hn] at h; cases h
    refine ⟨hi.le, fun h => (nomatch h), fun p h => (nomatch h), ?_, hi.bound, ?_, ?_, ?_, ?_, ?_, ?_⟩
    · intro q hq; cases hq; exact ⟨hask, by simp⟩
    · intro k a b; obtain ⟨x, y, z⟩ := hi.old k a b; exact ⟨x, y, mex _ z⟩
    · intro k a b; exact mex _ (hi.new k a b)
    · intro hc; obtain ⟨a, b⟩ := hi.src hc; exact ⟨a, mono _ b⟩
    · intro hc; exact (hi.right hc).imp id (fun ⟨a, b⟩ => ⟨mex _ a, mex _ b⟩)
    · intro q m hm
      rcases hnm q m hm with ⟨rfl, rfl⟩ | hm
      · exact ⟨hi.le, .inr ⟨rfl, rfl⟩⟩
      · obtain ⟨a, b⟩ := hi.only q m hm
        refine ⟨a, .inl ?_⟩
        rcases b with b | ⟨_, b⟩
        · exact b
        · rw [hn] at b; cases b
    · intro q r m hq hr
      rcases hnm q m hq with ⟨g, g'⟩ | hq <;> rcases hnm r m hr with ⟨h, h'⟩ | hr
      · rw [g, h]
      · rw [g'] at hr; exact absurd hr (hno r)
      · rw [h'] at hq; exact absurd hq (hno q)
      · exact hi.uniq q r m hq hr
  | cleanup hc =>
    have hnm : ∀ q m, Ev.next q m ∈ [Ev.cleaned s.n, .cleanup .right s.n, .cleanup .left s.n] ++ tr → Ev.next q m ∈ tr := by
      intro q m hm; simpa using hm
    have hch : ∀ j, s.n ≤ j → (s.cyc.apply s.n).choose j = s.cyc.choose j := by
      intro j hj
      unfold Cycle.apply
      cases hs : s.cyc.switchAt with
      | none => rfl
      | some k =>
        dsimp only
        split
        · rename_i hk
          simp only [Cycle.choose, hs]
          rw [if_pos (by omega)]
        · rfl
    have hsw : ∀ k, (s.cyc.apply s.n).switchAt = some k → s.cyc.switchAt = some k ∧ ¬ k ≤ s.n := by
      intro k hk
      unfold Cycle.apply at hk
      cases hs : s.cyc.switchAt with
      | none => rw [hs] at hk; dsimp only at hk; rw [hs] at hk; cases hk
      | some j =>
        rw [hs] at hk
        dsimp only at hk
        split at hk
        · cases hk
        · rw [hs] at hk; cases hk; exact ⟨rfl, by assumption⟩
    refine ⟨hi.le, ?_, ?_, ?_, ?_, ?_, ?_, fun h => (nomatch h), fun h => (nomatch h), ?_, ?_⟩
    · intro hn k hk
      obtain ⟨a, b⟩ := hsw k hk
      exact hi.idle hn k a
    · intro p hp; show (s.cyc.apply s.n).choose (s.n + 1) = p
      rw [hch _ (by omega)]; exact hi.ask p hp
    · intro p hp; show (s.cyc.apply s.n).choose (s.n + 1) = p ∧ _
      rw [hch _ (by omega)]
      obtain ⟨a, b⟩ := hi.got p hp
      exact ⟨a, mono _ b⟩
    · intro k hk; exact hi.bound k (hsw k hk).1
    · intro k hk hle; exact absurd hle (hsw k hk).2
    · intro k hk he; exact mex _ (hi.new k (hsw k hk).1 he)
    · intro q m hm; exact hi.only q m (hnm q m hm)
    · intro q r m hq hr; exact hi.uniq q r m (hnm q m hq) (hnm r m hr)
  | begin p hn hc =>
    have hnm : ∀ q m, Ev.next q m ∈ [Ev.begin (s.n + 1)] ++ tr → Ev.next q m ∈ tr := by intro q m hm; simpa using hm
    obtain ⟨hg, hgt⟩ := hi.got p hn
    have hle := hi.le
    refine ⟨by simp only; omega, ?_, fun p h => (nomatch h), fun p h => (nomatch h), ?_, ?_, ?_, ?_, ?_, ?_, ?_⟩
    · intro _ k hk; exact hi.bound k hk
    · intro k hk; have := hi.bound k hk; simp only; omega
    · intro k hk hk'
      refine ⟨rfl, by simp only; omega, ?_⟩
      simp only [Nat.add_sub_cancel]
      by_cases hx : k = s.n + 1
      · exact mex _ (hi.new k hk hx)
      · have hb := hi.bound k hk
        have := (hi.old k hk (by omega)).1
        rw [hc] at this; cases this
    · intro k hk he; have := hi.bound k hk; simp only at he; omega
    · intro _
      refine ⟨by simp only; omega, ?_⟩
      simp only [Nat.add_sub_cancel]
      exact mono _ hgt
    · intro _; exact .inl hg
    · intro q m hm
      obtain ⟨a, b⟩ := hi.only q m (hnm q m hm)
      refine ⟨a, .inl ?_⟩
      simp only
      rcases b with b | ⟨b, _⟩ <;> omega
    · intro q r m hq hr; exact hi.uniq q r m (hnm q m hq) (hnm r m hr)

theorem cycle_inv (n0 : Nat) (tr : List Ev) (s : CycleSt) (h : CycleExec n0 tr s) : CInv n0 tr s := by
  induction h with
  | init =>
    exact ⟨Nat.le_refl _, (fun _ k h => nomatch h), (fun p h => nomatch h), (fun p h => nomatch h), (fun k h => nomatch h),
      (fun k h => nomatch h), (fun k h => nomatch h), (fun h => nomatch h), (fun h => nomatch h), by simp, by simp⟩
  | step tr s es s' _ hs ih => exact cinv_step n0 tr s es s' ih hs

/-- Cycle: shard blocks of a masterchain block are asked of the provider that returned that block, except when both
the call that returned it and the call for the next one met an exhausted provider. -/
theorem cycle_block_same_provider (n0 : Nat) (tr : List Ev) (s s' : CycleSt) (h : CycleExec n0 tr s) (es : List Ev)
    (hs : CycleStep s es s') (p : Part) (n : Nat) (hb : .block p n ∈ es) :
    (.next p (n - 1) ∈ tr ∧ ∀ q, .next q (n - 1) ∈ tr → q = p) ∨
    ((∃ q, .none q (n - 1) ∈ tr) ∧ ∃ q, .none q n ∈ tr) := by
  have hi := cycle_inv n0 tr s h
  cases hs with
  | block hc =>
    simp only [List.mem_singleton, Ev.block.injEq] at hb
    obtain ⟨rfl, rfl⟩ := hb
    rcases hi.right hc with hr | hr
    · have := (hi.src hc).2
      rw [← hr] at this
      exact .inl ⟨this, fun q hq => hi.uniq q _ _ hq this⟩
    · exact .inr hr
  | _ => simp at hb

/-- Cycle: an exhausted provider is always followed by the other one, so both are asked again and again. -/
theorem cycle_alternates (n0 : Nat) (tr : List Ev) (s s' : CycleSt) (h : CycleExec n0 tr s) (es : List Ev)
    (hs : CycleStep s es s') (p : Part) (n : Nat) (hb : .none p n ∈ es) : .ask p.other n ∈ es := by
  have hi := cycle_inv n0 tr s h
  cases hs with
  | none q hn =>
    simp only [List.mem_cons, List.not_mem_nil, or_false, reduceCtorEq, false_or, Ev.none.injEq] at hb
    obtain ⟨rfl, rfl⟩ := hb
    have hask := hi.ask p hn
    have : (s.cyc.toggle (s.n + 1)).2 = p.other := by
      unfold Cycle.toggle
      unfold Cycle.choose at hask
      cases hs : s.cyc.switchAt with
      | none => rw [hs] at hask; dsimp only at hask ⊢; rw [hask]
      | some k =>
        rw [hs] at hask
        dsimp only at hask ⊢
        rw [if_pos (hi.bound k hs)] at hask
        rw [← hask, other_other]
    rw [this]; simp
  | _ => simp at hb

/-- Cycle: the first provider asked for the next block is the one that returned the block in progress, unless that
one's shard blocks are affected as above. -/
theorem cycle_next_starts_same (n0 : Nat) (tr : List Ev) (s s' : CycleSt) (h : CycleExec n0 tr s) (es : List Ev)
    (hs : CycleStep s es s') (hidle : s.next = .idle) (hc : s.cleaned = false) (p : Part) (n : Nat) (hb : .ask p n ∈ es) :
    .next p (n - 1) ∈ tr ∨ ((∃ q, .none q (n - 1) ∈ tr) ∧ ∃ q, .none q n ∈ tr) := by
  have hi := cycle_inv n0 tr s h
  cases hs with
  | start hn =>
    simp only [List.mem_singleton, Ev.ask.injEq] at hb
    obtain ⟨rfl, rfl⟩ := hb
    rcases hi.right hc with hr | hr
    · have := (hi.src hc).2
      rw [← hr] at this
      exact .inl this
    · exact .inr hr
  | none q hn => rw [hidle] at hn; cases hn
  | _ => simp at hb

/-! ### Chain -/

structure ChInv (n0 : Nat) (tr : List Ev) (s : ChainSt) : Prop where
  le : n0 ≤ s.n
  active : s.st = .active → (∀ m, .none .left m ∉ tr) ∧ s.src = .left ∧ (∀ p, s.next = .asking p ∨ s.next = .got p → p = .left)
  leaving : ∀ k, s.st = .leaving k → ∃ m, k = m + 1 ∧ .none .left m ∈ tr ∧ (m = s.n ∨ (m + 1 = s.n ∧ s.cleaned = false))
  gone : s.st = .gone → ∃ m, .none .left m ∈ tr ∧ .cleanup .left (m + 1) ∈ tr ∧ m + 1 ≤ s.n
  moved : s.st ≠ .active → ∀ p, s.next = .asking p ∨ s.next = .got p →
    p = .right ∨ (p = .left ∧ .none .left s.n ∉ tr ∧ False)
  one : ∀ m m', .none .left m ∈ tr → .none .left m' ∈ tr → m = m'
  none : ∀ m, .none .left m ∈ tr → s.st ≠ .active ∧ m ≤ s.n
  cl : ∀ j m, .cleanup .left j ∈ tr → .none .left m ∈ tr → j ≤ m + 1
  srcR : s.src = .right → ∃ m, .none .left m ∈ tr ∧ m < s.n
  srcL : s.src = .left → ∀ m, .none .left m ∈ tr → m = s.n
  src : s.cleaned = false → .next s.src (s.n - 1) ∈ tr
  got : ∀ p, s.next = .got p → .next p s.n ∈ tr
  clj : ∀ p j, .cleanup p j ∈ tr → j ≤ s.n

theorem chain_step (n0 : Nat) (tr : List Ev) (s : ChainSt) (es : List Ev) (s' : ChainSt) (hi : ChInv n0 tr s)
    (h : ChainStep s es s') : ChInv n0 (es ++ tr) s' := by
  cases h with
  | block hc =>
    have hmem : ∀ m, Ev.none .left m ∈ [Ev.block s.st.choose s.n] ++ tr ↔ Ev.none .left m ∈ tr := by simp
    have hmc : ∀ p m, Ev.cleanup p m ∈ [Ev.block s.st.choose s.n] ++ tr ↔ Ev.cleanup p m ∈ tr := by simp
    have hmn : ∀ p m, Ev.next p m ∈ [Ev.block s.st.choose s.n] ++ tr ↔ Ev.next p m ∈ tr := by simp
    refine ⟨hi.le, ?_, ?_, ?_, ?_, ?_, ?_, ?_, ?_, ?_, ?_, ?_, ?_⟩ <;> simp only [hmem, hmc, hmn]
    · exact hi.active
    · exact hi.leaving
    · exact hi.gone
    · exact hi.moved
    · exact hi.one
    · exact hi.none
    · exact hi.cl
    · exact hi.srcR
    · exact hi.srcL
    · exact hi.src
    · exact hi.got
    · exact hi.clj
  | start hn =>
    have hmem : ∀ m, Ev.none .left m ∈ [Ev.ask s.st.choose s.n] ++ tr ↔ Ev.none .left m ∈ tr := by simp
    have hmc : ∀ p m, Ev.cleanup p m ∈ [Ev.ask s.st.choose s.n] ++ tr ↔ Ev.cleanup p m ∈ tr := by simp
    have hmn : ∀ p m, Ev.next p m ∈ [Ev.ask s.st.choose s.n] ++ tr ↔ Ev.next p m ∈ tr := by simp
    refine ⟨hi.le, ?_, ?_, ?_, ?_, ?_, ?_, ?_, ?_, ?_, ?_, ?_, ?_⟩ <;> simp only [hmem, hmc, hmn]
    · intro h
      obtain ⟨a, b, _⟩ := hi.active h
      refine ⟨a, b, ?_⟩
      rintro p (hp | hp) <;> cases hp
      rw [h]; rfl
    · exact hi.leaving
    · exact hi.gone
    · rintro h p (hp | hp) <;> cases hp
      left
      cases hst : s.st with
      | active => exact absurd hst h
      | leaving k => rfl
      | gone => rfl
    · exact hi.one
    · exact hi.none
    · exact hi.cl
    · exact hi.srcR
    · exact hi.srcL
    · exact hi.src
    · intro p hp; cases hp
    · exact hi.clj
  | noneLeft hn =>
    have hact : s.st = .active := by
      by_contra hna
      rcases hi.moved hna .left (.inl hn) with h | ⟨_, _, h⟩
      · cases h
      · exact h
    obtain ⟨hno, hsrc, _⟩ := hi.active hact
    have hmem : ∀ m, Ev.none .left m ∈ [Ev.ask .right s.n, .none .left s.n] ++ tr ↔ m = s.n := by
      intro m; simp [hno m]
    have hmc : ∀ p m, Ev.cleanup p m ∈ [Ev.ask .right s.n, .none .left s.n] ++ tr ↔ Ev.cleanup p m ∈ tr := by simp
    have hmn : ∀ p m, Ev.next p m ∈ [Ev.ask .right s.n, .none .left s.n] ++ tr ↔ Ev.next p m ∈ tr := by simp
    refine ⟨hi.le, ?_, ?_, ?_, ?_, ?_, ?_, ?_, ?_, ?_, ?_, ?_, ?_⟩ <;> simp only [hmem, hmc, hmn]
    · intro h; cases h
    · intro k hk; cases hk; exact ⟨s.n, rfl, rfl, .inl rfl⟩
    · intro h; cases h
    · rintro _ p (hp | hp) <;> cases hp; exact .inl rfl
    · intro m m' h h'; rw [h, h']
    · intro m h; exact ⟨fun h => (nomatch h), Nat.le_of_eq h⟩
    · intro j m hj h; have := hi.clj _ _ hj; omega
    · intro h; rw [hsrc] at h; cases h
    · intro _ m h; exact h
    · exact hi.src
    · intro p hp; cases hp
    · exact hi.clj
  | some p hn =>
    have hmem : ∀ m, Ev.none .left m ∈ [Ev.next p s.n] ++ tr ↔ Ev.none .left m ∈ tr := by simp
    have hmc : ∀ q m, Ev.cleanup q m ∈ [Ev.next p s.n] ++ tr ↔ Ev.cleanup q m ∈ tr := by simp
    refine ⟨hi.le, ?_, ?_, ?_, ?_, ?_, ?_, ?_, ?_, ?_, ?_, ?_, ?_⟩ <;> simp only [hmem, hmc]
    · intro h
      obtain ⟨a, b, c⟩ := hi.active h
      refine ⟨a, b, ?_⟩
      rintro q (hq | hq) <;> cases hq
      exact c _ (.inl hn)
    · exact hi.leaving
    · exact hi.gone
    · rintro h q (hq | hq) <;> cases hq
      exact hi.moved h _ (.inl hn)
    · exact hi.one
    · exact hi.none
    · exact hi.cl
    · exact hi.srcR
    · exact hi.srcL
    · intro hc; exact List.mem_append.2 (.inr (hi.src hc))
    · intro q hq; cases hq; simp
    · exact hi.clj
  | cleanup hc =>
    have hmem : ∀ m, Ev.none .left m ∈ Ev.cleaned s.n :: ((s.st.cleanup s.n).2.map (fun p => Ev.cleanup p s.n)).reverse ++ tr ↔
        Ev.none .left m ∈ tr := by intro m; simp
    have hmn : ∀ q m, Ev.next q m ∈ Ev.cleaned s.n :: ((s.st.cleanup s.n).2.map (fun p => Ev.cleanup p s.n)).reverse ++ tr ↔
        Ev.next q m ∈ tr := by intro q m; simp
    have hmc : ∀ q j, Ev.cleanup q j ∈ Ev.cleaned s.n :: ((s.st.cleanup s.n).2.map (fun p => Ev.cleanup p s.n)).reverse ++ tr ↔
        (q ∈ (s.st.cleanup s.n).2 ∧ j = s.n) ∨ Ev.cleanup q j ∈ tr := by
      intro q m; simp [and_comm, eq_comm]
    have hst : (∃ m, s.st = .leaving (m + 1) ∧ Ev.none .left m ∈ tr ∧ m + 1 = s.n ∧ s.st.cleanup s.n = (.gone, [.left, .right])) ∨
        ((s.st.cleanup s.n).1 = s.st ∧ (Part.left ∈ (s.st.cleanup s.n).2 → s.st = .active) ∧
          (∀ k, s.st = .leaving k → ∃ m, k = m + 1 ∧ Ev.none .left m ∈ tr ∧ m = s.n)) := by
      cases hx : s.st with
      | active => right; exact ⟨rfl, fun _ => rfl, fun k h => (nomatch h)⟩
      | gone => right; exact ⟨rfl, fun h => by simp [ChainState.cleanup] at h, fun k h => (nomatch h)⟩
      | leaving k =>
        obtain ⟨m, rfl, hm, h | ⟨h, _⟩⟩ := hi.leaving k hx
        · right
          have : ¬ (m + 1 ≤ s.n) := by omega
          refine ⟨by simp [ChainState.cleanup, this], fun h => by simp [ChainState.cleanup, this] at h, ?_⟩
          intro k' hk'; cases hk'; exact ⟨m, rfl, hm, h⟩
        · left
          exact ⟨m, rfl, hm, h, by simp [ChainState.cleanup, h]⟩
    rcases hst with ⟨m, hx, hm, hms, hcl⟩ | ⟨h1, h2, h3⟩
    · have hna : s.st ≠ .active := by rw [hx]; exact fun h => nomatch h
      refine ⟨hi.le, ?_, ?_, ?_, ?_, ?_, ?_, ?_, ?_, ?_, fun h => (nomatch h), ?_, ?_⟩ <;> simp only [hmem, hmc, hmn]
      · intro h; rw [hcl] at h; cases h
      · intro k h; rw [hcl] at h; cases h
      · intro _; exact ⟨m, hm, .inl ⟨by rw [hcl]; simp, hms⟩, by omega⟩
      · intro _; exact hi.moved hna
      · exact hi.one
      · intro m' h'; exact ⟨by rw [hcl]; exact (fun h => nomatch h), (hi.none m' h').2⟩
      · intro j m' hj hm'
        have := hi.one m' m hm' hm
        rcases hj with ⟨_, rfl⟩ | hj
        · omega
        · exact hi.cl j m' hj hm'
      · exact hi.srcR
      · exact hi.srcL
      · exact hi.got
      · intro q j hj
        rcases hj with ⟨_, rfl⟩ | hj
        · exact Nat.le_refl _
        · exact hi.clj q j hj
    · refine ⟨hi.le, ?_, ?_, ?_, ?_, ?_, ?_, ?_, ?_, ?_, fun h => (nomatch h), ?_, ?_⟩ <;> simp only [hmem, hmc, hmn, h1]
      · exact hi.active
      · intro k hk
        obtain ⟨m, a, b, c⟩ := h3 k hk
        exact ⟨m, a, b, .inl c⟩
      · intro h
        obtain ⟨m, a, b, c⟩ := hi.gone h
        exact ⟨m, a, .inr b, c⟩
      · exact hi.moved
      · exact hi.one
      · exact hi.none
      · intro j m hj hm
        rcases hj with ⟨hj, rfl⟩ | hj
        · exact absurd hm ((hi.active (h2 hj)).1 m)
        · exact hi.cl j m hj hm
      · exact hi.srcR
      · exact hi.srcL
      · exact hi.got
      · intro q j hj
        rcases hj with ⟨_, rfl⟩ | hj
        · exact Nat.le_refl _
        · exact hi.clj q j hj
  | begin p hn hc =>
    have hmem : ∀ m, Ev.none .left m ∈ [Ev.begin (s.n + 1)] ++ tr ↔ Ev.none .left m ∈ tr := by simp
    have hmc : ∀ p m, Ev.cleanup p m ∈ [Ev.begin (s.n + 1)] ++ tr ↔ Ev.cleanup p m ∈ tr := by simp
    have hmn : ∀ p m, Ev.next p m ∈ [Ev.begin (s.n + 1)] ++ tr ↔ Ev.next p m ∈ tr := by simp
    refine ⟨by have := hi.le; simp only; omega, ?_, ?_, ?_, ?_, ?_, ?_, ?_, ?_, ?_, ?_, ?_, ?_⟩ <;> simp only [hmem, hmc, hmn]
    · intro h
      obtain ⟨a, b, c⟩ := hi.active h
      refine ⟨a, c p (.inr hn), ?_⟩
      rintro q (hq | hq) <;> cases hq
    · intro k hk
      obtain ⟨m, a, b, c | ⟨c, d⟩⟩ := hi.leaving k hk
      · exact ⟨m, a, b, .inr ⟨by omega, trivial⟩⟩
      · rw [hc] at d; cases d
    · intro h
      obtain ⟨m, a, b, c⟩ := hi.gone h
      exact ⟨m, a, b, by omega⟩
    · rintro _ q (hq | hq) <;> cases hq
    · exact hi.one
    · intro m hm; obtain ⟨a, b⟩ := hi.none m hm; exact ⟨a, by omega⟩
    · exact hi.cl
    · intro hp
      subst hp
      by_cases hact : s.st = .active
      · have := (hi.active hact).2.2 .right (.inr hn); cases this
      · cases hst : s.st with
        | active => exact absurd hst hact
        | leaving k => obtain ⟨m, _, hm, _⟩ := hi.leaving k hst; exact ⟨m, hm, by have := (hi.none m hm).2; omega⟩
        | gone => obtain ⟨m, hm, _⟩ := hi.gone hst; exact ⟨m, hm, by have := (hi.none m hm).2; omega⟩
    · intro hp m hm
      subst hp
      rcases hi.moved (hi.none m hm).1 .left (.inr hn) with h | ⟨_, _, h⟩
      · cases h
      · exact h.elim
    · intro _; exact hi.got p hn
    · intro q hq; cases hq
    · intro q j hj; have := hi.clj q j hj; omega

theorem chain_inv (n0 : Nat) (tr : List Ev) (s : ChainSt) (h : ChainExec n0 tr s) : ChInv n0 tr s := by
  induction h with
  | init =>
    refine ⟨Nat.le_refl _, fun _ => ⟨by simp, rfl, ?_⟩, fun k h => (nomatch h), fun h => (nomatch h), fun h => absurd rfl h,
      by simp, by simp, by simp, fun h => (nomatch h), by simp, fun h => (nomatch h), fun p h => (nomatch h), by simp⟩
    rintro p (hp | hp) <;> cases hp
  | step tr s es s' _ hs ih => exact chain_step n0 tr s es s' ih hs

/-- Chain: before the left provider is exhausted the right one is not used for anything; after that the left one
is never asked for a block again. -/
theorem chain_left_then_right (n0 : Nat) (tr : List Ev) (s s' : ChainSt) (h : ChainExec n0 tr s) (es : List Ev)
    (hs : ChainStep s es s') :
    ((∀ m, .none .left m ∉ tr) → ∀ n, .block .right n ∉ es ∧ .cleanup .right n ∉ es ∧ (.ask .right n ∈ es → .none .left n ∈ es)) ∧
    (∀ m, .none .left m ∈ tr → ∀ n, .block .left n ∉ es ∧ .ask .left n ∉ es ∧ .next .left n ∉ es) := by
  have hi := chain_inv n0 tr s h
  have hact : (∀ m, Ev.none .left m ∉ tr) → s.st = .active := by
    intro hno
    cases hst : s.st with
    | active => rfl
    | leaving k => obtain ⟨m, _, hm, _⟩ := hi.leaving k hst; exact absurd hm (hno m)
    | gone => obtain ⟨m, hm, _⟩ := hi.gone hst; exact absurd hm (hno m)
  have hch : ∀ m, Ev.none .left m ∈ tr → s.st.choose = .right := by
    intro m hm
    cases hst : s.st with
    | active => exact absurd hst (hi.none m hm).1
    | leaving k => rfl
    | gone => rfl
  cases hs with
  | block hc =>
    refine ⟨fun hno n => ?_, fun m hm n => ?_⟩
    · rw [hact hno]; simp [ChainState.choose]
    · rw [hch m hm]; simp
  | start hn =>
    refine ⟨fun hno n => ?_, fun m hm n => ?_⟩
    · rw [hact hno]; simp [ChainState.choose]
    · rw [hch m hm]; simp
  | noneLeft hn => simp
  | some p hn =>
    refine ⟨fun hno n => by simp, fun m hm n => ?_⟩
    rcases hi.moved (hi.none m hm).1 p (.inl hn) with rfl | ⟨_, _, h⟩
    · simp
    · exact h.elim
  | cleanup hc =>
    refine ⟨fun hno n => ?_, fun m hm n => by simp⟩
    rw [hact hno]; simp [ChainState.cleanup]
  | begin p hn hc => simp

/-- Chain: the left provider is told to clean up to the block after the last one it knew, once that block is done,
and never later. -/
theorem chain_left_cleaned (n0 : Nat) (tr : List Ev) (s : ChainSt) (h : ChainExec n0 tr s) (m : Nat) (hm : .none .left m ∈ tr) :
    (∀ j, .cleanup .left j ∈ tr → j ≤ m + 1) ∧
    (m + 1 < s.n ∨ (m + 1 = s.n ∧ s.cleaned = true) → .cleanup .left (m + 1) ∈ tr) := by
  have hi := chain_inv n0 tr s h
  refine ⟨fun j hj => hi.cl j m hj hm, fun hn => ?_⟩
  cases hst : s.st with
  | active => exact absurd hst (hi.none m hm).1
  | leaving k =>
    obtain ⟨m', _, hm', h1⟩ := hi.leaving k hst
    have := hi.one m m' hm hm'
    subst this
    rcases h1 with h1 | ⟨h1, h2⟩
    · omega
    · rcases hn with hn | ⟨_, hn⟩
      · omega
      · rw [h2] at hn; cases hn
  | gone =>
    obtain ⟨m', hm', h1, _⟩ := hi.gone hst
    have := hi.one m m' hm hm'
    subst this
    exact h1

/-- Chain: shard blocks are asked of the provider that returned their masterchain block, except for the last block of the
left provider: after the call for the next block found it exhausted, they are asked of the right one. -/
theorem chain_block_same_provider (n0 : Nat) (tr : List Ev) (s s' : ChainSt) (h : ChainExec n0 tr s) (es : List Ev)
    (hs : ChainStep s es s') (p : Part) (n : Nat) (hb : .block p n ∈ es) :
    .next p (n - 1) ∈ tr ∨ (p = .right ∧ .none .left n ∈ tr) := by
  have hi := chain_inv n0 tr s h
  cases hs with
  | block hc =>
    simp only [List.mem_singleton, Ev.block.injEq] at hb
    obtain ⟨rfl, rfl⟩ := hb
    have hsrc := hi.src hc
    by_cases hx : s.st.choose = s.src
    · rw [hx]; exact .inl hsrc
    · right
      cases hst : s.st with
      | active => rw [hst, (hi.active hst).2.1] at hx; exact absurd rfl hx
      | leaving k =>
        refine ⟨rfl, ?_⟩
        obtain ⟨m, _, hm, _⟩ := hi.leaving k hst
        cases hsr : s.src with
        | left => rw [← hi.srcL hsr m hm]; exact hm
        | right => rw [hst, hsr] at hx; exact absurd rfl hx
      | gone =>
        refine ⟨rfl, ?_⟩
        obtain ⟨m, hm, _⟩ := hi.gone hst
        cases hsr : s.src with
        | left => rw [← hi.srcL hsr m hm]; exact hm
        | right => rw [hst, hsr] at hx; exact absurd rfl hx
  | cleanup hc => simp at hb
  | _ => simp at hb

/-! ### Fallback -/

structure FbInv (tr : List Ev) (s : FbSt) : Prop where
  sched : ∀ k, s.cleanAt = some k → ∃ m, k = m + 1 ∧ .none .right m ∈ tr ∧ (m = s.n ∨ (m + 1 = s.n ∧ s.cleaned = false))
  only : ∀ j, .cleanup .right j ∈ tr → ∃ m, j = m + 1 ∧ .none .right m ∈ tr
  le : ∀ m, .none .right m ∈ tr → m ≤ s.n
  now : .none .right s.n ∈ tr → s.cleanAt = some (s.n + 1)
  prev : ∀ m, .none .right m ∈ tr → m + 1 = s.n → s.cleaned = false → s.cleanAt = some s.n ∨ .none .right s.n ∈ tr
  done : ∀ m, .none .right m ∈ tr → m + 1 < s.n ∨ (m + 1 = s.n ∧ s.cleaned = true) →
    .cleanup .right (m + 1) ∈ tr ∨ .none .right (m + 1) ∈ tr

theorem fb_quiet (tr es : List Ev) (s s' : FbSt) (hi : FbInv tr s) (h1 : s'.cleanAt = s.cleanAt) (h2 : s'.n = s.n)
    (h3 : s'.cleaned = s.cleaned) (h4 : ∀ m, .none .right m ∉ es) (h5 : ∀ j, .cleanup .right j ∉ es) : FbInv (es ++ tr) s' := by
  have hn : ∀ m, Ev.none .right m ∈ es ++ tr ↔ Ev.none .right m ∈ tr := by
    intro m; rw [List.mem_append]; exact ⟨fun h => h.resolve_left (h4 m), .inr⟩
  have hc : ∀ m, Ev.cleanup .right m ∈ es ++ tr ↔ Ev.cleanup .right m ∈ tr := by
    intro m; rw [List.mem_append]; exact ⟨fun h => h.resolve_left (h5 m), .inr⟩
  refine ⟨?_, ?_, ?_, ?_, ?_, ?_⟩ <;> simp only [hn, hc, h1, h2, h3]
  · exact hi.sched
  · exact hi.only
  · exact hi.le
  · exact hi.now
  · exact hi.prev
  · exact hi.done

theorem fb_step (tr : List Ev) (s : FbSt) (es : List Ev) (s' : FbSt) (hi : FbInv tr s) (h : FbStep s es s') :
    FbInv (es ++ tr) s' := by
  cases h with
  | block hc => exact fb_quiet tr _ s _ hi rfl rfl rfl (by simp) (by simp)
  | blockFb hc => exact fb_quiet tr _ s _ hi rfl rfl rfl (by simp) (by simp)
  | blockReset hc => exact fb_quiet tr _ s _ hi rfl rfl rfl (by simp) (by simp)
  | start hn => exact fb_quiet tr _ s _ hi rfl rfl rfl (by simp) (by simp)
  | nonePrimary hn => exact fb_quiet tr _ s _ hi rfl rfl rfl (by simp) (by simp)
  | some p hn => exact fb_quiet tr _ s _ hi rfl rfl rfl (by simp) (by simp)
  | noneFallback p hn =>
    have hm : ∀ m, Ev.none .right m ∈ [Ev.ask p s.n, .none .right s.n] ++ tr ↔ m = s.n ∨ Ev.none .right m ∈ tr := by simp
    have hc : ∀ m, Ev.cleanup .right m ∈ [Ev.ask p s.n, .none .right s.n] ++ tr ↔ Ev.cleanup .right m ∈ tr := by simp
    refine ⟨?_, ?_, ?_, ?_, ?_, ?_⟩ <;> simp only [hm, hc]
    · intro k hk; cases hk; exact ⟨s.n, rfl, .inl rfl, .inl rfl⟩
    · intro j hj; obtain ⟨m, a, b⟩ := hi.only j hj; exact ⟨m, a, .inr b⟩
    · rintro m (rfl | h)
      · exact Nat.le_refl _
      · exact hi.le m h
    · intro _; trivial
    · intro m _ _ _; exact .inr (.inl trivial)
    · rintro m (rfl | h) h'
      · omega
      · exact (hi.done m h h').imp id .inr
  | cleanup hc =>
    have hm : ∀ m, Ev.none .right m ∈ Ev.cleaned s.n :: (s.cleanup.2.map (fun p => Ev.cleanup p s.n)) ++ tr ↔ Ev.none .right m ∈ tr := by
      intro m; simp
    have hcl : ∀ m, Ev.cleanup .right m ∈ Ev.cleaned s.n :: (s.cleanup.2.map (fun p => Ev.cleanup p s.n)) ++ tr ↔
        (.right ∈ s.cleanup.2 ∧ m = s.n) ∨ Ev.cleanup .right m ∈ tr := by
      intro m; simp [eq_comm]
    have hn : s.cleanup.1.n = s.n := by unfold FbSt.cleanup; split <;> [rfl; (split <;> rfl)]
    have hd : s.cleanup.1.cleaned = true := by unfold FbSt.cleanup; split <;> [rfl; (split <;> rfl)]
    by_cases hx : s.cleanAt = some s.n
    · have he : s.cleanup = ({ s with cleaned := true, cleanAt := none }, [.right]) := by
        unfold FbSt.cleanup; rw [hx]; simp
      have hnn : Ev.none .right s.n ∉ tr := by
        intro h; have := hi.now h; rw [hx] at this; simp at this
      obtain ⟨m0, hm0, hm1, _⟩ := hi.sched s.n hx
      refine ⟨?_, ?_, ?_, ?_, ?_, ?_⟩ <;> simp only [hm, hcl, hn, hd]
      · rw [he]; intro k hk; cases hk
      · rintro j (⟨_, rfl⟩ | h)
        · exact ⟨m0, hm0, hm1⟩
        · exact hi.only j h
      · exact hi.le
      · intro h; exact absurd h hnn
      · intro m _ _ h; cases h
      · rintro m h h'
        by_cases hms : m + 1 = s.n
        · exact .inl (.inl ⟨by rw [he]; simp, hms⟩)
        · exact (hi.done m h (.inl (by omega))).imp .inr id
    · have he : s.cleanup = ({ s with cleaned := true }, []) := by
        unfold FbSt.cleanup
        cases hk : s.cleanAt with
        | none => rfl
        | some k =>
          dsimp only
          obtain ⟨m, h1, _, h2⟩ := hi.sched k hk
          rw [if_neg]
          rw [hk] at hx
          simp only [Option.some.injEq] at hx
          omega
      refine ⟨?_, ?_, ?_, ?_, ?_, ?_⟩ <;> simp only [hm, hcl, hn, hd]
      · rw [he]; intro k hk
        obtain ⟨m, a, b, c⟩ := hi.sched k hk
        refine ⟨m, a, b, .inl ?_⟩
        rcases c with c | ⟨c, _⟩
        · exact c
        · exfalso; apply hx; rw [show s.cleanAt = some k from hk, a, c]
      · rintro j (⟨h, _⟩ | h)
        · rw [he] at h; simp at h
        · exact hi.only j h
      · exact hi.le
      · rw [he]; exact hi.now
      · intro m _ _ h; cases h
      · rintro m h h'
        by_cases hms : m + 1 = s.n
        · right
          rw [hms]
          exact (hi.prev m h hms hc).resolve_left hx
        · exact (hi.done m h (.inl (by omega))).imp .inr id
  | begin p hn hc =>
    have hm : ∀ m, Ev.none .right m ∈ [Ev.begin (s.n + 1)] ++ tr ↔ Ev.none .right m ∈ tr := by simp
    have hcl : ∀ m, Ev.cleanup .right m ∈ [Ev.begin (s.n + 1)] ++ tr ↔ Ev.cleanup .right m ∈ tr := by simp
    refine ⟨?_, ?_, ?_, ?_, ?_, ?_⟩ <;> simp only [hm, hcl]
    · intro k hk
      obtain ⟨m, a, b, c | ⟨_, c⟩⟩ := hi.sched k hk
      · exact ⟨m, a, b, .inr ⟨by omega, trivial⟩⟩
      · rw [hc] at c; cases c
    · exact hi.only
    · intro m h; have := hi.le m h; omega
    · intro h; have := hi.le _ h; omega
    · intro m h h' _
      have : m = s.n := by omega
      subst this
      exact .inl (hi.now h)
    · rintro m h (h' | ⟨_, h'⟩)
      · exact hi.done m h (by rcases Nat.lt_or_eq_of_le (Nat.le_of_lt_succ h') with h | h; exact .inl h; exact .inr ⟨h, hc⟩)
      · cases h'

theorem fb_inv (n0 : Nat) (tr : List Ev) (s : FbSt) (h : FbExec n0 tr s) : FbInv tr s := by
  induction h with
  | init => exact ⟨fun k h => (nomatch h), by simp, by simp, by simp, by simp, by simp⟩
  | step tr s es s' _ hs ih => exact fb_step tr s es s' ih hs

/-- The fallback of the blockchain provider is cleaned at a block only if it had no block after the previous one, and
then it is, at that block or at the next one with that property. -/
theorem fallback_cleanup (n0 : Nat) (tr : List Ev) (s : FbSt) (h : FbExec n0 tr s) :
    (∀ j, .cleanup .right j ∈ tr → ∃ m, j = m + 1 ∧ .none .right m ∈ tr) ∧
    (∀ m, .none .right m ∈ tr → m + 1 < s.n ∨ (m + 1 = s.n ∧ s.cleaned = true) →
      .cleanup .right (m + 1) ∈ tr ∨ .none .right (m + 1) ∈ tr) :=
  ⟨(fb_inv n0 tr s h).only, (fb_inv n0 tr s h).done⟩

/-- Finding: as long as the fallback has every block, it is never cleaned, for any number of blocks (the archive
provider keeps all archives). -/
theorem fallback_never_cleaned_while_used (n0 : Nat) (tr : List Ev) (s : FbSt) (h : FbExec n0 tr s)
    (hn : ∀ m, .none .right m ∉ tr) : ∀ j, .cleanup .right j ∉ tr := by
  intro j hj
  obtain ⟨m, _, hm⟩ := (fb_inv n0 tr s h).only j hj
  exact hn m hm

/-! ### Retry -/

/-- Retry: the result is the first block, or nothing after `attempts + 1` calls without one. -/
theorem retry_spec {α : Type} (attempts : Nat) (rs : List (Option α)) (r : Option α) (k : Nat) :
    retry attempts 0 rs = some (r, k) ↔
      1 ≤ k ∧ k ≤ attempts + 1 ∧ rs[k - 1]? = some r ∧ (∀ i, i + 1 < k → rs[i]? = some none) ∧ (r = none → k = attempts + 1) := by
  have key : ∀ (rs : List (Option α)) done, done ≤ attempts →
      (retry attempts done rs = some (r, k) ↔ done + 1 ≤ k ∧ k ≤ attempts + 1 ∧ rs[k - 1 - done]? = some r ∧
        (∀ i, done + i + 1 < k → rs[i]? = some none) ∧ (r = none → k = attempts + 1)) := by
    intro rs
    induction rs with
    | nil => intro done _; simp [retry]
    | cons x rs ih =>
      intro done hd
      unfold retry
      by_cases hx : x.isSome ∨ attempts ≤ done
      · rw [if_pos hx]
        constructor
        · intro h
          simp only [Option.some.injEq, Prod.mk.injEq] at h
          obtain ⟨rfl, rfl⟩ := h
          refine ⟨Nat.le_refl _, by omega, ?_, ?_, ?_⟩
          · rw [show done + 1 - 1 - done = 0 by omega]; rfl
          · intro i hi; omega
          · intro h; subst h; simp at hx; omega
        · rintro ⟨h1, h2, h3, h4, h5⟩
          have hk : k = done + 1 := by
            by_contra hne
            have := h4 0 (by omega)
            simp only [List.getElem?_cons_zero, Option.some.injEq] at this
            subst this
            simp at hx
            omega
          subst hk
          rw [show done + 1 - 1 - done = 0 by omega] at h3
          simp only [List.getElem?_cons_zero, Option.some.injEq] at h3
          rw [h3]
      · rw [if_neg hx]
        simp only [not_or, Nat.not_le] at hx
        rw [ih (done + 1) (by omega)]
        have hxn : x = none := by cases x with | none => rfl | some y => simp at hx
        subst hxn
        constructor
        · rintro ⟨h1, h2, h3, h4, h5⟩
          refine ⟨by omega, h2, ?_, ?_, h5⟩
          · rw [show k - 1 - done = (k - 1 - (done + 1)) + 1 by omega]; exact h3
          · intro i hi
            cases i with
            | zero => rfl
            | succ i => exact h4 i (by omega)
        · rintro ⟨h1, h2, h3, h4, h5⟩
          have hk : done + 1 + 1 ≤ k := by
            by_contra hne
            have hk : k = done + 1 := by omega
            rw [hk, show done + 1 - 1 - done = 0 by omega] at h3
            simp only [List.getElem?_cons_zero, Option.some.injEq] at h3
            have := h5 h3.symm
            omega
          refine ⟨hk, h2, ?_, ?_, h5⟩
          · rw [show k - 1 - done = (k - 1 - (done + 1)) + 1 by omega] at h3; exact h3
          · intro i hi; exact h4 (i + 1) (by omega)
  have := key rs 0 (Nat.zero_le _)
  simpa using this

end Tycho.Providers
