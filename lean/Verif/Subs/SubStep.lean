import Verif.Subs.SubInv
import Mathlib.Tactic.ByContra

/-! Every step preserves the invariant of the clients. -/
namespace Tycho.Subs

theorem mem_set {s s' : State} {a i : Nat} {g : FSet} (h : s'.fwd = upd s.fwd a (some (i, g))) (c x j : Nat) :
    Mem s' c x j ↔ (x ≠ a ∧ Mem s c x j) ∨ (x = a ∧ j = i ∧ c ∈ g.members) := by
  unfold Mem
  rw [h]
  by_cases hx : x = a
  · subst hx
    rw [upd_same]
    constructor
    · rintro ⟨f, h1, h2⟩
      simp only [Option.some.injEq, Prod.mk.injEq] at h1
      obtain ⟨rfl, rfl⟩ := h1
      exact .inr ⟨rfl, rfl, h2⟩
    · rintro (⟨h1, _⟩ | ⟨_, rfl, h2⟩)
      · exact absurd rfl h1
      · exact ⟨g, rfl, h2⟩
  · rw [upd_ne _ _ hx]
    constructor
    · intro h1; exact .inl ⟨hx, h1⟩
    · rintro (⟨_, h1⟩ | ⟨h1, _⟩)
      · exact h1
      · exact absurd h1 hx

theorem mem_none {s s' : State} {a : Nat} (h : s'.fwd = upd s.fwd a none) (c x j : Nat) : Mem s' c x j ↔ Mem s c x j ∧ x ≠ a := by
  unfold Mem
  rw [h]
  by_cases hx : x = a
  · subst hx
    rw [upd_same]
    simp
  · rw [upd_ne _ _ hx]
    simp [hx]

/-- A step that does not touch the sets (but for empty ones), the reverse entry or the log. -/
theorem subInv_still {s s' : State} (h : SubInv s) (hr : RegInv s) {t : Nat} {k : Call} (hk : s.thr t = some k) (hb : k.ph.busy)
    {ph : Phase} (hb' : ph.busy) (ht : s'.thr = upd s.thr t (some { k with ph := ph })) (hreg : s'.reg = s.reg)
    (hM : ∀ c x j, Mem s' c x j ↔ Mem s c x j) (hlogE : s'.log = s.log) (hrev : ∀ c, c ≠ k.cid → s'.rev c = s.rev c)
    (hrl : (s'.rev k.cid).getD [] = (s.rev k.cid).getD [])
    (hloc : CInv (Mem s k.cid) (s.rev k.cid) k.ph → CInv (Mem s k.cid) (s'.rev k.cid) ph) : SubInv s' := by
  have hMe : ∀ c, Mem s' c = Mem s c := by intro c; funext a i; exact propext (hM c a i)
  refine subInv_local h hr hk hb hb' ht hreg (fun c _ a i => by rw [hMe]) hrev (by rw [hMe]; exact hloc) (fun u _ a => by rw [hlogE]) ?_
  intro _ a hw
  rw [hlogE, hw]
  unfold Eff State.revList
  rw [hMe, hrl]

theorem cont_busy (c : Cont) : c.cls = .active ∨ c.cls = .gone := by
  cases c with
  | purge aids fin => cases fin <;> simp [Cont.cls]
  | _ => exact .inl rfl

theorem contPhase_busy (c : Cont) : c.phase.busy := by
  unfold Phase.busy; rw [cont_cls]; exact cont_busy c

theorem look_of_fwd {s : State} (hA : AddrInv s) {c : Nat} {r : Option (List Nat)} {ph : Phase} (hC : CInv (Mem s c) r ph)
    (hs : ∀ i, ¬ ph.stray i) {a i : Nat} {f : FSet} (hf : s.fwd a = some (i, f)) (hi : i ∈ r.getD []) : Mem s c a i := by
  rcases hC.R i hi with ⟨x, g, h1, h2⟩ | h1
  · obtain rfl := hA.inj x a i g f h1 hf
    exact ⟨g, h1, h2⟩
  · exact absurd h1 (hs i)

theorem subInv_ensure {s s' : State} (h : SubInv s) (hA : AddrInv s) (hr : RegInv s) {t : Nat} {k : Call} (hk : s.thr t = some k) {c : Choice}
    {a : Nat} {rest done : List Nat} (hph : k.ph = .subLoop (a :: rest) done) (hs : stepEnsure s t k a rest done c = some s') : SubInv s' := by
  have hb : k.ph.busy := by rw [hph]; exact .inl rfl
  have hC := h.busy t k hk hb
  rw [hph] at hC
  unfold stepEnsure at hs
  split at hs
  · rename_i aid f hf
    obtain rfl := Option.some.inj hs
    refine subInv_still h hr hk hb (.inl rfl) rfl rfl (fun _ _ _ => Iff.rfl) rfl (fun _ _ => rfl) rfl ?_
    rw [hph]
    intro hc
    refine hc.move rfl (fun _ _ => Iff.rfl) (fun _ _ _ h0 => h0) (fun _ h0 => h0) (fun _ => rfl) (by simp [Phase.noRev]) ?_ (by simp)
      (fun _ h0 => h0) (by simp [Phase.unsubs]) (by simp) (by simp)
    intro x i hl hi
    simp only [Phase.look, Option.some.injEq, Prod.mk.injEq] at hl
    obtain ⟨rfl, rfl⟩ := hl
    exact look_of_fwd hA hC (fun _ h0 => h0) hf hi
  · rename_i hn
    split at hs
    · simp at hs
    · rename_i aid p ha
      obtain rfl := Option.some.inj hs
      refine subInv_still h hr hk hb (.inl rfl) rfl rfl ?_ rfl (fun _ _ => rfl) rfl ?_
      · intro c x j
        rw [mem_set (s := s) (a := a) (i := aid) (g := FSet.new s.cap) rfl]
        constructor
        · rintro (h0 | ⟨_, _, h0⟩)
          · exact h0.2
          · rw [FSet.members_new] at h0; simp at h0
        · rintro ⟨f, h1, h2⟩
          refine .inl ⟨?_, f, h1, h2⟩
          rintro rfl; rw [hn] at h1; simp at h1
      · rw [hph]
        intro hc
        refine hc.move rfl (fun _ _ => Iff.rfl) (fun _ _ _ h0 => h0) (fun _ h0 => h0) (fun _ => rfl) (by simp [Phase.noRev]) ?_ (by simp)
          (fun _ h0 => h0) (by simp [Phase.unsubs]) (by simp) (by simp)
        intro x i hl hi
        simp only [Phase.look, Option.some.injEq, Prod.mk.injEq] at hl
        obtain ⟨rfl, rfl⟩ := hl
        rcases hc.R aid hi with ⟨y, g, h1, h2⟩ | h1
        · obtain ⟨e1, e2⟩ := hA.used y aid g h1
          exact absurd rfl ((alloc_spec ha hA.pool).2.2.2.1 aid e1 e2).2.2
        · exact h1.elim
    · obtain rfl := Option.some.inj hs
      refine subInv_still h hr hk hb (.inl rfl) rfl rfl (fun _ _ _ => Iff.rfl) rfl (fun c hc => upd_ne _ _ hc) ?_ ?_
      · show (upd s.rev k.cid _ k.cid).getD [] = _
        rw [upd_same, dropEmpty_getD]
      · show _ → CInv _ (upd s.rev k.cid _ k.cid) _
        rw [hph, upd_same]
        intro hc
        exact hc.move (dropEmpty_getD _) (fun _ _ => Iff.rfl) (fun _ _ _ h0 => h0) (fun _ h0 => h0)
          (fun h0 => absurd h0 (dropEmpty_ne _)) (by simp [Phase.noRev]) (by simp [Phase.look]) (by simp)
          (fun _ h0 => h0) (by simp [Phase.unsubs]) (by simp) (by simp)

theorem subInv_subRev {s : State} (h : SubInv s) (hA : AddrInv s) (hr : RegInv s) {t : Nat} {k : Call} (hk : s.thr t = some k)
    {a aid : Nat} {created : Bool} {rest done : List Nat} (hph : k.ph = .subRev a aid created rest done) :
    SubInv (stepSubRev s t k a aid created rest done) := by
  have hb : k.ph.busy := by rw [hph]; exact .inl rfl
  have hC := h.busy t k hk hb
  rw [hph] at hC
  unfold stepSubRev
  split
  · rename_i hin
    refine subInv_still h hr hk hb (.inl rfl) rfl rfl (fun _ _ _ => Iff.rfl) rfl (fun _ _ => rfl) rfl ?_
    rw [hph]
    intro hc
    refine hc.move rfl (fun _ _ => Iff.rfl) (fun _ _ _ h0 => h0) (fun _ h0 => h0.elim) (fun _ => rfl) (by simp [Phase.noRev])
      (by simp [Phase.look]) ?_ (fun _ h0 => h0) (by simp [Phase.unsubs]) (by simp) (by simp)
    intro x i cr re d he
    simp only [Phase.subFwd.injEq] at he
    obtain ⟨rfl, rfl, _⟩ := he
    refine ⟨hin, ?_⟩
    intro a' hm
    exact mem_inj hA k.cid _ _ _ hm (hc.look _ _ rfl hin)
  · rename_i hnin
    split
    · refine subInv_still h hr hk hb (.inl rfl) rfl rfl (fun _ _ _ => Iff.rfl) rfl (fun _ _ => rfl) rfl ?_
      rw [hph]
      intro hc
      exact hc.move rfl (fun _ _ => Iff.rfl) (fun _ _ _ h0 => h0) (fun _ h0 => h0.elim) (fun _ => rfl) (by simp [Phase.noRev])
        (by simp [Phase.look]) (by simp) (fun _ h0 => h0) (by simp [Phase.unsubs]) (by simp) (by simp)
    · rename_i hlen
      refine subInv_local h hr hk hb (.inl rfl) rfl rfl (fun _ _ _ _ => Iff.rfl) (fun c hc => upd_ne _ _ hc) ?_ (fun _ _ _ => rfl) ?_
      · show _ → CInv _ (upd s.rev k.cid _ k.cid) _
        rw [hph, upd_same]
        intro hc
        exact hc.insert hnin (by unfold State.revList at hlen; omega)
      · intro _ x hw
        show want s.log k.uuid x = true ↔ _
        rw [hw]
        show _ ↔ ∃ i, Mem s k.cid x i ∧ i ∈ (upd s.rev k.cid _ k.cid).getD []
        rw [upd_same]
        constructor
        · rintro ⟨i, h1, h2⟩
          exact ⟨i, h1, mem_revInsert.2 (.inr h2)⟩
        · rintro ⟨i, h1, h2⟩
          refine ⟨i, h1, ?_⟩
          rcases hC.F x i h1 with h3 | h3
          · exact h3
          · exact h3.elim

theorem subInv_subFwd {s : State} (h : SubInv s) (hA : AddrInv s) (hr : RegInv s) {t : Nat} {k : Call} (hk : s.thr t = some k)
    {a aid : Nat} {created : Bool} {rest done : List Nat} (hph : k.ph = .subFwd a aid created rest done) :
    SubInv (stepSubFwd s t k a aid rest done) := by
  have hb : k.ph.busy := by rw [hph]; exact .inl rfl
  have hC := h.busy t k hk hb
  rw [hph] at hC
  have hback : (∀ f, s.fwd a ≠ some (aid, f)) → SubInv (({ s with rev := upd s.rev k.cid (some ((s.revList k.cid).erase aid)) } : State).goto t k
      (.subLoop (a :: rest) done)) := by
    intro hnf
    have hnm : ∀ x, ¬ Mem s k.cid x aid := by
      intro x hx
      have := (hC.fwd a aid created rest done rfl).2 x hx
      subst this
      obtain ⟨f, h1, _⟩ := hx
      exact hnf f h1
    refine subInv_local h hr hk hb (.inl rfl) rfl rfl (fun _ _ _ _ => Iff.rfl) (fun c hc => upd_ne _ _ hc) ?_ (fun _ _ _ => rfl) ?_
    · show _ → CInv _ (upd s.rev k.cid _ k.cid) _
      rw [hph, upd_same]
      intro hc
      exact hc.rollback (hnm a)
    · intro _ x hw
      show want s.log k.uuid x = true ↔ _
      rw [hw]
      show _ ↔ ∃ i, Mem s k.cid x i ∧ i ∈ (upd s.rev k.cid _ k.cid).getD []
      rw [upd_same]
      have hme : ∀ j, j ∈ (s.revList k.cid).erase aid ↔ j ≠ aid ∧ j ∈ s.revList k.cid := fun j => List.Nodup.mem_erase_iff hC.nodup
      constructor
      · rintro ⟨i, h1, h2⟩
        exact ⟨i, h1, (hme i).2 ⟨by rintro rfl; exact hnm x h1, h2⟩⟩
      · rintro ⟨i, h1, h2⟩
        exact ⟨i, h1, ((hme i).1 h2).2⟩
  unfold stepSubFwd
  split
  · rename_i aid' f hf
    split
    · rename_i he
      subst he
      have hM : ∀ c x j, Mem (({ s with fwd := upd s.fwd a (some (aid', f.add s.cap k.cid)), log := s.log ++ [Event.sub k.uuid a] } : State).goto t k
          (.subLoop rest (done ++ [a]))) c x j ↔ Mem s c x j ∨ (c = k.cid ∧ x = a ∧ j = aid') := by
        intro c x j
        rw [mem_set (s := s) (a := a) (i := aid') (g := f.add s.cap k.cid) rfl, FSet.mem_add (hA.wf _ _ _ hf)]
        constructor
        · rintro (⟨_, h0⟩ | ⟨rfl, rfl, h0 | h0⟩)
          · exact .inl h0
          · exact .inl ⟨f, hf, h0⟩
          · exact .inr ⟨h0, rfl, rfl⟩
        · rintro (⟨g, h1, h2⟩ | ⟨rfl, rfl, rfl⟩)
          · by_cases hx : x = a
            · subst hx
              rw [hf] at h1
              simp only [Option.some.injEq, Prod.mk.injEq] at h1
              obtain ⟨rfl, rfl⟩ := h1
              exact .inr ⟨rfl, rfl, .inl h2⟩
            · exact .inl ⟨hx, g, h1, h2⟩
          · exact .inr ⟨rfl, rfl, .inr rfl⟩
      refine subInv_local h hr hk hb (.inl rfl) rfl rfl ?_ (fun c hc => rfl) ?_ ?_ ?_
      · intro c hc x j
        rw [hM]
        simp [hc]
      · rw [hph]
        intro hc
        refine hc.added ?_
        intro x j
        rw [hM]
        simp
      · intro u hu x
        show want (s.log ++ [Event.sub k.uuid a]) u x = _
        rw [want_snoc]
        rcases hu with hu | hu
        · simp only [Event.apply]
          rw [if_neg (fun h0 => hu h0.1.symm)]
        · rw [hph] at hu; simp [Phase.cls] at hu
      · intro _ x hw
        show want (s.log ++ [Event.sub k.uuid a]) k.uuid x = true ↔ _
        rw [want_snoc]
        simp only [Event.apply]
        by_cases hx : a = x
        · subst hx
          simp only [and_self, if_true, true_iff]
          exact ⟨aid', (hM _ _ _).2 (.inr ⟨rfl, rfl, rfl⟩), (hC.fwd _ _ _ _ _ rfl).1⟩
        · rw [if_neg (fun h0 => hx h0.2), hw]
          unfold Eff
          constructor
          · rintro ⟨i, h1, h2⟩
            exact ⟨i, (hM _ _ _).2 (.inl h1), h2⟩
          · rintro ⟨i, h1, h2⟩
            rcases (hM _ _ _).1 h1 with h1 | ⟨_, h1, _⟩
            · exact ⟨i, h1, h2⟩
            · exact absurd h1.symm hx
    · rename_i he
      refine hback ?_
      intro g hg
      rw [hf] at hg
      simp only [Option.some.injEq, Prod.mk.injEq] at hg
      exact he hg.1
  · rename_i hf
    refine hback ?_
    intro g hg
    rw [hf] at hg
    simp at hg

theorem subInv_atCap {s : State} (h : SubInv s) (hA : AddrInv s) (hr : RegInv s) {t : Nat} {k : Call} (hk : s.thr t = some k)
    {a aid : Nat} {created : Bool} {done : List Nat} (hph : k.ph = .atCap a aid created done) :
    SubInv (stepAtCap s t k a aid created done) := by
  have hb : k.ph.busy := by rw [hph]; exact .inl rfl
  have hm : ∀ ph : Phase, ph = .capEnd done ∨ ph = .rm1 aid a (.cap done) → CInv (Mem s k.cid) (s.rev k.cid) k.ph → CInv (Mem s k.cid) (s.rev k.cid) ph := by
    intro ph hp hc
    rw [hph] at hc
    rcases hp with rfl | rfl
    all_goals
      exact hc.move rfl (fun _ _ => Iff.rfl) (fun _ _ _ h0 => h0) (fun _ h0 => h0.elim) (fun _ => rfl) (by simp [Phase.noRev, Cont.isPurge])
        (by simp [Phase.look]) (by simp) (fun _ h0 => h0) (by simp [Phase.unsubs, Cont.unsubs]) (by simp) (by simp)
  unfold stepAtCap
  split
  · rename_i aid' f hf
    split
    · rename_i he
      refine subInv_still h hr hk hb (.inl rfl) rfl rfl ?_ rfl (fun _ _ => rfl) rfl (hm _ (.inr rfl))
      intro c x j
      rw [mem_none (s := s) (a := a) rfl]
      refine and_iff_left_of_imp ?_
      rintro ⟨g, h1, h2⟩ rfl
      rw [hf] at h1
      simp only [Option.some.injEq, Prod.mk.injEq] at h1
      obtain ⟨_, rfl⟩ := h1
      rw [(FSet.isEmpty_iff (hA.wf _ _ _ hf)).1 he.2.2] at h2
      simp at h2
    · exact subInv_still h hr hk hb (.inl rfl) rfl rfl (fun _ _ _ => Iff.rfl) rfl (fun _ _ => rfl) rfl (hm _ (.inl rfl))
  · exact subInv_still h hr hk hb (.inl rfl) rfl rfl (fun _ _ _ => Iff.rfl) rfl (fun _ _ => rfl) rfl (hm _ (.inl rfl))

theorem subInv_unsubRev {s : State} (h : SubInv s) (hA : AddrInv s) (hr : RegInv s) {t : Nat} {k : Call} (hk : s.thr t = some k)
    {a aid : Nat} {rest done : List Nat} (hph : k.ph = .unsubRev a aid rest done) : SubInv (stepUnsubRev s t k a aid rest done) := by
  have hb : k.ph.busy := by rw [hph]; exact .inl rfl
  have hC := h.busy t k hk hb
  rw [hph] at hC
  unfold stepUnsubRev
  split
  · refine subInv_still h hr hk hb (.inl rfl) rfl rfl (fun _ _ _ => Iff.rfl) rfl (fun _ _ => rfl) rfl ?_
    rw [hph]
    intro hc
    exact hc.move rfl (fun _ _ => Iff.rfl) (fun _ _ _ h0 => h0) (fun _ h0 => h0.elim) (fun h0 => by have := hc.ne h0; simp [Phase.mayEmpty] at this) (by simp [Phase.noRev])
        (by simp [Phase.look]) (by simp) (by simp [Phase.subs]) (fun _ h0 => h0) (by simp) (by simp)
  · rename_i l hl
    have hrl : s.revList k.cid = l := by unfold State.revList; rw [hl]; rfl
    split
    · rename_i hin
      have hma : Mem s k.cid a aid := hC.look a aid rfl (by rw [hl]; exact hin)
      refine subInv_local h hr hk hb (.inl rfl) rfl rfl (fun _ _ _ _ => Iff.rfl) (fun c hc => upd_ne _ _ hc) ?_ ?_ ?_
      · show _ → CInv _ (upd s.rev k.cid _ k.cid) _
        rw [hph, upd_same]
        intro hc
        have := hc.unlist (by rw [hl]; exact hin) (mem_inj hA k.cid) (mem_fun k.cid)
        rw [hl] at this
        exact this
      · intro u hu x
        show want (s.log ++ [Event.unsub k.uuid a]) u x = _
        rw [want_snoc]
        rcases hu with hu | hu
        · simp only [Event.apply]
          rw [if_neg (fun h0 => hu h0.1.symm)]
        · rw [hph] at hu; simp [Phase.cls] at hu
      · intro _ x hw
        show want (s.log ++ [Event.unsub k.uuid a]) k.uuid x = true ↔ ∃ i, Mem s k.cid x i ∧ i ∈ (upd s.rev k.cid _ k.cid).getD []
        rw [want_snoc, upd_same, dropEmpty_getD]
        have hme : ∀ j, j ∈ l.erase aid ↔ j ≠ aid ∧ j ∈ l := fun j => List.Nodup.mem_erase_iff (by have := hC.nodup; rw [hl] at this; exact this)
        simp only [Event.apply]
        by_cases hx : a = x
        · subst hx
          simp only [and_self, if_true, Bool.false_eq_true, false_iff]
          rintro ⟨i, h1, h2⟩
          exact ((hme i).1 h2).1 (mem_fun k.cid _ _ _ h1 hma)
        · rw [if_neg (fun h0 => hx h0.2), hw]
          unfold Eff
          rw [hrl]
          constructor
          · rintro ⟨i, h1, h2⟩
            refine ⟨i, h1, (hme i).2 ⟨?_, h2⟩⟩
            rintro rfl
            exact hx (mem_inj hA k.cid _ _ _ hma h1)
          · rintro ⟨i, h1, h2⟩
            exact ⟨i, h1, ((hme i).1 h2).2⟩
    · refine subInv_still h hr hk hb (.inl rfl) rfl rfl (fun _ _ _ => Iff.rfl) rfl (fun c hc => upd_ne _ _ hc) ?_ ?_
      · show (upd s.rev k.cid _ k.cid).getD [] = _
        rw [upd_same, dropEmpty_getD, hl]
      · show _ → CInv _ (upd s.rev k.cid _ k.cid) _
        rw [hph, upd_same]
        intro hc
        exact hc.move (by rw [dropEmpty_getD, hl]) (fun _ _ => Iff.rfl) (fun _ _ _ h0 => h0) (fun _ h0 => h0)
          (fun h0 => absurd h0 (dropEmpty_ne _)) (by simp [Phase.noRev]) (by simp [Phase.look]) (by simp)
          (by simp [Phase.subs]) (fun _ h0 => h0) (by simp) (by simp)

theorem subInv_cleanup {s : State} (h : SubInv s) (hA : AddrInv s) (hr : RegInv s) {t : Nat} {k : Call} (hk : s.thr t = some k)
    {a : Nat} {c : Cont} (hph : k.ph = .cleanup a c) : SubInv (stepCleanup s t k a c) := by
  have hb : k.ph.busy := by rw [hph]; exact cont_busy c
  have hC := h.busy t k hk hb
  rw [hph] at hC
  -- the client is not in the set any more, nothing else changes
  have core : ∀ (s' : State) (ph : Phase), ph.busy → (ph = c.phase ∨ ∃ i, ph = .rm1 i a c) → s'.thr = upd s.thr t (some { k with ph := ph }) → s'.reg = s.reg →
      s'.rev = s.rev → s'.log = s.log → (∀ c x j, Mem s' c x j ↔ Mem s c x j ∧ ¬ (c = k.cid ∧ x = a)) → SubInv s' := by
    intro s' ph hb' hp ht hreg hrev hlog hM
    have hM' : ∀ x j, Mem s' k.cid x j ↔ Mem s k.cid x j ∧ x ≠ a := by intro x j; rw [hM]; simp
    refine subInv_local h hr hk hb hb' ht hreg ?_ (fun c _ => by rw [hrev]) ?_ (fun u _ x => by rw [hlog]) ?_
    · intro c' hc' x j
      rw [hM]; simp [hc']
    · rw [hph, hrev]
      intro hc
      obtain ⟨h1, h2⟩ := hc.left hM'
      rcases hp with rfl | ⟨i, rfl⟩
      · exact h1
      · exact h2 i
    · intro _ x hw
      rw [hlog, hw]
      unfold Eff State.revList
      rw [hrev]
      constructor
      · rintro ⟨i, h1, h2⟩
        refine ⟨i, (hM' x i).2 ⟨h1, ?_⟩, h2⟩
        rintro rfl
        cases c with
        | unsub rest d => exact hC.unsubs x (hC.clean x rest d rfl) i h1 h2
        | purge aids fin =>
          rw [hC.noRev rfl] at h2
          simp at h2
        | cap d => exact hC.noCap x d rfl
      · rintro ⟨i, h1, h2⟩
        exact ⟨i, ((hM' x i).1 h1).1, h2⟩
  unfold stepCleanup
  split
  · rename_i hf
    refine core _ _ (contPhase_busy c) (.inl rfl) rfl rfl rfl rfl ?_
    intro c' x j
    refine (and_iff_left_of_imp ?_).symm
    rintro ⟨g, h1, _⟩ ⟨_, rfl⟩
    have h1 : s.fwd x = some (j, g) := h1
    rw [hf] at h1; simp at h1
  · rename_i aid f hf
    have hwf := hA.wf _ _ _ hf
    split
    · rename_i he
      refine core _ _ ?_ (.inr ⟨aid, rfl⟩) rfl rfl rfl rfl ?_
      · exact cont_busy c
      · intro c' x j
        rw [mem_none (s := s) (a := a) rfl]
        refine and_congr_right ?_
        rintro ⟨g, h1, h2⟩
        constructor
        · intro h0 h3; exact h0 h3.2
        · rintro h0 rfl
          refine h0 ⟨?_, rfl⟩
          rw [hf] at h1
          simp only [Option.some.injEq, Prod.mk.injEq] at h1
          obtain ⟨_, rfl⟩ := h1
          by_contra hne
          have h4 := (FSet.mem_remove hwf).2 ⟨h2, hne⟩
          rw [(FSet.isEmpty_iff (FSet.wf_remove hwf k.cid)).1 he] at h4
          simp at h4
    · refine core _ _ (contPhase_busy c) (.inl rfl) rfl rfl rfl rfl ?_
      intro c' x j
      rw [mem_set (s := s) (a := a) (i := aid) (g := f.remove k.cid) rfl, FSet.mem_remove hwf]
      constructor
      · rintro (⟨h1, h2⟩ | ⟨rfl, rfl, h1, h2⟩)
        · exact ⟨h2, fun h0 => h1 h0.2⟩
        · exact ⟨⟨f, hf, h1⟩, fun h0 => h2 h0.1⟩
      · rintro ⟨⟨g, h1, h2⟩, h3⟩
        by_cases hx : x = a
        · subst hx
          rw [hf] at h1
          simp only [Option.some.injEq, Prod.mk.injEq] at h1
          obtain ⟨rfl, rfl⟩ := h1
          exact .inr ⟨rfl, rfl, h2, fun h0 => h3 ⟨h0, rfl⟩⟩
        · exact .inl ⟨hx, g, h1, h2⟩

theorem subInv_detach {s : State} (h : SubInv s) (hr : RegInv s) {t : Nat} {k : Call} (hk : s.thr t = some k)
    (hph : k.ph = .detach) : SubInv (stepDetach s t k) := by
  have hnb : ¬ k.ph.busy := by rw [hph]; simp [Phase.busy, Phase.cls]
  have hleave : SubInv (s.goto t k .leave) := by
    refine subInv_exit h hk (fun x hx => upd_ne _ _ hx) ?_ rfl rfl rfl rfl ?_ ?_ ?_
    · intro k' hk'
      rw [goto_thr_same] at hk'
      obtain rfl := Option.some.inj hk'
      simp [Phase.busy, Phase.cls]
    · intro _ _ _ _ h0; exact absurd h0 hnb
    · intro h0; exact absurd h0 hnb
    · intro h0; exact absurd h0 hnb
  unfold stepDetach
  split
  · exact hleave
  · rename_i c' lk hreg
    split
    · rename_i hl
      subst hl
      obtain rfl := (hr.callReg t k _ _ hk hreg).2
      refine subInv_enter (ph := .purgeStart true) h hk hnb (.inr rfl) rfl rfl ?_ (fun _ _ => rfl) rfl ?_ ?_ ?_ ?_
      · intro t' k' hk' hb' hc
        have := holder_alone hr hk (by rw [hph]; simp [Phase.cls]) hreg hk' hb' hc
        subst this
        rw [hk] at hk'; obtain rfl := Option.some.inj hk'
        exact hnb hb'
      · intro hc
        exact hc.move rfl (fun _ _ => Iff.rfl) (fun _ _ _ h0 => h0) (fun _ h0 => h0)
          (fun h0 => by have := hc.ne h0; simp [Phase.mayEmpty] at this) (by simp [Phase.noRev]) (by simp [Phase.look]) (by simp)
          (by simp [Phase.subs]) (by simp [Phase.unsubs]) (by simp) (by simp)
      · intro c hc hnr u l hu
        refine hnr u l ?_
        show upd s.reg k.uuid none u = _
        rw [upd_ne _ _ ?_]
        · exact hu
        · rintro rfl
          rw [hreg] at hu
          simp only [Option.some.injEq, Prod.mk.injEq] at hu
          exact hc hu.1.symm
      · intro u c l hu x
        have hu : upd s.reg k.uuid none u = some (c, l) := hu
        have hne : u ≠ k.uuid := by rintro rfl; rw [upd_same] at hu; simp at hu
        rw [upd_ne _ _ hne] at hu
        show want (s.log ++ [Event.clear k.uuid]) u x = true ↔ _
        rw [want_snoc]
        simp only [Event.apply]
        rw [if_neg (Ne.symm hne)]
        exact h.wants u c l hu x
      · intro u hu x
        have hu : upd s.reg k.uuid none u = none := hu
        show want (s.log ++ [Event.clear k.uuid]) u x = false
        rw [want_snoc]
        simp only [Event.apply]
        by_cases hne : k.uuid = u
        · rw [if_pos hne]
        · rw [if_neg hne]
          rw [upd_ne _ _ (Ne.symm hne)] at hu
          exact h.wantN u hu x
    · exact hleave

theorem subInv_purgeStart {s : State} (h : SubInv s) (hr : RegInv s) {t : Nat} {k : Call} (hk : s.thr t = some k)
    {fin : Bool} (hph : k.ph = .purgeStart fin) : SubInv (stepPurgeStart s t k fin) := by
  have hcls : k.ph.cls = if fin then .gone else .active := by rw [hph]; cases fin <;> rfl
  have hb : k.ph.busy := by unfold Phase.busy; rw [hcls]; cases fin <;> simp
  have hb' : (Phase.purge (s.revList k.cid) fin).busy := by cases fin <;> simp [Phase.busy, Phase.cls]
  refine subInv_local h hr hk hb hb' rfl rfl (fun _ _ _ _ => Iff.rfl) (fun c hc => upd_ne _ _ hc) ?_ ?_ ?_
  · show _ → CInv _ (upd s.rev k.cid _ k.cid) _
    rw [hph, upd_same]
    intro hc
    exact hc.purged
  · intro u hu x
    show want (if fin then s.log else s.log ++ [Event.clear k.uuid]) u x = _
    cases fin with
    | true => rfl
    | false =>
      rw [hcls] at hu
      rcases hu with hu | hu
      · simp only [Bool.false_eq_true, if_false]
        rw [want_snoc]
        simp only [Event.apply]
        rw [if_neg (Ne.symm hu)]
      · simp at hu
  · intro hact x _
    rw [hcls] at hact
    cases fin with
    | true => simp at hact
    | false =>
      show want (s.log ++ [Event.clear k.uuid]) k.uuid x = true ↔ ∃ i, Mem s k.cid x i ∧ i ∈ (upd s.rev k.cid none k.cid).getD []
      rw [want_snoc, upd_same]
      simp [Event.apply]

theorem subInv_purge {s : State} (h : SubInv s) (hA : AddrInv s) (hr : RegInv s) {t : Nat} {k : Call} (hk : s.thr t = some k)
    {aids : List Nat} {fin : Bool} (hph : k.ph = .purge aids fin) : SubInv (stepPurge s t k aids fin) := by
  have hb : k.ph.busy := by rw [hph]; cases fin <;> simp [Phase.busy, Phase.cls]
  unfold stepPurge
  split
  · refine subInv_still h hr hk hb ?_ rfl rfl (fun _ _ _ => Iff.rfl) rfl (fun _ _ => rfl) rfl ?_
    · cases fin <;> simp [Phase.busy, Phase.cls]
    · rw [hph]
      intro hc
      cases fin
      all_goals
        exact hc.move rfl (fun _ _ => Iff.rfl) (fun _ _ _ h0 => by simp [Phase.pend] at h0) (fun _ h0 => h0.elim)
          (fun h0 => by have := hc.ne h0; simp [Phase.mayEmpty] at this) (fun _ => hc.noRev rfl)
          (by simp [Phase.look]) (by simp) (by simp [Phase.subs]) (by simp [Phase.unsubs]) (by simp) (by simp)
  · rename_i aid rest
    split
    · rename_i a hi
      refine subInv_still h hr hk hb ?_ rfl rfl (fun _ _ _ => Iff.rfl) rfl (fun _ _ => rfl) rfl ?_
      · exact cont_busy (.purge rest fin)
      · rw [hph]
        intro hc
        refine hc.move rfl (fun _ _ => Iff.rfl) ?_ (fun _ h0 => h0.elim)
          (fun h0 => by have := hc.ne h0; simp [Phase.mayEmpty] at this) (fun _ => hc.noRev rfl)
          (by simp [Phase.look]) (by simp) (by simp [Phase.subs]) (by simp [Phase.unsubs, Cont.unsubs]) (by simp) (by simp)
        rintro x j ⟨f, h1, _⟩ h0
        rcases List.mem_cons.1 h0 with rfl | h0
        · rw [hA.back x j f h1] at hi
          exact .inl (Option.some.inj hi)
        · exact .inr h0
    · rename_i hi
      refine subInv_still h hr hk hb ?_ rfl rfl (fun _ _ _ => Iff.rfl) rfl (fun _ _ => rfl) rfl ?_
      · cases fin <;> simp [Phase.busy, Phase.cls]
      · rw [hph]
        intro hc
        refine hc.move rfl (fun _ _ => Iff.rfl) ?_ (fun _ h0 => h0.elim)
          (fun h0 => by have := hc.ne h0; simp [Phase.mayEmpty] at this) (fun _ => hc.noRev rfl)
          (by simp [Phase.look]) (by simp) (by simp [Phase.subs]) (by simp [Phase.unsubs]) (by simp) (by simp)
        rintro x j ⟨f, h1, _⟩ h0
        rcases List.mem_cons.1 h0 with rfl | h0
        · rw [hA.back x j f h1] at hi
          simp at hi
        · exact h0

theorem startRev_getD (op : Op) (r : Option (List Nat)) : (startRev op r).getD [] = r.getD [] := by
  unfold startRev
  split
  · split
    · rfl
    · rfl
  · rfl

theorem subInv_acquire {s s' : State} (h : SubInv s) (hr : RegInv s) {t : Nat} {k : Call} (hk : s.thr t = some k) {op : Op} (hph : k.ph = .wait op)
    (hfr : op ≠ .remove → s.reg k.uuid = some (k.cid, k.lk)) (hl : s.locked k.lk = false)
    (hs : s' = ({ s with locked := upd s.locked k.lk true, rev := upd s.rev k.cid (startRev op (s.rev k.cid)) } : State).goto t k (startPhase op)) : SubInv s' := by
  have hnb : ¬ k.ph.busy := by rw [hph]; simp [Phase.busy, Phase.cls]
  by_cases ho : op = .remove
  · subst ho
    have hrev : s'.rev = s.rev := by
      subst hs
      show upd s.rev k.cid (s.rev k.cid) = s.rev
      funext c
      by_cases hc : c = k.cid
      · subst hc; exact upd_same ..
      · exact upd_ne _ _ hc
    subst hs
    refine subInv_exit h hk (fun x hx => upd_ne _ _ hx) ?_ rfl hrev rfl rfl ?_ ?_ ?_
    · intro k' hk'
      rw [goto_thr_same] at hk'
      obtain rfl := Option.some.inj hk'
      simp [Phase.busy, Phase.cls, startPhase]
    · intro _ _ _ _ h0; exact absurd h0 hnb
    · intro h0; exact absurd h0 hnb
    · intro h0; exact absurd h0 hnb
  · subst hs
    have hreg := hfr ho
    refine subInv_enter (ph := startPhase op) h hk hnb (.inl (by rw [start_cls, if_neg ho])) rfl rfl ?_ (fun c hc => upd_ne _ _ hc) ?_ ?_ ?_ h.wants h.wantN
    · intro t' k' hk' hb' hc
      exact free_alone hr hreg hl hk' hb' hc
    · show (upd s.rev k.cid _ k.cid).getD [] = _
      rw [upd_same, startRev_getD]
    · show _ → CInv _ (upd s.rev k.cid _ k.cid) _
      rw [upd_same]
      intro hc
      have hne : s.rev k.cid = some [] → False := fun h0 => by have := hc.ne h0; simp [Phase.mayEmpty] at this
      cases op with
      | remove => exact absurd rfl ho
      | sub addrs =>
        by_cases ha : addrs = []
        · simp only [startPhase, startRev, if_pos ha]
          exact hc.move rfl (fun _ _ => Iff.rfl) (fun _ _ _ h0 => h0) (fun _ h0 => h0) (fun h0 => (hne h0).elim) (by simp [Phase.noRev])
            (by simp [Phase.look]) (by simp) (by simp [Phase.subs]) (by simp [Phase.unsubs]) (by simp) (by simp)
        · simp only [startPhase, startRev, if_neg ha]
          exact hc.move rfl (fun _ _ => Iff.rfl) (fun _ _ _ h0 => h0) (fun _ h0 => h0) (fun _ => rfl) (by simp [Phase.noRev])
            (by simp [Phase.look]) (by simp) (by simp [Phase.subs]) (by simp [Phase.unsubs]) (by simp) (by simp)
      | unsub addrs =>
        exact hc.move rfl (fun _ _ => Iff.rfl) (fun _ _ _ h0 => h0) (fun _ h0 => h0) (fun h0 => (hne h0).elim) (by simp [Phase.noRev, startPhase])
            (by simp [Phase.look, startPhase]) (by simp [startPhase]) (by simp [Phase.subs, startPhase]) (by simp [Phase.unsubs, startPhase]) (by simp [startPhase]) (by simp [startPhase])
      | clear =>
        exact hc.move rfl (fun _ _ => Iff.rfl) (fun _ _ _ h0 => h0) (fun _ h0 => h0) (fun h0 => (hne h0).elim) (by simp [Phase.noRev, startPhase])
            (by simp [Phase.look, startPhase]) (by simp [startPhase]) (by simp [Phase.subs, startPhase]) (by simp [Phase.unsubs, startPhase]) (by simp [startPhase]) (by simp [startPhase])
    · intro c _ hn; exact hn

/-- The call returns. -/
theorem subInv_release {s s' : State} (h : SubInv s) (hr : RegInv s) {t : Nat} {k : Call} (hk : s.thr t = some k)
    (hph : (∃ e d d', k.ph = .exit e d d') ∨ k.ph = .cleared ∨ k.ph = .leave)
    (hs : s' = { s with locked := upd s.locked k.lk false, thr := upd s.thr t none }) : SubInv s' := by
  subst hs
  have hact : k.ph.busy → k.ph.cls = .active := by
    rcases hph with ⟨e, d, d', hph⟩ | hph | hph
    · rw [hph]; intro _; rfl
    · rw [hph]; intro _; rfl
    · rw [hph]; simp [Phase.busy, Phase.cls]
  refine subInv_exit h hk (fun x hx => upd_ne _ _ hx) ?_ rfl rfl rfl rfl ?_ ?_ ?_
  · intro k' hk'
    have hk' : upd s.thr t none t = some k' := hk'
    rw [upd_same] at hk'; simp at hk'
  · intro t' k' hk' hb' hb hc
    exact busy_unique hr hk' hk hb' hb hc
  · intro hb hc
    refine hc.move rfl (fun _ _ => Iff.rfl) ?_ ?_ ?_ (by simp [Phase.noRev]) (by simp [Phase.look]) (by simp) (by simp [Phase.subs])
      (by simp [Phase.unsubs]) (by simp) (by simp)
    · rcases hph with ⟨e, d, d', hph⟩ | hph | hph <;> rw [hph] <;> intro _ _ _ h0 <;> exact h0
    · rcases hph with ⟨e, d, d', hph⟩ | hph | hph <;> rw [hph] <;> intro _ h0 <;> exact h0
    · intro h0
      have := hc.ne h0
      rcases hph with ⟨e, d, d', hph⟩ | hph | hph <;> rw [hph] at this <;> simp [Phase.mayEmpty] at this
  · intro hb hnr
    exact absurd (hr.cur t k hk (hact hb)) (hnr _ _)

theorem subInv_stepThread {s s' : State} (h : SubInv s) (hA : AddrInv s) (hr : RegInv s) {t : Nat} {k : Call} (hk : s.thr t = some k) {c : Choice}
    (hfr : ∀ op, k.ph = .wait op → op ≠ .remove → s.reg k.uuid = some (k.cid, k.lk))
    (hs : stepThread s t k c = some s') : SubInv s' := by
  unfold stepThread at hs
  split at hs
  · rename_i op hph
    split at hs
    · simp at hs
    · rename_i hl
      exact subInv_acquire h hr hk hph (hfr op hph) (by simpa using hl) (Option.some.inj hs).symm
  · rename_i done hph
    obtain rfl := Option.some.inj hs
    refine subInv_still (ph := .exit .ok done []) h hr hk (by rw [hph]; exact .inl rfl) (.inl rfl) rfl rfl (fun _ _ _ => Iff.rfl) rfl (fun c hc => upd_ne _ _ hc) ?_ ?_
    · show (upd s.rev k.cid _ k.cid).getD [] = _
      rw [upd_same, dropEmpty_getD]
    · show _ → CInv _ (upd s.rev k.cid _ k.cid) _
      rw [hph, upd_same]
      intro hc
      exact hc.move (dropEmpty_getD _) (fun _ _ => Iff.rfl) (fun _ _ _ h0 => h0) (fun _ h0 => h0)
        (fun h0 => absurd h0 (dropEmpty_ne _)) (by simp [Phase.noRev]) (by simp [Phase.look]) (by simp)
        (fun _ h0 => h0) (by simp [Phase.unsubs]) (by simp) (by simp)
  · rename_i a rest done hph
    exact subInv_ensure h hA hr hk hph hs
  · rename_i a aid created rest done hph
    obtain rfl := Option.some.inj hs
    exact subInv_subRev h hA hr hk hph
  · rename_i a aid created rest done hph
    obtain rfl := Option.some.inj hs
    exact subInv_subFwd h hA hr hk hph
  · rename_i a aid created done hph
    obtain rfl := Option.some.inj hs
    exact subInv_atCap h hA hr hk hph
  · rename_i done hph
    obtain rfl := Option.some.inj hs
    refine subInv_still (ph := .exit .atCapacity done []) h hr hk (by rw [hph]; exact .inl rfl) (.inl rfl) rfl rfl (fun _ _ _ => Iff.rfl) rfl (fun c hc => upd_ne _ _ hc) ?_ ?_
    · show (upd s.rev k.cid _ k.cid).getD [] = _
      rw [upd_same, dropEmpty_getD]
    · show _ → CInv _ (upd s.rev k.cid _ k.cid) _
      rw [hph, upd_same]
      intro hc
      exact hc.move (dropEmpty_getD _) (fun _ _ => Iff.rfl) (fun _ _ _ h0 => h0) (fun _ h0 => h0)
        (fun h0 => absurd h0 (dropEmpty_ne _)) (by simp [Phase.noRev]) (by simp [Phase.look]) (by simp)
        (fun _ h0 => h0) (by simp [Phase.unsubs]) (by simp) (by simp)
  · rename_i done hph
    obtain rfl := Option.some.inj hs
    refine subInv_still (ph := .exit .ok [] done) h hr hk (by rw [hph]; exact .inl rfl) (.inl rfl) rfl rfl (fun _ _ _ => Iff.rfl) rfl (fun c hc => rfl) rfl ?_
    rw [hph]
    intro hc
    exact hc.move rfl (fun _ _ => Iff.rfl) (fun _ _ _ h0 => h0) (fun _ h0 => h0)
      (fun h0 => by have := hc.ne h0; simp [Phase.mayEmpty] at this) (by simp [Phase.noRev]) (by simp [Phase.look]) (by simp)
      (by simp [Phase.subs]) (fun _ h0 => h0) (by simp) (by simp)
  · rename_i a rest done hph
    have hb : k.ph.busy := by rw [hph]; exact .inl rfl
    have hC := h.busy t k hk hb
    rw [hph] at hC
    split at hs
    · obtain rfl := Option.some.inj hs
      refine subInv_still (ph := .exit .unknownAddress [] done) h hr hk hb (.inl rfl) rfl rfl (fun _ _ _ => Iff.rfl) rfl (fun c hc => rfl) rfl ?_
      rw [hph]
      intro hc
      exact hc.move rfl (fun _ _ => Iff.rfl) (fun _ _ _ h0 => h0) (fun _ h0 => h0)
        (fun h0 => by have := hc.ne h0; simp [Phase.mayEmpty] at this) (by simp [Phase.noRev]) (by simp [Phase.look]) (by simp)
        (by simp [Phase.subs]) (fun _ h0 => h0) (by simp) (by simp)
    · rename_i aid f hf
      obtain rfl := Option.some.inj hs
      refine subInv_still (ph := .unsubRev a aid rest done) h hr hk hb (.inl rfl) rfl rfl (fun _ _ _ => Iff.rfl) rfl (fun c hc => rfl) rfl ?_
      rw [hph]
      intro hc
      refine hc.move rfl (fun _ _ => Iff.rfl) (fun _ _ _ h0 => h0) (fun _ h0 => h0)
        (fun h0 => by have := hc.ne h0; simp [Phase.mayEmpty] at this) (by simp [Phase.noRev]) ?_ (by simp)
        (by simp [Phase.subs]) (fun _ h0 => h0) (by simp) (by simp)
      intro x i hl hi
      simp only [Phase.look, Option.some.injEq, Prod.mk.injEq] at hl
      obtain ⟨rfl, rfl⟩ := hl
      exact look_of_fwd hA hC (fun _ h0 => h0) hf hi
  · rename_i a aid rest done hph
    obtain rfl := Option.some.inj hs
    exact subInv_unsubRev h hA hr hk hph
  · rename_i a co hph
    obtain rfl := Option.some.inj hs
    exact subInv_cleanup h hA hr hk hph
  · rename_i aid a co hph
    obtain rfl := Option.some.inj hs
    refine subInv_still (ph := .rm2 aid co) h hr hk (by rw [hph]; exact cont_busy co) (cont_busy co) rfl rfl (fun _ _ _ => Iff.rfl) rfl (fun c hc => rfl) rfl ?_
    rw [hph]
    intro hc
    exact hc.move rfl (fun _ _ => Iff.rfl) (fun _ _ _ h0 => h0) (fun _ h0 => h0) hc.ne hc.noRev (by simp [Phase.look]) (by simp)
      (fun _ h0 => h0) (fun _ h0 => h0) (by simp) (by simp)
  · rename_i aid co hph
    obtain rfl := Option.some.inj hs
    refine subInv_still (ph := co.phase) h hr hk (by rw [hph]; exact cont_busy co) (contPhase_busy co) rfl rfl (fun _ _ _ => Iff.rfl) rfl (fun c hc => rfl) rfl ?_
    rw [hph]
    intro hc
    cases co
    all_goals
      exact hc.move rfl (fun _ _ => Iff.rfl) (fun _ _ _ h0 => h0) (fun _ h0 => h0) hc.ne hc.noRev (by simp [Phase.look, Cont.phase]) (by simp [Cont.phase])
        (fun _ h0 => h0) (fun _ h0 => h0) (by simp [Cont.phase]) (by simp [Cont.phase])
  · rename_i hph
    obtain rfl := Option.some.inj hs
    exact subInv_detach h hr hk hph
  · rename_i fin hph
    obtain rfl := Option.some.inj hs
    exact subInv_purgeStart h hr hk hph
  · rename_i aids fin hph
    obtain rfl := Option.some.inj hs
    exact subInv_purge h hA hr hk hph
  · rename_i hph
    obtain rfl := Option.some.inj hs
    refine subInv_exit h hk (fun x hx => upd_ne _ _ hx) ?_ rfl rfl rfl rfl ?_ ?_ ?_
    · intro k' hk'
      rw [goto_thr_same] at hk'
      obtain rfl := Option.some.inj hk'
      simp [Phase.busy, Phase.cls]
    · intro t' k' hk' hb' hb hc
      exact busy_unique hr hk' hk hb' hb hc
    · intro _ hc
      rw [hph] at hc
      exact hc.move rfl (fun _ _ => Iff.rfl) (fun _ _ _ h0 => h0) (fun _ h0 => h0)
        (fun h0 => by have := hc.ne h0; simp [Phase.mayEmpty] at this) (by simp [Phase.noRev]) (by simp [Phase.look]) (by simp)
        (by simp [Phase.subs]) (by simp [Phase.unsubs]) (by simp) (by simp)
    · intro hb _
      have hc := h.busy t k hk hb
      rw [hph] at hc
      exact hc.noRev rfl
  · rename_i hph
    exact subInv_release h hr hk (.inl ⟨_, _, _, hph⟩) (Option.some.inj hs).symm
  · rename_i hph
    exact subInv_release h hr hk (.inr (.inl hph)) (Option.some.inj hs).symm
  · rename_i hph
    exact subInv_release h hr hk (.inr (.inr hph)) (Option.some.inj hs).symm

theorem subInv_step {s s' : State} (h : SubInv s) (hA : AddrInv s) (hr : RegInv s) {e : Ev} (hf : Fresh s e) (hs : step s e = some s') : SubInv s' := by
  cases e with
  | register u c =>
    simp only [step] at hs
    split at hs
    · obtain rfl := Option.some.inj hs; exact h
    · rename_i hn
      rw [Option.map_eq_some_iff] at hs
      obtain ⟨⟨r, s1⟩, h1, rfl⟩ := hs
      exact subInv_newEntry h hr hn h1
  | start t u op c =>
    simp only [step] at hs
    split at hs
    · simp at hs
    · rename_i hn
      rcases begin_cases hs with rfl | ⟨id, lk, hr', rfl⟩ | ⟨s1, hr', h1, rfl⟩ | ⟨s1, id, lk, hr', h1, rfl⟩
      · exact h
      · exact subInv_wait h hn
      · exact subInv_newEntry h hr hr' h1
      · have h2 := subInv_newEntry h hr hr' h1
        have e5 := (newEntry_frame h1).2.2.2.2.1
        exact subInv_wait h2 (by rw [e5]; exact hn)
  | go t c =>
    simp only [step] at hs
    split at hs
    · simp at hs
    · rename_i k hk
      exact subInv_stepThread h hA hr hk (fun op hph ho => hf k op hk hph ho) hs

end Tycho.Subs
