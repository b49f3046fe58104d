import Verif.Semaphore.Steps

/-! The properties of the semaphore, for every interleaving of any number of callers. -/
namespace Tycho.Semaphore

/-- Specification: the permits an operation creates. -/
def addOf : Op → Nat
  | .add n => n
  | _ => 0

/-- Specification: all permits created by a sequence of operations. -/
def adds (ops : List Op) : Nat := (ops.map addOf).sum

/-- C03: each step keeps the invariants; it cannot panic while there are at most `maxPermits` permits. -/
theorem step_ok {s : Sys} (I : Inv s) (ht : total s = s.created) (hmax : s.created ≤ maxPermits) (op : Op) :
    ∃ s', step s op = some s' ∧ StepOk (addOf op) s s' := by
  cases op with
  | new id num prio =>
    simp only [step]
    split
    · exact ⟨s, rfl, step_refl I⟩
    · rename_i h
      have hnone : getFut s.futs id = none := by
        cases hg : getFut s.futs id with
        | none => rfl
        | some f => exact absurd (Or.inl (by rw [hg]; rfl)) h
      have hnum : 0 < num := by have := fun e => h (Or.inr e); omega
      have hfresh : ∀ f ∈ s.futs, f.id ≠ id := by
        intro f hf he
        unfold getFut at hnone
        rw [List.find?_eq_none] at hnone
        exact hnone f hf (by simpa using he)
      have hnq : ∀ p, id ∉ s.q p := by
        intro p hm
        obtain ⟨f, hf, h1, -⟩ := I.qf p id hm
        exact hfresh f hf h1
      refine ⟨_, rfl, ?_, ?_, ?_, ?_, fun h => absurd rfl h, fun _ => Nat.le_refl _, fun h => h, fun _ => rfl, rfl⟩
      · refine ⟨?_, I.qn, ?_, ?_, I.perm, I.clq⟩
        · simp only [List.map_cons, List.nodup_cons]
          refine ⟨?_, I.ids⟩
          intro hm
          obtain ⟨f, hf, h1⟩ := List.mem_map.1 hm
          exact hfresh f hf h1
        · intro p i hi
          obtain ⟨f, hf, h1⟩ := I.qf p i hi
          exact ⟨f, List.mem_cons_of_mem _ hf, h1⟩
        · intro f hf
          rcases List.mem_cons.1 hf with rfl | hf
          · refine ⟨hnum, Nat.le_refl _, by simp, fun h => absurd h (hnq prio), by simp, by simp, by simp⟩
          · exact I.ok f hf
      · intro h; exact h
      · exact joined_mono ⟨fun f hf hq => ⟨f, List.mem_cons_of_mem _ hf, rfl, hq⟩⟩ rfl
      · unfold total ownedSum
        simp [owned]
  | poll id =>
    simp only [step]
    cases hg : getFut s.futs id with
    | none => exact ⟨s, rfl, step_refl I⟩
    | some f =>
      obtain ⟨hf, -⟩ := getFut_some hg
      have ok := I.ok f hf
      simp only
      split
      · rename_i hpc
        refine ⟨_, rfl, step_of_fut (f' := { f with pc := .polling (if f.queued then f.state else f.num) }) I hf rfl rfl rfl rfl
          rfl (Nat.le_refl _) ?_ ?_ rfl rfl rfl rfl ?_ (fun _ => Nat.le_refl _) fun _ => rfl⟩
        · have hng : f.pc ≠ .gone := by rw [hpc]; simp
          refine ⟨ok.pos, ok.le, ?_, ?_, ?_, by simp, by simp⟩
          · intro hq _
            refine ⟨(ok.nq hq hng).1, ?_, by simp⟩
            intro n hn; simp only [Pc.polling.injEq] at hn; simp at hq; simp [hq] at hn; exact hn.symm
          · intro hin
            have hw := ok.wait hin
            exact ⟨hw.1, hw.2.1, Or.inr ⟨_, rfl, by simp [hw.1]⟩⟩
          · intro hq _ hnin; exact ok.out hq hng hnin
        · rintro (h | h)
          · exact Or.inl h
          · rw [hpc] at h; simp at h
        · have : owned { f with pc := .polling (if f.queued then f.state else f.num) } = owned f := by
            unfold owned; simp [hpc]
          simp only [this]
      · exact ⟨s, rfl, step_refl I⟩
  | seeClosed id =>
    simp only [step]
    cases hg : getFut s.futs id with
    | none => exact ⟨s, rfl, step_refl I⟩
    | some f =>
      obtain ⟨hf, -⟩ := getFut_some hg
      have ok := I.ok f hf
      simp only
      split
      · rename_i n hpc
        split
        · rename_i hc
          refine ⟨_, rfl, step_of_fut (f' := { f with pc := .failed }) I hf rfl rfl rfl rfl
            rfl (Nat.le_refl _) ?_ ?_ rfl rfl rfl rfl ?_ (fun _ => Nat.le_refl _) fun _ => rfl⟩
          · have hng : f.pc ≠ .gone := by rw [hpc]; simp
            have hnin : f.id ∉ s.q f.prio := by rw [I.clq hc]; simp
            exact ⟨ok.pos, ok.le, fun hq _ => ⟨(ok.nq hq hng).1, by simp, by simp⟩, fun h => absurd h hnin,
              fun hq _ hn => ok.out hq hng hn, fun _ => hc, by simp⟩
          · rintro (h | h)
            · exact Or.inl h
            · rw [hpc] at h; simp at h
          · have : owned { f with pc := .failed } = owned f := by unfold owned; simp [hpc]
            simp only [this]
        · exact ⟨s, rfl, step_refl I⟩
      · exact ⟨s, rfl, step_refl I⟩
  | cas id =>
    simp only [step]
    cases hg : getFut s.futs id with
    | none => exact ⟨s, rfl, step_refl I⟩
    | some f =>
      obtain ⟨hf, -⟩ := getFut_some hg
      have ok := I.ok f hf
      simp only
      split
      · rename_i n hpc
        have hng : f.pc ≠ .gone := by rw [hpc]; simp
        split
        · rename_i hc
          have hnin : f.id ∉ s.q f.prio := by
            intro hin
            have hw := ok.wait hin
            have hp := I.perm f.prio (by intro e; rw [e] at hin; simp at hin)
            rcases hw.2.2 with h | ⟨m, h, hm⟩
            · rw [hpc] at h; simp at h
            · rw [hpc] at h; simp at h; omega
          split
          · rename_i hq
            have hst : f.state = 0 := by
              rcases (ok.out hq hng hnin).2 with h | h
              · rw [hc.1] at h; simp at h
              · exact h
            refine ⟨_, rfl, step_of_fut (f' := { f with pc := .taken n }) I hf rfl rfl rfl rfl
              rfl (Nat.sub_le _ _) ?_ ?_ rfl rfl rfl rfl ?_ (fun _ => Nat.le_refl _) fun _ => rfl⟩
            · refine ⟨ok.pos, ok.le, fun h => by simp [hq] at h, fun h => absurd h hnin, fun hq _ hn => ok.out hq hng hn, by simp,
                fun a _ => ⟨hq, hnin, hst⟩⟩
            · intro _; exact Or.inl hq
            · have h1 : owned { f with pc := .taken n } = f.num - f.state + n := rfl
              have h2 : owned f = f.num - f.state := by unfold owned; simp [hpc]
              simp only
              omega
          · rename_i hq
            have hq : f.queued = false := by simpa using hq
            have hn := (ok.nq hq hng).2.1 n hpc
            have hst := (ok.nq hq hng).1
            refine ⟨_, rfl, step_of_fut (f' := { f with pc := .gone }) I hf rfl rfl rfl rfl
              rfl (Nat.sub_le _ _) ?_ ?_ rfl rfl rfl rfl ?_ ?_ fun _ => rfl⟩
            · exact ⟨ok.pos, ok.le, by simp, fun h => absurd h hnin, by simp, by simp, by simp⟩
            · intro _; exact Or.inr rfl
            · have h1 : owned { f with pc := .gone } = 0 := rfl
              have h2 : owned f = f.num - f.state := by unfold owned; simp [hpc]
              simp only
              omega
            · intro h; rw [hc.1] at h; simp at h
        · exact ⟨s, rfl, step_refl I⟩
      · exact ⟨s, rfl, step_refl I⟩
  | lock id =>
    simp only [step]
    cases hg : getFut s.futs id with
    | none => exact ⟨s, rfl, step_refl I⟩
    | some f =>
      obtain ⟨hf, -⟩ := getFut_some hg
      have ok := I.ok f hf
      simp only
      split
      · rename_i n hpc
        have hng : f.pc ≠ .gone := by rw [hpc]; simp
        have how : owned f = f.num - f.state := by unfold owned; simp [hpc]
        unfold lockPoll
        split
        · rename_i hc
          have hnin : f.id ∉ s.q f.prio := by rw [I.clq hc]; simp
          refine ⟨_, rfl, step_of_fut (f' := { f with pc := .failed }) I hf rfl rfl rfl rfl
            rfl (Nat.le_refl _) ?_ ?_ rfl rfl rfl rfl ?_ (fun _ => Nat.le_refl _) fun _ => rfl⟩
          · exact ⟨ok.pos, ok.le, fun hq _ => ⟨(ok.nq hq hng).1, by simp, by simp⟩, fun h => absurd h hnin,
              fun hq _ hn => ok.out hq hng hn, fun _ => hc, by simp⟩
          · rintro (h | h)
            · exact Or.inl h
            · rw [hpc] at h; simp at h
          · have : owned { f with pc := .failed } = owned f := by unfold owned; simp [hpc]
            simp only [this]
        · rename_i hc
          have hc : s.closed = false := by simpa using hc
          split
          · rename_i hn
            have hst := (ok.nq hn.2 hng).1
            have hnn := (ok.nq hn.2 hng).2.1 n hpc
            have hnin : f.id ∉ s.q f.prio := fun h => by have := (ok.wait h).1; rw [hn.2] at this; simp at this
            refine ⟨_, rfl, step_of_fut (f' := { f with pc := .gone }) I hf rfl rfl rfl rfl
              rfl (Nat.sub_le _ _) ?_ ?_ rfl rfl rfl rfl ?_ ?_ fun _ => rfl⟩
            · exact ⟨ok.pos, ok.le, by simp, fun h => absurd h hnin, by simp, by simp, by simp⟩
            · intro _; exact Or.inr rfl
            · have h1 : owned { f with pc := .gone } = 0 := rfl
              simp only
              omega
            · intro h; rw [hc] at h; simp at h
          · rename_i hn
            have I1 : Inv { s with permits := s.permits - min n s.permits } := inv_counters I rfl rfl rfl (Nat.sub_le _ _)
            refine finishPoll_ok (s0 := s) I1 hf hc ?_ (by omega) ?_ rfl rfl rfl rfl rfl rfl rfl rfl
            · show (f.queued = true ∧ f.state = 0 ∧ f.id ∉ s.q f.prio) ∨ (f.queued = true ∧ f.id ∈ s.q f.prio ∧ min n s.permits = 0) ∨
                (f.queued = false ∧ f.state = f.num ∧ f.pc ≠ .gone ∧ min n s.permits < f.num ∧ s.permits - min n s.permits = 0)
              cases hq : f.queued with
              | false =>
                right; right
                have h1 := (ok.nq hq hng)
                have h2 := h1.2.1 n hpc
                have : ¬ n ≤ s.permits := fun h => hn ⟨h, hq⟩
                exact ⟨rfl, h1.1, hng, by omega, by omega⟩
              | true =>
                by_cases hin : f.id ∈ s.q f.prio
                · right; left
                  have hp := I.perm f.prio (by intro e; rw [e] at hin; simp at hin)
                  exact ⟨rfl, hin, by omega⟩
                · left
                  refine ⟨rfl, ?_, hin⟩
                  rcases (ok.out hq hng hin).2 with h | h
                  · rw [hc] at h; simp at h
                  · exact h
            · unfold total; simp only; omega
      · exact ⟨s, rfl, step_refl I⟩
  | lockTaken id =>
    simp only [step]
    cases hg : getFut s.futs id with
    | none => exact ⟨s, rfl, step_refl I⟩
    | some f =>
      obtain ⟨hf, -⟩ := getFut_some hg
      have ok := I.ok f hf
      simp only
      split
      · rename_i n hpc
        have hng : f.pc ≠ .gone := by rw [hpc]; simp
        have how : owned f = f.num - f.state + n := by unfold owned; simp [hpc]
        obtain ⟨hq, hnin, hst⟩ := ok.tk n hpc
        split
        · rename_i hc
          refine ⟨_, rfl, step_of_fut (f' := { f with pc := .failed }) I hf rfl rfl rfl rfl
            rfl (Nat.le_refl _) ?_ (fun _ => Or.inl hq) rfl rfl rfl rfl ?_ (fun _ => Nat.le_refl _) ?_⟩
          · exact ⟨ok.pos, ok.le, fun hq _ => ⟨(ok.nq hq hng).1, by simp, by simp⟩, fun h => absurd h hnin,
              fun hq _ hn => ok.out hq hng hn, fun _ => hc, by simp⟩
          · have : owned { f with pc := .failed } = f.num - f.state := rfl
            simp only
            omega
          · intro h; rw [hc] at h; simp at h
        · rename_i hc
          have hc : s.closed = false := by simpa using hc
          exact finishPoll_ok (s0 := s) I hf hc (Or.inl ⟨hq, hst, hnin⟩) (by omega) (by omega) rfl rfl rfl rfl rfl rfl rfl rfl
      · exact ⟨s, rfl, step_refl I⟩
  | drop id =>
    have key : ∀ f ∈ s.futs, (f.pc = .idle ∨ f.pc = .failed) → ∃ s', dropFut s f = some s' ∧ StepOk 0 s s' := by
      intro f hf hpc
      have ok := I.ok f hf
      have hng : f.pc ≠ .gone := by rcases hpc with h | h <;> rw [h] <;> simp
      have how : owned f = f.num - f.state := by unfold owned; rcases hpc with h | h <;> simp [h]
      have hzero : owned { f with pc := .gone } = 0 := rfl
      unfold dropFut
      split
      · rename_i hq
        have I1 : Inv { s with q := setq s.q f.prio ((s.q f.prio).erase f.id), futs := setFut s.futs { f with pc := .gone } } := by
          have hnin : ¬ f.id ∈ setq s.q f.prio ((s.q f.prio).erase f.id) f.prio := by
            rw [setq_same]
            exact fun h => ((List.Nodup.mem_erase_iff (I.qn f.prio)).1 h).1 rfl
          refine inv_upd (f := f) (f' := { f with pc := .gone }) I hf rfl rfl rfl rfl ?_ ?_ ?_ ?_ ?_
          · intro p i hne
            by_cases hp : p = f.prio
            · subst hp
              have hid : i ≠ f.id := by rcases hne with h | h; exact h; exact absurd rfl h
              simp only [setq_same]
              exact List.mem_erase_of_ne hid
            · simp only [setq_ne _ _ hp]
          · intro p
            by_cases hp : p = f.prio
            · subst hp; simp only [setq_same]; exact (I.qn _).erase _
            · simp only [setq_ne _ _ hp]; exact I.qn p
          · exact ⟨ok.pos, ok.le, by simp, fun h => absurd h hnin, by simp, by simp, by simp⟩
          · intro p hne
            show s.permits = 0
            apply I.perm p
            intro e
            apply hne
            by_cases hp : p = f.prio
            · subst hp; simp [setq_same, e]
            · simp [setq_ne _ _ hp, e]
          · intro h p
            have := I.clq h p
            by_cases hp : p = f.prio
            · subst hp; simp [setq_same, this]
            · simp [setq_ne _ _ hp, this]
        have ht1 : total { s with q := setq s.q f.prio ((s.q f.prio).erase f.id), futs := setFut s.futs { f with pc := .gone } } +
            (f.num - f.state) = total s := by
          have hs := ownedSum_set (f' := { f with pc := .gone }) I.ids hf rfl
          unfold total
          simp only
          omega
        obtain ⟨s', h1, h2⟩ := addSection_ok I1 (rem := f.num - f.state) (by omega)
        refine ⟨s', h1, step_of_added h1 h2 I1 ?_ rfl rfl ?_ ht1 rfl rfl (fun _ => Nat.le_refl _) rfl⟩
        · intro p
          by_cases hp : p = f.prio
          · subst hp; simp only [setq_same]; exact List.erase_sublist
          · simp only [setq_ne _ _ hp]; exact List.Sublist.refl _
        · exact mono_set (f' := { f with pc := .gone }) I hf rfl rfl (fun _ => Or.inr rfl)
      · rename_i hq
        have hq : f.queued = false := by simpa using hq
        have hnin : f.id ∉ s.q f.prio := fun h => by have := (ok.wait h).1; rw [hq] at this; simp at this
        have hst := (ok.nq hq hng).1
        refine ⟨_, rfl, step_of_fut (f' := { f with pc := .gone }) I hf rfl rfl rfl rfl
          rfl (Nat.le_refl _) ?_ (fun _ => Or.inr rfl) rfl rfl rfl rfl ?_ (fun _ => Nat.le_refl _) fun _ => rfl⟩
        · exact ⟨ok.pos, ok.le, by simp, fun h => absurd h hnin, by simp, by simp, by simp⟩
        · simp only
          omega
    simp only [step]
    cases hg : getFut s.futs id with
    | none => exact ⟨s, rfl, step_refl I⟩
    | some f =>
      obtain ⟨hf, -⟩ := getFut_some hg
      simp only
      split
      · rename_i h; exact key f hf (Or.inl h)
      · rename_i h; exact key f hf (Or.inr h)
      · exact ⟨s, rfl, step_refl I⟩
  | tryAcquire n =>
    simp only [step]
    split
    · rename_i h
      refine ⟨_, rfl, inv_counters I rfl rfl rfl (Nat.sub_le _ _), fun h => h, joined_mono (mono_refl rfl) rfl, ?_,
        fun h => absurd rfl h, ?_, fun h => h, fun _ => rfl, rfl⟩
      · unfold total; simp only; omega
      · intro hc; rw [h.1] at hc; simp at hc
    · exact ⟨s, rfl, step_refl I⟩
  | release n =>
    simp only [step]
    split
    · rename_i h
      refine ⟨_, rfl, inv_counters I rfl rfl rfl (Nat.le_refl _), fun h => h, joined_mono (mono_refl rfl) rfl, ?_,
        fun h => absurd rfl h, fun _ => Nat.sub_le _ _, fun h => h, fun _ => rfl, rfl⟩
      unfold total; simp only [List.sum_cons]; omega
    · exact ⟨s, rfl, step_refl I⟩
  | add n =>
    refine ⟨_, rfl, inv_counters I rfl rfl rfl (Nat.le_refl _), fun h => h, joined_mono (mono_refl rfl) rfl, ?_,
      fun h => absurd rfl h, fun _ => Nat.le_refl _, fun h => h, fun _ => rfl, rfl⟩
    unfold total; simp only [List.sum_cons]; omega
  | turn n =>
    simp only [step]
    split
    · rename_i h
      have I1 : Inv { s with flight := s.flight.erase n } := inv_counters I rfl rfl rfl (Nat.le_refl _)
      have ht1 : total { s with flight := s.flight.erase n } + n = total s := by
        have := (List.perm_cons_erase h).sum_nat
        unfold total
        simp only [List.sum_cons] at this ⊢
        omega
      obtain ⟨s', h1, h2⟩ := addSection_ok I1 (rem := n) (by omega)
      exact ⟨s', h1, step_of_added h1 h2 I1 (fun _ => List.Sublist.refl _) rfl rfl (mono_refl rfl) ht1 rfl rfl
        (fun _ => Nat.le_refl _) rfl⟩
    · exact ⟨s, rfl, step_refl I⟩
  | close =>
    let w : Fut → Fut := fun f => if f.id ∈ s.q f.prio then { f with woken := true } else f
    have wid : ∀ f, (w f).id = f.id := by intro f; simp only [w]; split <;> rfl
    have wpr : ∀ f, (w f).prio = f.prio := by intro f; simp only [w]; split <;> rfl
    have wq : ∀ f, (w f).queued = f.queued := by intro f; simp only [w]; split <;> rfl
    have wpc : ∀ f, (w f).pc = f.pc := by intro f; simp only [w]; split <;> rfl
    have wst : ∀ f, (w f).state = f.state := by intro f; simp only [w]; split <;> rfl
    have wnum : ∀ f, (w f).num = f.num := by intro f; simp only [w]; split <;> rfl
    have wow : ∀ f, owned (w f) = owned f := by intro f; unfold owned; rw [wpc, wst, wnum]
    refine ⟨_, rfl, ?_, ?_, ?_, ?_, fun h => absurd rfl h, fun _ => Nat.le_refl _, fun _ => rfl, fun h => by simp at h, rfl⟩
    · refine ⟨?_, by simp, by simp, ?_, by simp, by simp⟩
      · show ((s.futs.map w).map Fut.id).Nodup
        rw [List.map_map]
        have : Fut.id ∘ w = Fut.id := funext wid
        rw [this]; exact I.ids
      · intro g hg
        have hg' : g ∈ s.futs.map w := hg
        obtain ⟨f, hf, rfl⟩ := List.mem_map.1 hg'
        have ok := I.ok f hf
        refine ⟨by rw [wnum]; exact ok.pos, by rw [wst, wnum]; exact ok.le, ?_, fun h => by simp at h, ?_, fun _ => rfl, ?_⟩
        · rw [wq, wpc, wst, wnum]; exact ok.nq
        · rw [wq, wpc]
          intro h1 h2 _
          refine ⟨?_, Or.inl rfl⟩
          simp only [w]
          split
          · rfl
          · rename_i hn; exact (ok.out h1 h2 hn).1
        · rw [wpc, wq, wst]
          intro a ha
          exact ⟨(ok.tk a ha).1, by simp, (ok.tk a ha).2.2⟩
    · intro h p
      show (s.served p ++ []).Sublist (s.joined p)
      rw [List.append_nil]
      exact (List.sublist_append_left _ _).trans (h p)
    · refine joined_mono ⟨?_⟩ rfl
      intro f hf hq
      refine ⟨w f, List.mem_map.2 ⟨f, hf, rfl⟩, wid f, ?_⟩
      rw [wq, wpc]; exact hq
    · have : ownedSum (s.futs.map w) = ownedSum s.futs := by
        unfold ownedSum
        rw [List.map_map]
        congr 1
        apply List.map_congr_left
        intro f _
        exact wow f
      unfold total
      show s.permits + ownedSum (s.futs.map w) + s.held + s.flight.sum + s.lost + s.created = _
      rw [this]

/-- Everything known about a reachable state. -/
structure Reach (s : Sys) : Prop where
  inv : Inv s
  fifo : Fifo s
  joined : Joined s
  total : total s = s.created
  lost : s.closed = false → s.lost = 0

theorem reach_new {n : Nat} {s : Sys} (h : Sys.new n = some s) : Reach s ∧ s.created = n ∧ n ≤ maxPermits := by
  unfold Sys.new at h
  split at h <;> simp at h
  rename_i hn
  subst h
  refine ⟨⟨⟨?_, ?_, ?_, ?_, ?_, ?_⟩, ?_, ?_, ?_, ?_⟩, rfl, hn⟩ <;> simp [Fifo, Joined, total, ownedSum]

theorem reach_step {s s' : Sys} (R : Reach s) {k : Nat} (h : StepOk k s s') : Reach s' := by
  refine ⟨h.inv, h.fifo R.fifo, h.joined R.joined, ?_, ?_⟩
  · have h1 := h.total
    have h2 := R.total
    have h3 := h.created
    omega
  · intro hc
    rw [h.lost hc]
    apply R.lost
    cases hs : s.closed with
    | false => rfl
    | true => rw [h.closed hs] at hc; simp at hc

theorem run_reach (ops : List Op) {s : Sys} (R : Reach s) (hmax : s.created + adds ops ≤ maxPermits) :
    ∃ s', run s ops = some s' ∧ Reach s' ∧ s'.created = s.created + adds ops := by
  induction ops generalizing s with
  | nil => exact ⟨s, rfl, R, by simp [adds]⟩
  | cons op ops ih =>
    have e : adds (op :: ops) = addOf op + adds ops := by simp [adds]
    obtain ⟨s1, h1, ok⟩ := step_ok R.inv R.total (by omega) op
    have hc := ok.created
    obtain ⟨s2, h2, R2, hc2⟩ := ih (reach_step R ok) (by omega)
    refine ⟨s2, ?_, R2, by omega⟩
    unfold run
    rw [h1]
    exact h2

/-- C03: with no more than `maxPermits` permits created, no sequence of operations by any number of callers panics. -/
theorem never_panics (n : Nat) (s : Sys) (hn : Sys.new n = some s) (ops : List Op) (h : n + adds ops ≤ maxPermits) :
    run s ops ≠ none := by
  obtain ⟨R, hc, -⟩ := reach_new hn
  obtain ⟨s', hr, -⟩ := run_reach ops R (by omega)
  rw [hr]; simp

theorem reachable {n : Nat} {s0 s : Sys} (hn : Sys.new n = some s0) {ops : List Op} (h : n + adds ops ≤ maxPermits)
    (hr : run s0 ops = some s) : Reach s ∧ s.created = n + adds ops := by
  obtain ⟨R, hc, -⟩ := reach_new hn
  obtain ⟨s', hr', R', hc'⟩ := run_reach ops R (by omega)
  rw [hr] at hr'
  obtain rfl := Option.some.inj hr'
  exact ⟨R', by omega⟩

/-- C03: permits are conserved. At every moment those free, given to waiting futures, held, on the way back and dropped by a
close add up to those created; nothing is dropped while the semaphore is open. -/
theorem permits_conserved (n : Nat) (s0 s : Sys) (hn : Sys.new n = some s0) (ops : List Op) (h : n + adds ops ≤ maxPermits)
    (hr : run s0 ops = some s) :
    s.permits + (s.futs.map owned).sum + s.held + s.flight.sum + s.lost = n + adds ops ∧ (s.closed = false → s.lost = 0) := by
  obtain ⟨R, hc⟩ := reachable hn h hr
  have := R.total
  unfold total ownedSum at this
  exact ⟨by omega, R.lost⟩

/-- C03: at no moment are more permits held than were created. -/
theorem held_le (n : Nat) (s0 s : Sys) (hn : Sys.new n = some s0) (ops : List Op) (h : n + adds ops ≤ maxPermits)
    (hr : run s0 ops = some s) : s.held ≤ n + adds ops := by
  have := (permits_conserved n s0 s hn ops h hr).1
  omega

/-- C03: no permit lies free while somebody waits in a list. -/
theorem no_free_permit_while_waiting (n : Nat) (s0 s : Sys) (hn : Sys.new n = some s0) (ops : List Op)
    (h : n + adds ops ≤ maxPermits) (hr : run s0 ops = some s) (p : Bool) (hw : s.q p ≠ []) : s.permits = 0 :=
  (reachable hn h hr).1.inv.perm p hw

/-- C03: a future that returned pending is in the list of its class and needs more permits, or it was woken and either has all
its permits or the semaphore is closed. -/
theorem pending_waits_or_woken (n : Nat) (s0 s : Sys) (hn : Sys.new n = some s0) (ops : List Op)
    (h : n + adds ops ≤ maxPermits) (hr : run s0 ops = some s) (f : Fut) (hf : f ∈ s.futs) (hq : f.queued = true)
    (hidle : f.pc = .idle) :
    (f.id ∈ s.q f.prio ∧ 0 < f.state) ∨ (f.woken = true ∧ (f.state = 0 ∨ s.closed = true)) := by
  have ok := (reachable hn h hr).1.inv.ok f hf
  by_cases hin : f.id ∈ s.q f.prio
  · exact Or.inl ⟨hin, (ok.wait hin).2.1⟩
  · right
    have := ok.out hq (by rw [hidle]; simp) hin
    exact ⟨this.1, this.2.symm⟩

/-- C03: a wait list never holds a future that completed, failed or was dropped, nor one twice: no node outlives its future. -/
theorem waiters_alive (n : Nat) (s0 s : Sys) (hn : Sys.new n = some s0) (ops : List Op)
    (h : n + adds ops ≤ maxPermits) (hr : run s0 ops = some s) (p : Bool) :
    (s.q p).Nodup ∧ ∀ id ∈ s.q p, ∃ f ∈ s.futs, f.id = id ∧ f.prio = p ∧ f.queued = true ∧
      (f.pc = .idle ∨ ∃ k, f.pc = .polling k) := by
  have I := (reachable hn h hr).1.inv
  refine ⟨I.qn p, ?_⟩
  intro id hid
  obtain ⟨f, hf, h1, h2⟩ := I.qf p id hid
  have hw := (I.ok f hf).wait (by rw [h1, h2]; exact hid)
  refine ⟨f, hf, h1, h2, hw.1, ?_⟩
  rcases hw.2.2 with h | ⟨k, h, -⟩
  · exact Or.inl h
  · exact Or.inr ⟨k, h⟩

/-- C03: waiters of one class are served in the order in which they joined, and each joins once: those served so far followed by
those still waiting are the joined ones, in order, without those that gave up. -/
theorem served_in_order (n : Nat) (s0 s : Sys) (hn : Sys.new n = some s0) (ops : List Op)
    (h : n + adds ops ≤ maxPermits) (hr : run s0 ops = some s) (p : Bool) :
    (s.served p ++ s.q p).Sublist (s.joined p) ∧ (s.joined p).Nodup :=
  ⟨(reachable hn h hr).1.fifo p, ((reachable hn h hr).1.joined p).1⟩

/-- C03: whatever step serves an ordinary waiter, no priority waiter is left in the list after it. -/
theorem priority_first (n : Nat) (s0 s s' : Sys) (hn : Sys.new n = some s0) (ops : List Op) (h : n + adds ops ≤ maxPermits)
    (hr : run s0 ops = some s) (op : Op) (hs : step s op = some s') (hne : s'.served false ≠ s.served false) :
    s'.q true = [] := by
  obtain ⟨R, hc⟩ := reachable hn h hr
  obtain ⟨s1, h1, ok⟩ := step_ok R.inv R.total (by omega) op
  rw [hs] at h1
  obtain rfl := Option.some.inj h1
  exact ok.prio hne

theorem closed_run (ops : List Op) {s s' : Sys} (R : Reach s) (hmax : s.created + adds ops ≤ maxPermits)
    (hr : run s ops = some s') (hc : s.closed = true) : s'.closed = true ∧ s'.held ≤ s.held := by
  induction ops generalizing s with
  | nil => simp [run] at hr; subst hr; exact ⟨hc, Nat.le_refl _⟩
  | cons op ops ih =>
    have e : adds (op :: ops) = addOf op + adds ops := by simp [adds]
    obtain ⟨s1, h1, ok⟩ := step_ok R.inv R.total (by omega) op
    unfold run at hr
    rw [h1] at hr
    have hcr := ok.created
    obtain ⟨h2, h3⟩ := ih (reach_step R ok) (by omega) hr (ok.closed hc)
    exact ⟨h2, Nat.le_trans h3 (ok.heldClosed hc)⟩

/-- C03: after a close nobody acquires a permit, and the semaphore stays closed with nobody waiting. -/
theorem closed_gives_nothing (n : Nat) (s0 s s' : Sys) (hn : Sys.new n = some s0) (ops ops' : List Op)
    (h : n + adds ops + adds ops' ≤ maxPermits) (hr : run s0 ops = some s) (hc : s.closed = true)
    (hr' : run s ops' = some s') : s'.closed = true ∧ s'.held ≤ s.held ∧ ∀ p, s'.q p = [] := by
  obtain ⟨R, hcr⟩ := reachable hn (by omega) hr
  obtain ⟨h1, h2⟩ := closed_run ops' R (by omega) hr' hc
  obtain ⟨s2, hr2, R2, -⟩ := run_reach ops' R (by omega)
  rw [hr'] at hr2
  obtain rfl := Option.some.inj hr2
  exact ⟨h1, h2, R2.inv.clq h1⟩

end Tycho.Semaphore
