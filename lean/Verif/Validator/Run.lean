import Verif.Validator.Steps

/-! ## Every step keeps the invariants: tasks -/
namespace Tycho.Validator

open Tycho.Table

theorem isR_false {k : Task} {o : Nat} {p : Peer} (h : ∀ o p, ¬ IsR o p k) {Q : Prop} (hr : IsR o p k) : Q := absurd hr (h o p)

theorem Inv.vgoto {c : Cfg} {st : St} (h : Inv c st) {t : Nat} {k0 k : Task} (hk0 : st.tasks t = some k0) (h0 : ∀ o p, ¬ IsR o p k0)
    (hk : TaskOk c (setTask st t k) k) (hn : counting k = none) : Inv c (setTask st t k) :=
  h.goto t k (fun k1 h1 o p hr => by rw [hk0] at h1; cases h1; exact absurd hr (h0 o p)) hk hn

theorem Inv.vmove {c : Cfg} {st st1 : St} (h : Inv c st) {t : Nat} {k0 k : Task} (hk0 : st.tasks t = some k0) (h0 : ∀ o p, ¬ IsR o p k0)
    (hle : Le st st1) (hs : Shared c st1) (ht : st1.tasks = st.tasks)
    (hk : TaskOk c (setTask st1 t k) k) (hc : ∀ o p, o < st.nobjs → (st1.objs o).counted p = true → (st.objs o).counted p = true) (hn : counting k = none) :
    Inv c (setTask st1 t k) :=
  h.move t k hle hs ht (fun k1 h1 o p hr => by rw [hk0] at h1; cases h1; exact absurd hr (h0 o p)) hk (fun o p ho h => Or.inl (hc o p ho h))
    (fun o p hc => by rw [hn] at hc; cases hc)

theorem PendOk.set {st st1 : St} {o : Nat} {pend : List (Nat × Peer)} (h : PendOk st o pend) {t : Nat} {k0 k : Task} (hk0 : st.tasks t = some k0)
    (h0 : ∀ o p, ¬ IsR o p k0) (ht : st1.tasks = st.tasks) : PendOk (setTask st1 t k) o pend := by
  intro e he
  obtain ⟨k1, h1, h2⟩ := h e he
  refine ⟨k1, ?_, h2⟩
  rw [setTask_ne, ht]
  · exact h1
  · intro het
    rw [het, hk0] at h1
    cases h1; exact h0 _ _ h2

theorem runV_inv {c : Cfg} (hc : CfgOk c) {st st' : St} (h : Inv c st) {t : Nat} {k : Task} (hk : st.tasks t = some k) (hr : runV c st t k = some st') : Inv c st' := by
  have hok := h.task t k hk
  cases k with
  | vCheck1 b =>
    simp only [runV, Option.some.injEq] at hr
    rw [← hr]
    split
    · exact h.vgoto hk (fun _ _ h => h) trivial rfl
    · exact h.vgoto hk (fun _ _ h => h) trivial rfl
  | vSlots b =>
    simp only [runV, Option.some.injEq] at hr
    obtain ⟨x, y, z, he⟩ := createSlots_same { st with minSeqno := max st.minSeqno (c.seqno b) } (c.seqno b + 1) c.slots
    rw [he] at hr
    rw [← hr]
    exact h.vmove hk (fun _ _ h => h) (Le.same rfl rfl rfl) (h.shared.same rfl rfl rfl rfl rfl rfl) rfl trivial (fun _ _ _ h => h) rfl
  | vPeek b =>
    simp only [runV, Option.some.injEq] at hr
    rw [← hr]
    cases get st.cache (c.seqno b) with
    | none =>
      refine h.vgoto hk (fun _ _ h => h) ⟨fun p s h => by (cases h), ?_⟩ rfl
      simp [wsum]
    | some ch =>
      refine h.vgoto hk (fun _ _ h => h) ⟨fun p s h => by (cases h), hc.peersNodup, fun p h => h, ?_⟩ rfl
      simp [wsum]
  | vPrep b ch todo slots w =>
    cases todo with
    | nil =>
      simp only [runV, Option.some.injEq] at hr
      rw [← hr]
      exact h.vgoto hk (fun _ _ h => h) ⟨fun p s hs => ⟨(hok.1 p s hs).1, (hok.1 p s hs).2.2⟩, hok.2.2.2⟩ rfl
    | cons p todo =>
      have hn := List.nodup_cons.1 hok.2.1
      have hsub : ∀ q ∈ todo, q ∈ c.peers := fun q hq => hok.2.2.1 q (List.mem_cons_of_mem _ hq)
      have hskip : Inv c (setTask st t (.vPrep b ch todo slots w)) := by
        refine h.vgoto hk (fun _ _ h => h) ⟨fun q s hs => ⟨(hok.1 q s hs).1, ?_, (hok.1 q s hs).2.2⟩, hn.2, hsub, hok.2.2.2⟩ rfl
        exact fun hq => (hok.1 q s hs).2.1 (List.mem_cons_of_mem _ hq)
      cases ch with
      | none => simp only [runV, Option.some.injEq] at hr; rw [← hr]; exact hskip
      | some ch =>
        simp only [runV] at hr
        cases hcs : st.caches ch p with
        | none => rw [hcs] at hr; simp only [Option.some.injEq] at hr; rw [← hr]; exact hskip
        | some s =>
          rw [hcs] at hr
          simp only at hr
          split at hr
          · next hv =>
            simp only [Option.some.injEq] at hr
            rw [← hr]
            have hp0 : slots p = none := by
              cases hsp : slots p with
              | none => rfl
              | some s' => exact absurd List.mem_cons_self (hok.1 p s' hsp).2.1
            refine h.vgoto hk (fun _ _ h => h) ⟨?_, hn.2, hsub, ?_⟩ rfl
            · intro q s' hs'
              simp only at hs'
              by_cases hq : q = p
              · rw [if_pos hq] at hs'; cases hs'; rw [hq]; exact ⟨hok.2.2.1 p List.mem_cons_self, hn.1, hv⟩
              · rw [if_neg hq] at hs'
                exact ⟨(hok.1 q s' hs').1, fun hq => (hok.1 q s' hs').2.1 (List.mem_cons_of_mem _ hq), (hok.1 q s' hs').2.2⟩
            · have h1 := wsum_add hc.peersNodup (f := fun p => (slots p).isSome) (hok.2.2.1 p List.mem_cons_self) (by rw [hp0]; rfl)
              have h2 := hok.2.2.2
              rw [h2, Nat.add_assoc, ← h1]
              congr 1
              apply wsum_congr
              intro q _
              by_cases hq : q = p
              · simp [hq]
              · simp [hq]
          · simp only [Option.some.injEq] at hr; rw [← hr]; exact hskip
  | vInsert b ch slots w =>
    simp only [runV] at hr
    cases hg : get st.blocks (c.seqno b) with
    | some o => rw [hg] at hr; simp only [Option.some.injEq] at hr; rw [← hr]; exact h.vgoto hk (fun _ _ h => h) trivial rfl
    | none =>
      rw [hg] at hr
      simp only [Option.some.injEq] at hr
      rw [← hr]
      have hne : ∀ {o}, o < st.nobjs → o ≠ st.nobjs := fun h => Nat.ne_of_lt h
      refine h.vmove hk (fun _ _ h => h) ⟨Nat.le_succ _, ?_, ?_, ?_, ?_, ?_, Nat.le_refl _⟩ ⟨?_, ?_, ?_, ?_, h.shared.sess⟩ rfl ⟨Nat.lt_succ_self _, ?_⟩ ?_ rfl
      · intro o ho; show ((setObj st st.nobjs _).objs o).block = _; rw [setObj_ne _ _ (hne ho)]
      · intro o p s ho hs; show ((setObj st st.nobjs _).objs o).slots p = _; rw [setObj_ne _ _ (hne ho)]; exact hs
      · intro o ho; show _ ≤ ((setObj st st.nobjs _).objs o).total; rw [setObj_ne _ _ (hne ho)]
      · intro o ho hs; show ((setObj st st.nobjs _).objs o).cancelled = _; rw [setObj_ne _ _ (hne ho)]; exact hs
      · intro o ho hs; show ((setObj st st.nobjs _).objs o).passed = _; rw [setObj_ne _ _ (hne ho)]; exact hs
      · intro o ho
        show ObjOk c st.cancelledUntil ((setObj st st.nobjs _).objs o)
        by_cases he : o = st.nobjs
        · rw [he, setObj_self]
          exact ⟨hok.1, fun p h => h, hok.2, fun h => of_decide_eq_true h, fun h => by (cases h)⟩
        · rw [setObj_ne _ _ he]
          exact h.shared.obj o (by simp only at ho; omega)
      · intro n o hn
        change get (put st.blocks (c.seqno b) st.nobjs) n = some o at hn
        show o < st.nobjs + 1 ∧ c.seqno ((setObj st st.nobjs _).objs o).block = n
        rw [get_put] at hn
        split at hn
        · next he => cases hn; exact ⟨Nat.lt_succ_self _, by rw [setObj_self, he]⟩
        · obtain ⟨h1, h2⟩ := h.shared.blocks n o hn
          exact ⟨Nat.lt_succ_of_lt h1, by rw [setObj_ne _ _ (hne h1)]; exact h2⟩
      · intro o ho hcu
        show get (put st.blocks (c.seqno b) st.nobjs) _ = some o
        change st.cancelledUntil < c.seqno ((setObj st st.nobjs _).objs o).block at hcu
        change get (put st.blocks (c.seqno b) st.nobjs) (c.seqno ((setObj st st.nobjs _).objs o).block) = some o
        by_cases he : o = st.nobjs
        · rw [he, setObj_self, get_put, if_pos rfl]
        · rw [setObj_ne _ _ he] at hcu ⊢
          have h1 := h.shared.live o (by simp only at ho; omega) hcu
          rw [get_put, if_neg]
          · exact h1
          · intro e; rw [e, hg] at h1; cases h1
      · intro x hx
        obtain ⟨o, h1, h2⟩ := h.shared.exposed x hx
        refine ⟨o, Nat.lt_succ_of_lt h1, ?_⟩
        show ((setObj st st.nobjs _).objs o).block = x
        rw [setObj_ne _ _ (hne h1)]; exact h2
      · show ((setObj st st.nobjs _).objs st.nobjs).block = b
        rw [setObj_self]
      · intro o p ho hcc
        change ((setObj st st.nobjs _).objs o).counted p = true at hcc
        rw [setObj_ne _ _ (hne ho)] at hcc; exact hcc
  | vCheck2 b ch o =>
    simp only [runV] at hr
    split at hr
    · next hcond =>
      simp only [Option.some.injEq] at hr
      rw [← hr]
      have hob := h.shared.obj o hok.1
      have hle : c.seqno b ≤ st.cancelledUntil := by
        rw [isCancelled] at hcond
        rcases Bool.or_eq_true_iff.1 hcond with h1 | h1
        · exact of_decide_eq_true h1
        · rcases Bool.or_eq_true_iff.1 h1 with h2 | h2
          · rw [← hok.2]; exact hob.cancelled h2
          · exact Nat.le_trans (hc.seqno b) (h.shared.sess h2)
      refine h.vmove hk (fun _ _ h => h) (Le.setObj rfl (fun _ _ h => h) (Nat.le_refl _) (by first | exact fun h => h | exact fun _ => rfl) (by first | exact fun h => h | exact fun _ => rfl)) (h.shared.setObj rfl ⟨hob.valid, hob.counted, hob.total, hob.sealed, fun _ => ?_⟩) rfl
        ⟨⟨hok.1, ?_⟩, hle, ?_⟩ ?_ rfl
      · show c.seqno (st.objs o).block ≤ _; rw [hok.2]; exact hle
      · show ((setObj st o _).objs o).block = b; rw [setObj_self]; exact hok.2
      · show ((setObj st o _).objs o).cancelled = true; rw [setObj_self]
      · intro o' p' _ hcc
        by_cases he : o' = o
        · rw [he] at hcc ⊢; rw [setObj_self] at hcc; exact hcc
        · rw [setObj_ne _ _ he] at hcc; exact hcc
    · simp only [Option.some.injEq] at hr
      rw [← hr]
      have hob := h.shared.obj o hok.1
      refine h.vmove hk (fun _ _ h => h) (Le.setObj rfl (fun _ _ h => h) (Nat.le_refl _) (by first | exact fun h => h | exact fun _ => rfl) (by first | exact fun h => h | exact fun _ => rfl)) (h.shared.setObj rfl ⟨hob.valid, hob.counted, hob.total, hob.sealed, hob.cancelled⟩) rfl
        ⟨⟨hok.1, ?_⟩, ?_⟩ ?_ rfl
      · show ((setObj st o _).objs o).block = b; rw [setObj_self]; exact hok.2
      · show ((setObj st o _).objs o).passed = true; rw [setObj_self]
      · intro o' p' _ hcc
        by_cases he : o' = o
        · rw [he] at hcc ⊢; rw [setObj_self] at hcc; exact hcc
        · rw [setObj_ne _ _ he] at hcc; exact hcc
  | vDrop b o =>
    simp only [runV, Option.some.injEq] at hr
    rw [← hr]
    exact h.vmove hk (fun _ _ h => h) (Le.same rfl rfl rfl) (h.shared.drop hok.2.1) rfl trivial (fun _ _ _ h => h) rfl
  | vUncache b ch o =>
    simp only [runV, Option.some.injEq] at hr
    rw [← hr]
    refine h.vmove hk (fun _ _ h => h) (Le.same rfl rfl rfl) (h.shared.same rfl rfl rfl rfl rfl rfl) rfl ⟨hok.1, ResOk.start b, fun e he => by (cases he), hok.2⟩ (fun _ _ _ h => h) rfl
  | vScan b ch o todo res pend w =>
    cases todo with
    | nil =>
      simp only [runV, Option.some.injEq] at hr
      rw [← hr]
      refine h.vgoto hk (fun _ _ h => h) ⟨hok.1, ?_, hok.2.2.1.set hk (fun _ _ h => h) rfl, hok.2.2.2⟩ rfl
      have := hok.2.1
      rwa [List.append_nil] at this
    | cons p todo =>
      simp only [runV] at hr
      cases hs : (st.objs o).slots p with
      | none => rw [hs] at hr; cases hr
      | some s =>
        rw [hs] at hr
        simp only [Option.some.injEq] at hr
        rw [← hr]
        obtain ⟨h1, h2⟩ := (h.shared.obj o hok.1.1).valid p s hs
        rw [hok.1.2] at h2
        exact h.vgoto hk (fun _ _ h => h) ⟨hok.1, hok.2.1.push hc.nodup List.perm_middle h1 h2, hok.2.2.1.set hk (fun _ _ h => h) rfl, hok.2.2.2⟩ rfl
  | vCollect b o res pend w =>
    simp only [runV] at hr
    split at hr
    · next hth =>
      simp only [Option.some.injEq] at hr
      rw [← hr]
      refine h.vmove hk (fun _ _ h => h) (Le.same rfl rfl rfl) ⟨h.shared.obj, h.shared.blocks, h.shared.live, ?_, h.shared.sess⟩ rfl ⟨⟨_, hok.2.1⟩, hth, o, hok.1⟩ (fun _ _ _ h => h) rfl
      intro x hx
      rcases List.mem_cons.1 hx with hx | hx
      · exact ⟨o, hok.1.1, by rw [hx]; exact hok.1.2⟩
      · exact h.shared.exposed x hx
    · cases hr
  | _ => cases hr

theorem runC_inv {c : Cfg} {st st' : St} (h : Inv c st) {t : Nat} {k : Task} (hk : st.tasks t = some k) (hr : runC c st t k = some st') : Inv c st' := by
  have hok := h.task t k hk
  cases k with
  | cSet n =>
    simp only [runC, Option.some.injEq] at hr
    rw [← hr]
    have hle : st.cancelledUntil ≤ max st.cancelledUntil n := Nat.le_max_left _ _
    exact h.vmove hk (fun _ _ h => h) (Le.until rfl rfl hle) (h.shared.until rfl rfl rfl hle (fun hc => Nat.le_trans (h.shared.sess hc) hle) rfl) rfl (Nat.le_max_right _ _) (fun _ _ _ h => h) rfl
  | cMin n =>
    simp only [runC, Option.some.injEq] at hr
    rw [← hr]
    exact h.vmove hk (fun _ _ h => h) (Le.same rfl rfl rfl) (h.shared.same rfl rfl rfl rfl rfl rfl) rfl hok (fun _ _ _ h => h) rfl
  | cCache n =>
    simp only [runC, Option.some.injEq] at hr
    rw [← hr]
    exact h.vmove hk (fun _ _ h => h) (Le.same rfl rfl rfl) (h.shared.same rfl rfl rfl rfl rfl rfl) rfl hok (fun _ _ _ h => h) rfl
  | cTokens n todo =>
    cases todo with
    | nil =>
      simp only [runC, Option.some.injEq] at hr
      rw [← hr]
      exact h.vgoto hk (fun _ _ h => h) hok rfl
    | cons x todo => cases hr
  | cRemove n =>
    simp only [runC, Option.some.injEq] at hr
    rw [← hr]
    exact h.vgoto hk (fun _ _ h => h) hok rfl
  | kSet =>
    simp only [runC, Option.some.injEq] at hr
    rw [← hr]
    have hle : st.cancelledUntil ≤ max st.cancelledUntil c.maxSeqno := Nat.le_max_left _ _
    exact h.vmove hk (fun _ _ h => h) (Le.until rfl rfl hle) (h.shared.until rfl rfl rfl hle (fun hc => Nat.le_trans (h.shared.sess hc) hle) rfl) rfl (Nat.le_max_right _ _) (fun _ _ _ h => h) rfl
  | kToken =>
    simp only [runC, Option.some.injEq] at hr
    rw [← hr]
    exact h.vmove hk (fun _ _ h => h) (Le.same rfl rfl rfl) (h.shared.until rfl rfl rfl (Nat.le_refl _) (fun _ => hok) rfl) rfl hok (fun _ _ _ h => h) rfl
  | _ => cases hr

theorem runR_inv {c : Cfg} (hc : CfgOk c) {st st' : St} (h : Inv c st) {t : Nat} {k : Task} (hk : st.tasks t = some k) (hr : runR c st t k = some st') : Inv c st' := by
  have hok := h.task t k hk
  have hgo : ∀ k', (∀ o p, IsR o p k → IsR o p k') → TaskOk c (setTask st t k') k' → counting k' = none → Inv c (setTask st t k') := by
    intro k' h1 h2 h3
    exact h.goto t k' (fun k0 h0 o p hr => by rw [hk] at h0; cases h0; exact h1 o p hr) h2 h3
  cases k with
  | rStart p o ch =>
    cases ch with
    | none => simp only [runR, Option.some.injEq] at hr; rw [← hr]; exact hgo _ (fun _ _ h => h) hok rfl
    | some s => simp only [runR, Option.some.injEq] at hr; rw [← hr]; exact hgo _ (fun _ _ h => h) ⟨hok, trivial⟩ rfl
  | rAdd p o s a =>
    simp only [runR, Option.some.injEq] at hr
    have hA := addStep_ok h.shared hc.peersNodup hok.1.1 hok.1.2 hok.2 (fun ha => h.cnt t _ o p hk (by rw [ha]; rfl))
    have hlt : o < (addStep c st o p s a).1.nobjs := Nat.lt_of_lt_of_le hok.1.1 hA.le.nobjs
    have hadd : ∀ k', (∀ o p, IsR o p (.rAdd p o s a) → IsR o p k') → _ := fun k' hr' => h.add hc.peersNodup hk (k := k') hok.1.1 hok.1.2 hok.2 (fun ha => by rw [ha]; rfl)
    cases he : (addStep c st o p s a).2 with
    | inl a' =>
      rw [he] at hr; simp only at hr; rw [← hr]
      refine h.add hc.peersNodup hk hok.1.1 hok.1.2 hok.2 (fun ha => by rw [ha]; rfl) (fun _ _ h => h) ⟨⟨hlt, hok.1.2⟩, hA.next a' he⟩ ?_
      intro x hx
      cases a' <;> simp [counting] at hx
      exact ⟨hx.symm, he⟩
    | inr x =>
      rw [he] at hr
      cases x with
      | ok =>
        simp only at hr; rw [← hr]
        exact h.add hc.peersNodup hk hok.1.1 hok.1.2 hok.2 (fun ha => by rw [ha]; rfl) (fun _ _ h => h) ⟨⟨hlt, hok.1.2⟩, hA.ok he⟩ (fun x hx => by (cases hx))
      | changed =>
        simp only at hr; rw [← hr]
        exact h.add hc.peersNodup hk hok.1.1 hok.1.2 hok.2 (fun ha => by rw [ha]; rfl) (fun _ _ h => h) ⟨hlt, hok.1.2⟩ (fun x hx => by (cases hx))
      | invalid =>
        simp only at hr; rw [← hr]
        exact h.add hc.peersNodup hk hok.1.1 hok.1.2 hok.2 (fun ha => by rw [ha]; rfl) (fun _ _ h => h) ⟨hlt, hok.1.2⟩ (fun x hx => by (cases hx))
  | rChanged p o =>
    simp only [runR, Option.some.injEq] at hr
    rw [← hr]
    cases hs : (st.objs o).slots p with
    | none => exact hgo _ (fun _ _ h => h) hok rfl
    | some s => exact hgo _ (fun _ _ h => h) ⟨hok, hs⟩ rfl
  | _ => cases hr

theorem runX_inv {c : Cfg} (hc : CfgOk c) {st st' : St} (h : Inv c st) {t : Nat} {k : Task} (hk : st.tasks t = some k) (hr : runX c st t k = some st') : Inv c st' := by
  have hok := h.task t k hk
  cases k with
  | xCheck p n s =>
    simp only [runX, Option.some.injEq] at hr
    rw [← hr]
    split <;> exact h.vgoto hk (fun _ _ h => h) trivial rfl
  | xPeek p n s =>
    simp only [runX, Option.some.injEq] at hr
    rw [← hr]
    cases hg : get st.blocks n with
    | none => exact h.vgoto hk (fun _ _ h => h) trivial rfl
    | some o =>
      simp only
      split
      · next hp => exact h.vgoto hk (fun _ _ h => h) ⟨(h.shared.blocks n o hg).1, hp⟩ rfl
      · exact h.vgoto hk (fun _ _ h => h) trivial rfl
  | xSealed p o s =>
    simp only [runX, Option.some.injEq] at hr
    rw [← hr]
    split
    · exact h.vgoto hk (fun _ _ h => h) hok.1 rfl
    · exact h.vgoto hk (fun _ _ h => h) ⟨hok, trivial⟩ rfl
  | xAdd p o s a =>
    simp only [runX, Option.some.injEq] at hr
    have hA := addStep_ok h.shared hc.peersNodup hok.1.1 hok.1.2 hok.2 (fun ha => h.cnt t _ o p hk (by rw [ha]; rfl))
    have hlt : o < (addStep c st o p s a).1.nobjs := Nat.lt_of_lt_of_le hok.1.1 hA.le.nobjs
    cases he : (addStep c st o p s a).2 with
    | inl a' =>
      rw [he] at hr; simp only at hr; rw [← hr]
      refine h.add hc.peersNodup hk hok.1.1 hok.1.2 hok.2 (fun ha => by rw [ha]; rfl) (fun _ _ h => h) ⟨⟨hlt, hok.1.2⟩, hA.next a' he⟩ ?_
      intro x hx
      cases a' <;> simp [counting] at hx
      exact ⟨hx.symm, he⟩
    | inr x =>
      rw [he] at hr
      cases x with
      | ok =>
        simp only at hr; rw [← hr]
        exact h.add hc.peersNodup hk hok.1.1 hok.1.2 hok.2 (fun ha => by rw [ha]; rfl) (fun _ _ h => by (cases h)) hlt (fun x hx => by (cases hx))
      | changed =>
        simp only at hr; rw [← hr]
        exact h.add hc.peersNodup hk hok.1.1 hok.1.2 hok.2 (fun ha => by rw [ha]; rfl) (fun _ _ h => by (cases h)) trivial (fun x hx => by (cases hx))
      | invalid =>
        simp only at hr; rw [← hr]
        exact h.add hc.peersNodup hk hok.1.1 hok.1.2 hok.2 (fun ha => by rw [ha]; rfl) (fun _ _ h => by (cases h)) trivial (fun x hx => by (cases hx))
  | xReply p o =>
    simp only [runX, Option.some.injEq] at hr
    rw [← hr]
    refine h.vmove hk (fun _ _ h => h) (Le.same rfl rfl rfl) ⟨h.shared.obj, h.shared.blocks, h.shared.live, ?_, h.shared.sess⟩ rfl trivial (fun _ _ _ h => h) rfl
    intro b hb
    rcases List.mem_cons.1 hb with hb | hb
    · exact ⟨o, hok, hb.symm⟩
    · exact h.shared.exposed b hb
  | xCachePeek p n s =>
    simp only [runX, Option.some.injEq] at hr
    rw [← hr]
    cases get st.cache n with
    | none => exact h.vgoto hk (fun _ _ h => h) trivial rfl
    | some ch =>
      simp only
      split <;> exact h.vgoto hk (fun _ _ h => h) trivial rfl
  | xCacheStore p ch s =>
    simp only [runX, Option.some.injEq] at hr
    rw [← hr]
    exact h.vmove hk (fun _ _ h => h) (Le.same rfl rfl rfl) (h.shared.same rfl rfl rfl rfl rfl rfl) rfl trivial (fun _ _ _ h => h) rfl
  | _ => cases hr

/-- A new task. -/
theorem Inv.new {c : Cfg} {st : St} (h : Inv c st) {t : Nat} {k : Task} (ht : st.tasks t = none) (hk : TaskOk c (setTask st t k) k) (hn : counting k = none) : Inv c (setTask st t k) :=
  h.goto t k (fun k0 h0 => by rw [ht] at h0; cases h0) hk hn

theorem step_inv {c : Cfg} (hc : CfgOk c) {st st' : St} (h : Inv c st) {a : Act} (hs : step c st a = some st') : Inv c st' := by
  cases a with
  | validate t b =>
    simp only [step] at hs
    split at hs
    · next ht => simp only [Option.some.injEq] at hs; rw [← hs]; exact h.new ht trivial rfl
    · cases hs
  | exchange t p n s =>
    simp only [step] at hs
    split at hs
    · next ht => simp only [Option.some.injEq] at hs; rw [← hs]; exact h.new ht trivial rfl
    · cases hs
  | cancelUntil t n =>
    simp only [step] at hs
    split at hs
    · next ht => simp only [Option.some.injEq] at hs; rw [← hs]; exact h.new ht trivial rfl
    · cases hs
  | cancel t =>
    simp only [step] at hs
    split at hs
    · next ht => simp only [Option.some.injEq] at hs; rw [← hs]; exact h.new ht trivial rfl
    · cases hs
  | run t =>
    simp only [step] at hs
    cases hk : st.tasks t with
    | none => rw [hk] at hs; cases hs
    | some k =>
      rw [hk] at hs
      simp only [Option.bind_some, Option.or_eq_some_iff] at hs
      rcases hs with h1 | ⟨_, h1⟩
      · rcases h1 with h1 | ⟨_, h1⟩
        · rcases h1 with h1 | ⟨_, h1⟩
          · exact runV_inv hc h hk h1
          · exact runR_inv hc h hk h1
        · exact runX_inv hc h hk h1
      · exact runC_inv h hk h1
  | spawn t r =>
    simp only [step] at hs
    split at hs
    · next b ch o p todo res pend w ht hr =>
      split at hs
      · next hsl =>
        simp only [Option.some.injEq] at hs
        rw [← hs]
        have hok := h.task t _ ht
        have htr : t ≠ r := by intro e; rw [e, hr] at ht; cases ht
        have hp : p ∈ c.peers := hok.2.1.mem hc.nodup (by simp)
        have h1 : Inv c (setTask st r (.rStart p o (ch.bind (fun ch => st.caches ch p)))) := h.new hr ⟨hok.1.1, hp⟩ rfl
        have ht' : (setTask st r (.rStart p o (ch.bind (fun ch => st.caches ch p)))).tasks t = some (.vScan b ch o (p :: todo) res pend w) := by rw [setTask_ne _ _ htr]; exact ht
        refine h1.vgoto ht' (fun _ _ h => h) ⟨hok.1, ?_, ?_, hok.2.2.2⟩ rfl
        · have := hok.2.1
          rw [List.map_append, List.append_assoc]
          exact this
        · have hold := h1.task t _ ht'
          intro e he
          rcases List.mem_append.1 he with he | he
          · exact (hold.2.2.1.set ht' (fun _ _ h => h) rfl) e he
          · rw [List.mem_singleton] at he
            subst he
            refine ⟨.rStart p o (ch.bind (fun ch => st.caches ch p)), ?_, ⟨rfl, rfl⟩⟩
            · show (setTask (setTask st r _) t _).tasks r = _
              rw [setTask_ne _ _ (Ne.symm htr), setTask_self]
      · cases hs
    · cases hs
  | take t r =>
    simp only [step] at hs
    split at hs
    · next b o res pend w p o' s ht hr =>
      split at hs
      · next hcond =>
        simp only [Option.some.injEq] at hs
        rw [← hs]
        have hok := h.task t _ ht
        have hok' := h.task r _ hr
        obtain ⟨k', hk1, hk2⟩ := hok.2.2.1 _ hcond.2
        rw [hr] at hk1
        cases hk1
        obtain ⟨e1, _⟩ := hk2
        subst e1
        obtain ⟨h1, h2⟩ := (h.shared.obj o' hok.1.1).valid p s hok'.2
        rw [hok.1.2] at h2
        refine h.vgoto ht (fun _ _ h => h) ⟨hok.1, hok.2.1.push hc.nodup ?_ h1 h2, ?_, hok.2.2.2⟩ rfl
        · have := (List.perm_cons_erase hcond.2).map (·.2)
          exact this
        · intro e he
          exact (hok.2.2.1.set ht (fun _ _ h => h) rfl) e (List.mem_of_mem_erase he)
      · cases hs
    · cases hs
  | stop t =>
    simp only [step] at hs
    split at hs
    · next ht =>
      split at hs
      · simp only [Option.some.injEq] at hs; rw [← hs]; exact h.vgoto ht (fun _ _ h => h) trivial rfl
      · cases hs
    · cases hs
  | exhaust t =>
    simp only [step] at hs
    split at hs
    · next b o res pend w ht =>
      split at hs
      · next hcond =>
        exfalso
        have hok := (h.task t _ ht).2.1
        rw [hcond.2, List.map_nil] at hok
        have hw : w = totalWeight c := by
          rw [hok.weight, totalWeight]
          have := hok.perm
          rw [List.append_nil] at this
          exact (this.map _).sum_eq
        have := hc.threshold
        have h1 := hc.pos
        have h2 := hc.small
        rw [thresholdOf, Nat.min_eq_left h2] at this
        omega
      · cases hs
    · cases hs
  | query t =>
    simp only [step] at hs
    split at hs
    · next p o ht =>
      simp only [Option.some.injEq] at hs
      rw [← hs]
      have hok := h.task t _ ht
      refine h.change (Le.same rfl rfl rfl) ⟨h.shared.obj, h.shared.blocks, h.shared.live, ?_, h.shared.sess⟩ rfl (fun _ _ _ h => h)
      intro b hb
      rcases List.mem_cons.1 hb with hb | hb
      · exact ⟨o, hok.1, hb.symm⟩
      · exact h.shared.exposed b hb
    · cases hs
  | answer t s =>
    simp only [step] at hs
    split at hs
    · next p o ht =>
      simp only [Option.some.injEq] at hs
      rw [← hs]
      refine h.goto t _ (fun k0 h0 o p hr => by rw [ht] at h0; cases h0; exact hr) ⟨h.task t _ ht, trivial⟩ rfl
    · cases hs
  | found t =>
    simp only [step] at hs
    split at hs
    · next p o ht =>
      cases hsl : (st.objs o).slots p with
      | none => rw [hsl] at hs; cases hs
      | some s =>
        rw [hsl] at hs
        simp only [Option.map_some, Option.some.injEq] at hs
        rw [← hs]
        exact h.goto t _ (fun k0 h0 o p hr => by rw [ht] at h0; cases h0; exact hr) ⟨h.task t _ ht, trivial⟩ rfl
    · cases hs
  | token t n =>
    simp only [step] at hs
    split at hs
    · next m todo ht =>
      split at hs
      · next hnm =>
        simp only [Option.some.injEq] at hs
        rw [← hs]
        have hm : m ≤ st.cancelledUntil := h.task t _ ht
        cases hg : get st.blocks n with
        | none => exact h.vgoto ht (fun _ _ h => h) hm rfl
        | some o =>
          obtain ⟨ho, hb⟩ := h.shared.blocks n o hg
          have hob := h.shared.obj o ho
          refine h.vmove ht (fun _ _ h => h) (Le.setObj rfl (fun _ _ h => h) (Nat.le_refl _) (by first | exact fun h => h | exact fun _ => rfl) (by first | exact fun h => h | exact fun _ => rfl)) (h.shared.setObj rfl ⟨hob.valid, hob.counted, hob.total, hob.sealed, fun _ => ?_⟩) rfl hm ?_ rfl
          · show c.seqno (st.objs o).block ≤ _; omega
          · intro o' p' _ hcc
            by_cases he : o' = o
            · rw [he] at hcc ⊢; rw [setObj_self] at hcc; exact hcc
            · rw [setObj_ne _ _ he] at hcc; exact hcc
      · cases hs
    · cases hs
  | remove t n =>
    simp only [step] at hs
    split at hs
    · next m ht =>
      split at hs
      · next hnm =>
        simp only [Option.some.injEq] at hs
        rw [← hs]
        have hm : m ≤ st.cancelledUntil := h.task t _ ht
        exact h.change (Le.same rfl rfl rfl) (h.shared.drop (by omega)) rfl (fun _ _ _ h => h)
      · cases hs
    · cases hs
  | abort t =>
    simp only [step] at hs
    split at hs
    · split at hs
      · cases hs
      · simp only [Option.some.injEq] at hs; rw [← hs]
        exact h.goto t _ (fun _ _ _ _ _ => trivial) trivial rfl
    · cases hs

theorem init_inv (c : Cfg) (start : Nat) : Inv c (init c start) := by
  obtain ⟨x, y, z, he⟩ := createSlots_same ⟨fun _ => ⟨0, fun _ => none, 0, false, false, fun _ => false, false⟩, 0, fun _ _ => none, 0, [], [], start, 0, false, fun _ => none, []⟩ start c.slots
  rw [init, he]
  refine ⟨⟨fun o ho => absurd ho (Nat.not_lt_zero _), fun n o h => by (cases h), fun o ho => absurd ho (Nat.not_lt_zero _), fun b hb => by (cases hb), fun h => by (cases h)⟩,
    fun t k h => by (cases h), fun t k o p h => by (cases h), fun t t' k k' x h => by (cases h)⟩

theorem steps_inv {c : Cfg} (hc : CfgOk c) {st st' : St} (h : Inv c st) {l : List Act} (hs : steps c st l = some st') : Inv c st' := by
  induction l generalizing st with
  | nil => cases hs; exact h
  | cons a l ih =>
    rw [steps] at hs
    cases h1 : step c st a with
    | none => rw [h1] at hs; cases hs
    | some st1 => rw [h1] at hs; exact ih (step_inv hc h h1) hs

theorem Reach.inv {c : Cfg} (hc : CfgOk c) {start : Nat} {st : St} (h : Reach c start st) : Inv c st := by
  obtain ⟨l, hl⟩ := h
  exact steps_inv hc (init_inv c start) hl

end Tycho.Validator
