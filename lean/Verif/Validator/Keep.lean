import Verif.Validator.Cancel

/-! ## What is never taken back -/
namespace Tycho.Validator

open Tycho.Table

theorem Le.task {st st1 : St} (h : Le st st1) (t : Nat) (k : Task) : Le st (setTask st1 t k) :=
  ⟨h.nobjs, h.block, h.slots, h.total, h.cancelled, h.passed, h.cu⟩

theorem Le.trans {a b d : St} (h : Le a b) (h' : Le b d) : Le a d := by
  have lt : ∀ {o}, o < a.nobjs → o < b.nobjs := fun ho => Nat.lt_of_lt_of_le ho h.nobjs
  exact ⟨Nat.le_trans h.nobjs h'.nobjs, fun o ho => (h'.block o (lt ho)).trans (h.block o ho), fun o p s ho hs => h'.slots o p s (lt ho) (h.slots o p s ho hs),
    fun o ho => Nat.le_trans (h.total o ho) (h'.total o (lt ho)), fun o ho hs => h'.cancelled o (lt ho) (h.cancelled o ho hs), fun o ho hs => h'.passed o (lt ho) (h.passed o ho hs),
    Nat.le_trans h.cu h'.cu⟩

theorem Le.setFlags (st : St) (o : Nat) (b : Obj) (h : b = { st.objs o with cancelled := true } ∨ b = { st.objs o with passed := true }) : Le st (Validator.setObj st o b) := by
  rcases h with h | h
  · rw [h]; exact Le.setObj rfl (fun _ _ h => h) (Nat.le_refl _) (fun _ => rfl) (fun h => h)
  · rw [h]; exact Le.setObj rfl (fun _ _ h => h) (Nat.le_refl _) (fun h => h) (fun _ => rfl)

theorem runV_le {c : Cfg} {st st' : St} {t : Nat} {k : Task} (hr : runV c st t k = some st') : Le st st' := by
  cases k with
  | vCheck1 b => simp only [runV, Option.some.injEq] at hr; rw [← hr]; exact (Le.refl st).task t _
  | vSlots b =>
    simp only [runV, Option.some.injEq] at hr
    obtain ⟨x, y, z, he⟩ := createSlots_same { st with minSeqno := max st.minSeqno (c.seqno b) } (c.seqno b + 1) c.slots
    rw [he] at hr
    rw [← hr]
    refine Le.task (Le.same ?_ ?_ ?_) t _ <;> rfl
  | vPeek b => simp only [runV, Option.some.injEq] at hr; rw [← hr]; exact (Le.refl st).task t _
  | vPrep b ch todo slots w =>
    cases todo with
    | nil => simp only [runV, Option.some.injEq] at hr; rw [← hr]; exact (Le.refl st).task t _
    | cons p todo =>
      cases ch with
      | none => simp only [runV, Option.some.injEq] at hr; rw [← hr]; exact (Le.refl st).task t _
      | some ch =>
        simp only [runV] at hr
        split at hr
        · simp only [Option.some.injEq] at hr; rw [← hr]; exact (Le.refl st).task t _
        · split at hr <;>
          · simp only [Option.some.injEq] at hr; rw [← hr]; exact (Le.refl st).task t _
  | vInsert b ch slots w =>
    simp only [runV] at hr
    cases hg : get st.blocks (c.seqno b) with
    | some o => rw [hg] at hr; simp only [Option.some.injEq] at hr; rw [← hr]; exact (Le.refl st).task t _
    | none =>
      rw [hg] at hr
      simp only [Option.some.injEq] at hr
      rw [← hr]
      have hne : ∀ {o}, o < st.nobjs → o ≠ st.nobjs := fun h => Nat.ne_of_lt h
      refine ⟨Nat.le_succ _, ?_, ?_, ?_, ?_, ?_, Nat.le_refl _⟩
      · intro o ho; show ((setObj st st.nobjs _).objs o).block = _; rw [setObj_ne _ _ (hne ho)]
      · intro o p s ho hs; show ((setObj st st.nobjs _).objs o).slots p = _; rw [setObj_ne _ _ (hne ho)]; exact hs
      · intro o ho; show _ ≤ ((setObj st st.nobjs _).objs o).total; rw [setObj_ne _ _ (hne ho)]
      · intro o ho hs; show ((setObj st st.nobjs _).objs o).cancelled = _; rw [setObj_ne _ _ (hne ho)]; exact hs
      · intro o ho hs; show ((setObj st st.nobjs _).objs o).passed = _; rw [setObj_ne _ _ (hne ho)]; exact hs
  | vCheck2 b ch o =>
    simp only [runV] at hr
    split at hr <;> simp only [Option.some.injEq] at hr <;> rw [← hr]
    · exact (Le.setFlags st o _ (Or.inl rfl)).task t _
    · exact (Le.setFlags st o _ (Or.inr rfl)).task t _
  | vDrop b o =>
    simp only [runV, Option.some.injEq] at hr
    rw [← hr]
    refine Le.task (Le.same ?_ ?_ ?_) t _ <;> rfl
  | vUncache b ch o =>
    simp only [runV, Option.some.injEq] at hr
    rw [← hr]
    refine Le.task (Le.same ?_ ?_ ?_) t _ <;> rfl
  | vScan b ch o todo res pend w =>
    cases todo with
    | nil => simp only [runV, Option.some.injEq] at hr; rw [← hr]; exact (Le.refl st).task t _
    | cons p todo =>
      simp only [runV] at hr
      split at hr
      · simp only [Option.some.injEq] at hr; rw [← hr]; exact (Le.refl st).task t _
      · cases hr
  | vCollect b o res pend w =>
    simp only [runV] at hr
    split at hr
    · simp only [Option.some.injEq] at hr; rw [← hr]
      refine Le.task (Le.same ?_ ?_ ?_) t _ <;> rfl
    · cases hr
  | _ => cases hr

theorem runR_le {c : Cfg} (hc : CfgOk c) {st st' : St} (h : Inv c st) {t : Nat} {k : Task} (hk : st.tasks t = some k) (hr : runR c st t k = some st') : Le st st' := by
  have hok := h.task t k hk
  cases k with
  | rStart p o ch =>
    cases ch <;> simp only [runR, Option.some.injEq] at hr <;> rw [← hr] <;> exact (Le.refl st).task t _
  | rAdd p o s a =>
    simp only [runR, Option.some.injEq] at hr
    rw [← hr]
    exact (addStep_ok h.shared hc.peersNodup hok.1.1 hok.1.2 hok.2 (fun ha => h.cnt t _ o p hk (by rw [ha]; rfl))).le.task t _
  | rChanged p o =>
    simp only [runR, Option.some.injEq] at hr
    rw [← hr]
    exact (Le.refl st).task t _
  | _ => cases hr

theorem runX_le {c : Cfg} (hc : CfgOk c) {st st' : St} (h : Inv c st) {t : Nat} {k : Task} (hk : st.tasks t = some k) (hr : runX c st t k = some st') : Le st st' := by
  have hok := h.task t k hk
  cases k with
  | xCheck p n s => simp only [runX, Option.some.injEq] at hr; rw [← hr]; exact (Le.refl st).task t _
  | xPeek p n s => simp only [runX, Option.some.injEq] at hr; rw [← hr]; exact (Le.refl st).task t _
  | xSealed p o s => simp only [runX, Option.some.injEq] at hr; rw [← hr]; exact (Le.refl st).task t _
  | xAdd p o s a =>
    simp only [runX, Option.some.injEq] at hr
    rw [← hr]
    exact (addStep_ok h.shared hc.peersNodup hok.1.1 hok.1.2 hok.2 (fun ha => h.cnt t _ o p hk (by rw [ha]; rfl))).le.task t _
  | xReply p o =>
    simp only [runX, Option.some.injEq] at hr; rw [← hr]
    refine Le.task (Le.same ?_ ?_ ?_) t _ <;> rfl
  | xCachePeek p n s => simp only [runX, Option.some.injEq] at hr; rw [← hr]; exact (Le.refl st).task t _
  | xCacheStore p ch s =>
    simp only [runX, Option.some.injEq] at hr; rw [← hr]
    refine Le.task (Le.same ?_ ?_ ?_) t _ <;> rfl
  | _ => cases hr

theorem runC_le {c : Cfg} {st st' : St} {t : Nat} {k : Task} (hr : runC c st t k = some st') : Le st st' := by
  cases k with
  | cSet n =>
    simp only [runC, Option.some.injEq] at hr; rw [← hr]
    refine Le.task (Le.until ?_ ?_ ?_) t _
    · rfl
    · rfl
    · exact Nat.le_max_left _ _
  | kSet =>
    simp only [runC, Option.some.injEq] at hr; rw [← hr]
    refine Le.task (Le.until ?_ ?_ ?_) t _
    · rfl
    · rfl
    · exact Nat.le_max_left _ _
  | cTokens n todo =>
    cases todo with
    | nil => simp only [runC, Option.some.injEq] at hr; rw [← hr]; exact (Le.refl st).task t _
    | cons x todo => cases hr
  | cMin n => simp only [runC, Option.some.injEq] at hr; rw [← hr]; refine Le.task (Le.same ?_ ?_ ?_) t _ <;> rfl
  | cCache n => simp only [runC, Option.some.injEq] at hr; rw [← hr]; refine Le.task (Le.same ?_ ?_ ?_) t _ <;> rfl
  | cRemove n => simp only [runC, Option.some.injEq] at hr; rw [← hr]; exact (Le.refl st).task t _
  | kToken => simp only [runC, Option.some.injEq] at hr; rw [← hr]; refine Le.task (Le.same ?_ ?_ ?_) t _ <;> rfl
  | _ => cases hr

theorem step_le {c : Cfg} (hc : CfgOk c) {st st' : St} (h : Inv c st) {a : Act} (hs : step c st a = some st') : Le st st' := by
  cases a with
  | run t =>
    simp only [step] at hs
    cases hk : st.tasks t with
    | none => rw [hk] at hs; cases hs
    | some k =>
      rw [hk] at hs
      simp only [Option.bind_some, Option.or_eq_some_iff] at hs
      rcases hs with h1 | ⟨_, h1⟩
      · rcases h1 with h1 | ⟨_, h1⟩
        · rcases h1 with h1 | ⟨_, h1⟩
          · exact runV_le h1
          · exact runR_le hc h hk h1
        · exact runX_le hc h hk h1
      · exact runC_le h1
  | token t n =>
    simp only [step] at hs
    split at hs
    · split at hs
      · simp only [Option.some.injEq] at hs
        rw [← hs]
        refine Le.task ?_ t _
        split
        · exact Le.setFlags st _ _ (Or.inl rfl)
        · exact Le.refl st
      · cases hs
    · cases hs
  | spawn t r =>
    simp only [step] at hs
    split at hs
    · split at hs
      · simp only [Option.some.injEq] at hs
        rw [← hs]
        exact ((Le.refl st).task r _).task t _
      · cases hs
    · cases hs
  | found t =>
    simp only [step] at hs
    split at hs
    · rw [Option.map_eq_some_iff] at hs
      obtain ⟨s, _, hs⟩ := hs
      rw [← hs]; exact (Le.refl st).task t _
    · cases hs
  | query t =>
    simp only [step] at hs
    split at hs
    · simp only [Option.some.injEq] at hs; rw [← hs]
      refine Le.same ?_ ?_ ?_ <;> rfl
    · cases hs
  | remove t n =>
    simp only [step] at hs
    split at hs
    · split at hs
      · simp only [Option.some.injEq] at hs; rw [← hs]
        refine Le.same ?_ ?_ ?_ <;> rfl
      · cases hs
    · cases hs
  | _ =>
    simp only [step] at hs
    split at hs <;> first
      | (cases hs; done)
      | (simp only [Option.some.injEq] at hs; rw [← hs]; exact (Le.refl st).task _ _)
      | (split at hs <;> first
          | (cases hs; done)
          | (simp only [Option.some.injEq] at hs; rw [← hs]; exact (Le.refl st).task _ _))

theorem steps_le {c : Cfg} (hc : CfgOk c) {st st' : St} (h : Inv c st) {l : List Act} (hs : steps c st l = some st') : Le st st' := by
  induction l generalizing st with
  | nil => cases hs; exact Le.refl _
  | cons a l ih =>
    rw [steps] at hs
    cases h1 : step c st a with
    | none => rw [h1] at hs; cases hs
    | some st1 => rw [h1] at hs; exact (step_le hc h h1).trans (ih (step_inv hc h h1) hs)

end Tycho.Validator
