import Verif.Validator.Run

/-! ## A cancellation reaches every validation -/
namespace Tycho.Validator

open Tycho.Table

/-- A cancellation that has begun to visit blocks: its bound and what is left to visit. -/
def visited : Task → Option (Nat × List Nat)
  | .cTokens n todo => some (n, todo)
  | .cRemove n => some (n, [])
  | .cDone n => some (n, [])
  | _ => none

structure Live (c : Cfg) (st : St) : Prop where
  kept : ∀ o, o < st.nobjs → (st.objs o).passed = true → (st.objs o).cancelled = false → get st.blocks (c.seqno (st.objs o).block) = some o
  only : ∀ o o', o < st.nobjs → o' < st.nobjs → (st.objs o).passed = true → (st.objs o).cancelled = false → c.seqno (st.objs o').block = c.seqno (st.objs o).block → o' = o
  done : ∀ t k x, st.tasks t = some k → visited k = some x → ∀ o, o < st.nobjs → (st.objs o).passed = true → c.seqno (st.objs o).block ≤ x.1 →
    (st.objs o).cancelled = true ∨ c.seqno (st.objs o).block ∈ x.2

/-- Nothing that matters for cancellation has changed. -/
structure Quiet (st st' : St) : Prop where
  nobjs : st'.nobjs = st.nobjs
  block : ∀ o, (st'.objs o).block = (st.objs o).block
  passed : ∀ o, (st'.objs o).passed = (st.objs o).passed
  cancelled : ∀ o, (st'.objs o).cancelled = (st.objs o).cancelled
  blocks : st'.blocks = st.blocks

theorem Quiet.refl (st : St) : Quiet st st := ⟨rfl, fun _ => rfl, fun _ => rfl, fun _ => rfl, rfl⟩

theorem Live.quiet {c : Cfg} {st st' : St} (h : Live c st) (hq : Quiet st st')
    (ht : ∀ t k x, st'.tasks t = some k → visited k = some x → ∃ k', st.tasks t = some k' ∧ visited k' = some x) : Live c st' := by
  refine ⟨?_, ?_, ?_⟩
  · intro o ho hp hc
    rw [hq.nobjs] at ho; rw [hq.passed] at hp; rw [hq.cancelled] at hc; rw [hq.block, hq.blocks]
    exact h.kept o ho hp hc
  · intro o o' ho ho' hp hc he
    rw [hq.nobjs] at ho ho'; rw [hq.passed] at hp; rw [hq.cancelled] at hc; rw [hq.block, hq.block] at he
    exact h.only o o' ho ho' hp hc he
  · intro t k x hk hv o ho hp hle
    rw [hq.nobjs] at ho; rw [hq.passed] at hp; rw [hq.block] at hle ⊢; rw [hq.cancelled]
    obtain ⟨k', h1, h2⟩ := ht t k x hk hv
    exact h.done t k' x h1 h2 o ho hp hle

/-- A task goes on that is no cancellation in its visits. -/
theorem Live.goto {c : Cfg} {st st1 : St} (h : Live c st) (hq : Quiet st st1) (htk : st1.tasks = st.tasks) (t : Nat) {k : Task} (hk : visited k = none) : Live c (setTask st1 t k) := by
  refine h.quiet ⟨hq.nobjs, hq.block, hq.passed, hq.cancelled, hq.blocks⟩ ?_
  intro t' k' x h1 h2
  by_cases he : t' = t
  · rw [he, setTask_self] at h1; cases h1; rw [hk] at h2; cases h2
  · rw [setTask_ne _ _ he, htk] at h1; exact ⟨k', h1, h2⟩

theorem addStep_quiet (c : Cfg) (st : St) (o : Nat) (p : Peer) (s : Sig) (a : Add) : Quiet st (addStep c st o p s a).1 ∧ (addStep c st o p s a).1.tasks = st.tasks := by
  have hset : ∀ b : Obj, b.block = (st.objs o).block → b.passed = (st.objs o).passed → b.cancelled = (st.objs o).cancelled → Quiet st (setObj st o b) := by
    intro b h1 h2 h3
    refine ⟨rfl, ?_, ?_, ?_, rfl⟩ <;>
    · intro j
      by_cases hj : j = o
      · rw [hj, setObj_self]; assumption
      · rw [setObj_ne _ _ hj]
  cases a with
  | load => simp only [addStep]; split <;> exact ⟨Quiet.refl _, rfl⟩
  | check => exact ⟨Quiet.refl _, rfl⟩
  | cas =>
    simp only [addStep]; split
    · exact ⟨hset _ rfl rfl rfl, rfl⟩
    · exact ⟨Quiet.refl _, rfl⟩
  | count => exact ⟨hset _ rfl rfl rfl, rfl⟩
  | mark can =>
    cases can
    · exact ⟨Quiet.refl _, rfl⟩
    · exact ⟨hset _ rfl rfl rfl, rfl⟩

/-- The block `o` is cancelled. -/
theorem Live.token {c : Cfg} {st : St} (h : Live c st) (o : Nat) : Live c (setObj st o { st.objs o with cancelled := true }) := by
  have hb : ∀ j, ((setObj st o { st.objs o with cancelled := true }).objs j).block = (st.objs j).block := by
    intro j
    by_cases hj : j = o
    · rw [hj, setObj_self]
    · rw [setObj_ne _ _ hj]
  have hp : ∀ j, ((setObj st o { st.objs o with cancelled := true }).objs j).passed = (st.objs j).passed := by
    intro j
    by_cases hj : j = o
    · rw [hj, setObj_self]
    · rw [setObj_ne _ _ hj]
  have hc : ∀ j, ((setObj st o { st.objs o with cancelled := true }).objs j).cancelled = false → (st.objs j).cancelled = false := by
    intro j h
    by_cases hj : j = o
    · rw [hj, setObj_self] at h; cases h
    · rw [setObj_ne _ _ hj] at h; exact h
  refine ⟨?_, ?_, ?_⟩
  · intro j hj h1 h2
    rw [hb]; rw [hp] at h1
    exact h.kept j hj h1 (hc j h2)
  · intro j j' hj hj' h1 h2 he
    rw [hp] at h1; rw [hb, hb] at he
    exact h.only j j' hj hj' h1 (hc j h2) he
  · intro t k x hk hv j hj h1 hle
    rw [hp] at h1; rw [hb] at hle ⊢
    rcases h.done t k x hk hv j hj h1 hle with h2 | h2
    · left
      by_cases hjo : j = o
      · rw [hjo, setObj_self]
      · rw [setObj_ne _ _ hjo]; exact h2
    · exact Or.inr h2

/-- A block is removed from the tree that no validation relies on. -/
theorem Live.drop {c : Cfg} {st : St} (h : Live c st) {n : Nat}
    (hn : ∀ o, o < st.nobjs → (st.objs o).passed = true → c.seqno (st.objs o).block = n → (st.objs o).cancelled = true) :
    Live c { st with blocks := del st.blocks (fun m => decide (m = n)) } := by
  refine ⟨?_, h.only, h.done⟩
  intro o ho hp hc
  show get (del st.blocks (fun m => decide (m = n))) _ = some o
  rw [get_del, if_neg]
  · exact h.kept o ho hp hc
  · intro he
    have := hn o ho hp (of_decide_eq_true he)
    change (st.objs o).cancelled = false at hc
    rw [this] at hc; cases hc

theorem runR_live {c : Cfg} {st st' : St} (hl : Live c st) {t : Nat} {k : Task} (hr : runR c st t k = some st') : Live c st' := by
  cases k with
  | rStart p o ch =>
    cases ch <;> simp only [runR, Option.some.injEq] at hr <;> rw [← hr] <;> exact hl.goto (Quiet.refl _) rfl t rfl
  | rAdd p o s a =>
    simp only [runR, Option.some.injEq] at hr
    rw [← hr]
    obtain ⟨h1, h2⟩ := addStep_quiet c st o p s a
    refine hl.goto h1 h2 t ?_
    rcases (addStep c st o p s a).2 with a' | x
    · rfl
    · cases x <;> rfl
  | rChanged p o =>
    simp only [runR, Option.some.injEq] at hr
    rw [← hr]
    refine hl.goto (Quiet.refl _) rfl t ?_
    split <;> rfl
  | _ => cases hr

theorem runX_live {c : Cfg} {st st' : St} (hl : Live c st) {t : Nat} {k : Task} (hr : runX c st t k = some st') : Live c st' := by
  cases k with
  | xCheck p n s =>
    simp only [runX, Option.some.injEq] at hr
    rw [← hr]
    refine hl.goto (Quiet.refl _) rfl t ?_
    split <;> rfl
  | xPeek p n s =>
    simp only [runX, Option.some.injEq] at hr
    rw [← hr]
    refine hl.goto (Quiet.refl _) rfl t ?_
    split
    · split <;> rfl
    · rfl
  | xSealed p o s =>
    simp only [runX, Option.some.injEq] at hr
    rw [← hr]
    refine hl.goto (Quiet.refl _) rfl t ?_
    split <;> rfl
  | xAdd p o s a =>
    simp only [runX, Option.some.injEq] at hr
    rw [← hr]
    obtain ⟨h1, h2⟩ := addStep_quiet c st o p s a
    refine hl.goto h1 h2 t ?_
    rcases (addStep c st o p s a).2 with a' | x
    · rfl
    · cases x <;> rfl
  | xReply p o =>
    simp only [runX, Option.some.injEq] at hr
    rw [← hr]
    refine hl.goto ?_ ?_ t ?_
    on_goal 2 => rfl
    on_goal 2 => rfl
    exact ⟨rfl, fun _ => rfl, fun _ => rfl, fun _ => rfl, rfl⟩
  | xCachePeek p n s =>
    simp only [runX, Option.some.injEq] at hr
    rw [← hr]
    refine hl.goto (Quiet.refl _) rfl t ?_
    split
    · split <;> rfl
    · rfl
  | xCacheStore p ch s =>
    simp only [runX, Option.some.injEq] at hr
    rw [← hr]
    refine hl.goto ?_ ?_ t ?_
    on_goal 2 => rfl
    on_goal 2 => rfl
    exact ⟨rfl, fun _ => rfl, fun _ => rfl, fun _ => rfl, rfl⟩
  | _ => cases hr

theorem runV_live {c : Cfg} {st st' : St} (h : Inv c st) (hl : Live c st) {t : Nat} {k : Task} (hk : st.tasks t = some k) (hr : runV c st t k = some st') : Live c st' := by
  have hok := h.task t k hk
  cases k with
  | vCheck1 b =>
    simp only [runV, Option.some.injEq] at hr
    rw [← hr]
    refine hl.goto (Quiet.refl _) rfl t ?_
    split <;> rfl
  | vSlots b =>
    simp only [runV, Option.some.injEq] at hr
    obtain ⟨x, y, z, he⟩ := createSlots_same { st with minSeqno := max st.minSeqno (c.seqno b) } (c.seqno b + 1) c.slots
    rw [he] at hr
    rw [← hr]
    refine hl.goto ?_ ?_ t ?_
    on_goal 2 => rfl
    on_goal 2 => rfl
    exact ⟨rfl, fun _ => rfl, fun _ => rfl, fun _ => rfl, rfl⟩
  | vPeek b =>
    simp only [runV, Option.some.injEq] at hr
    rw [← hr]
    refine hl.goto (Quiet.refl _) rfl t ?_
    split <;> rfl
  | vPrep b ch todo slots w =>
    cases todo with
    | nil => simp only [runV, Option.some.injEq] at hr; rw [← hr]; exact hl.goto (Quiet.refl _) rfl t rfl
    | cons p todo =>
      cases ch with
      | none => simp only [runV, Option.some.injEq] at hr; rw [← hr]; exact hl.goto (Quiet.refl _) rfl t rfl
      | some ch =>
        simp only [runV] at hr
        split at hr
        · simp only [Option.some.injEq] at hr; rw [← hr]; exact hl.goto (Quiet.refl _) rfl t rfl
        · split at hr <;>
          · simp only [Option.some.injEq] at hr; rw [← hr]; exact hl.goto (Quiet.refl _) rfl t rfl
  | vInsert b ch slots w =>
    simp only [runV] at hr
    cases hg : get st.blocks (c.seqno b) with
    | some o => rw [hg] at hr; simp only [Option.some.injEq] at hr; rw [← hr]; exact hl.goto (Quiet.refl _) rfl t rfl
    | none =>
      rw [hg] at hr
      simp only [Option.some.injEq] at hr
      rw [← hr]
      have hcase : ∀ o, o < st.nobjs + 1 → o ≠ st.nobjs → o < st.nobjs := fun o h1 h2 => by omega
      refine ⟨?_, ?_, ?_⟩
      · intro o ho hp hc
        show get (put st.blocks (c.seqno b) st.nobjs) (c.seqno ((setObj st st.nobjs _).objs o).block) = some o
        change ((setObj st st.nobjs _).objs o).passed = true at hp
        change ((setObj st st.nobjs _).objs o).cancelled = false at hc
        by_cases he : o = st.nobjs
        · rw [he, setObj_self] at hp; cases hp
        · rw [setObj_ne _ _ he] at hp hc ⊢
          have h1 := hl.kept o (hcase o ho he) hp hc
          rw [get_put, if_neg]
          · exact h1
          · intro e; rw [e, hg] at h1; cases h1
      · intro o o' ho ho' hp hc heq
        change ((setObj st st.nobjs _).objs o).passed = true at hp
        change ((setObj st st.nobjs _).objs o).cancelled = false at hc
        change c.seqno ((setObj st st.nobjs _).objs o').block = c.seqno ((setObj st st.nobjs _).objs o).block at heq
        by_cases he : o = st.nobjs
        · rw [he, setObj_self] at hp; cases hp
        · rw [setObj_ne _ _ he] at hp hc heq
          by_cases he' : o' = st.nobjs
          · rw [he', setObj_self] at heq
            have h1 := hl.kept o (hcase o ho he) hp hc
            rw [← heq] at h1
            change get st.blocks (c.seqno b) = some o at h1
            rw [hg] at h1; cases h1
          · rw [setObj_ne _ _ he'] at heq
            exact hl.only o o' (hcase o ho he) (hcase o' ho' he') hp hc heq
      · intro t' k' x hk' hv o ho hp hle
        change ((setObj st st.nobjs _).objs o).passed = true at hp
        change c.seqno ((setObj st st.nobjs _).objs o).block ≤ x.1 at hle
        show ((setObj st st.nobjs _).objs o).cancelled = true ∨ c.seqno ((setObj st st.nobjs _).objs o).block ∈ x.2
        by_cases htt : t' = t
        · rw [htt, setTask_self] at hk'; cases hk'; cases hv
        · rw [setTask_ne _ _ htt] at hk'
          by_cases he : o = st.nobjs
          · rw [he, setObj_self] at hp; cases hp
          · rw [setObj_ne _ _ he] at hp hle ⊢
            exact hl.done t' k' x hk' hv o (hcase o ho he) hp hle
  | vCheck2 b ch o =>
    simp only [runV] at hr
    split at hr
    · simp only [Option.some.injEq] at hr
      rw [← hr]
      exact (hl.token o).goto (Quiet.refl _) rfl t rfl
    · next hcond =>
      simp only [Option.some.injEq] at hr
      rw [← hr]
      have hcond1 := Bool.eq_false_iff.2 hcond
      rw [Bool.or_eq_false_iff] at hcond1
      have hlt : st.cancelledUntil < c.seqno b := by have := of_decide_eq_false hcond1.1; omega
      have huniq : ∀ o', o' < st.nobjs → c.seqno (st.objs o').block = c.seqno b → o' = o := by
        intro o' ho' he
        have h1 := h.shared.live o' ho' (by omega)
        have h2 := h.shared.live o hok.1 (by rw [hok.2]; exact hlt)
        rw [he] at h1; rw [hok.2, h1] at h2
        exact Option.some.inj h2
      have hb : ∀ j, ((setObj st o { st.objs o with passed := true }).objs j).block = (st.objs j).block := by
        intro j
        by_cases hj : j = o
        · rw [hj, setObj_self]
        · rw [setObj_ne _ _ hj]
      have hc : ∀ j, ((setObj st o { st.objs o with passed := true }).objs j).cancelled = (st.objs j).cancelled := by
        intro j
        by_cases hj : j = o
        · rw [hj, setObj_self]
        · rw [setObj_ne _ _ hj]
      have hp : ∀ j, j ≠ o → ((setObj st o { st.objs o with passed := true }).objs j).passed = (st.objs j).passed := by
        intro j hj
        rw [setObj_ne _ _ hj]
      refine Live.goto (st := setObj st o { st.objs o with passed := true }) ⟨?_, ?_, ?_⟩ (Quiet.refl _) rfl t rfl
      · intro j hj h1 h2
        rw [hb]
        by_cases he : j = o
        · rw [he]; exact h.shared.live o hok.1 (by rw [hok.2]; exact hlt)
        · rw [hp j he] at h1; rw [hc] at h2
          exact hl.kept j hj h1 h2
      · intro j j' hj hj' h1 h2 heq
        rw [hb, hb] at heq
        by_cases he : j = o
        · rw [he, hok.2] at heq; rw [he]; exact huniq j' hj' heq
        · rw [hp j he] at h1; rw [hc] at h2
          exact hl.only j j' hj hj' h1 h2 heq
      · intro t' k' x hk' hv j hj h1 hle
        rw [hb] at hle ⊢; rw [hc]
        by_cases he : j = o
        · exfalso
          rw [he, hok.2] at hle
          have hx : x.1 ≤ st.cancelledUntil := by
            have := h.task t' k' hk'
            cases k' <;> simp only [visited, Option.some.injEq, reduceCtorEq] at hv <;> subst hv <;> exact this
          omega
        · rw [hp j he] at h1
          exact hl.done t' k' x hk' hv j hj h1 hle
  | vDrop b o =>
    simp only [runV, Option.some.injEq] at hr
    rw [← hr]
    have hnp : ∀ j, j < st.nobjs → (st.objs j).passed = true → c.seqno (st.objs j).block = c.seqno b → (st.objs j).cancelled = true := by
      intro j hj hp he
      cases hcc : (st.objs j).cancelled with
      | true => rfl
      | false =>
        exfalso
        have h1 := hl.only j o hj hok.1.1 hp hcc (by rw [hok.1.2, he])
        rw [← h1, hok.2.2] at hcc; cases hcc
    exact (hl.drop hnp).goto (Quiet.refl _) rfl t rfl
  | vUncache b ch o =>
    simp only [runV, Option.some.injEq] at hr
    rw [← hr]
    refine hl.goto ?_ ?_ t ?_
    on_goal 2 => rfl
    on_goal 2 => rfl
    exact ⟨rfl, fun _ => rfl, fun _ => rfl, fun _ => rfl, rfl⟩
  | vScan b ch o todo res pend w =>
    cases todo with
    | nil => simp only [runV, Option.some.injEq] at hr; rw [← hr]; exact hl.goto (Quiet.refl _) rfl t rfl
    | cons p todo =>
      simp only [runV] at hr
      split at hr
      · simp only [Option.some.injEq] at hr; rw [← hr]; exact hl.goto (Quiet.refl _) rfl t rfl
      · cases hr
  | vCollect b o res pend w =>
    simp only [runV] at hr
    split at hr
    · simp only [Option.some.injEq] at hr; rw [← hr]
      refine hl.goto ?_ ?_ t ?_
      on_goal 2 => rfl
      on_goal 2 => rfl
      exact ⟨rfl, fun _ => rfl, fun _ => rfl, fun _ => rfl, rfl⟩
    · cases hr
  | _ => cases hr

theorem runC_live {c : Cfg} {st st' : St} (h : Inv c st) (hl : Live c st) {t : Nat} {k : Task} (hk : st.tasks t = some k) (hr : runC c st t k = some st') : Live c st' := by
  have hq : ∀ {st1 : St}, st1.nobjs = st.nobjs → st1.objs = st.objs → st1.blocks = st.blocks → Quiet st st1 := by
    intro st1 h1 h2 h3
    exact ⟨h1, fun _ => by rw [h2], fun _ => by rw [h2], fun _ => by rw [h2], h3⟩
  cases k with
  | cSet n =>
    simp only [runC, Option.some.injEq] at hr
    rw [← hr]
    refine hl.goto (hq ?_ ?_ ?_) ?_ t ?_ <;> rfl
  | cMin n =>
    simp only [runC, Option.some.injEq] at hr
    rw [← hr]
    refine hl.goto (hq ?_ ?_ ?_) ?_ t ?_ <;> rfl
  | cCache n =>
    simp only [runC, Option.some.injEq] at hr
    rw [← hr]
    refine ⟨hl.kept, hl.only, ?_⟩
    intro t' k' x hk' hv o ho hp hle
    by_cases htt : t' = t
    · rw [htt, setTask_self] at hk'; cases hk'; cases hv
      change (st.objs o).cancelled = true ∨ c.seqno (st.objs o).block ∈ _
      change c.seqno (st.objs o).block ≤ n at hle
      cases hc : (st.objs o).cancelled with
      | true => exact Or.inl rfl
      | false =>
        right
        have h1 := hl.kept o ho hp hc
        rw [List.mem_filter]
        refine ⟨?_, decide_eq_true hle⟩
        exact List.mem_map.2 ⟨_, mem_of_get _ _ _ h1, rfl⟩
    · rw [setTask_ne _ _ htt] at hk'
      exact hl.done t' k' x hk' hv o ho hp hle
  | cTokens n todo =>
    cases todo with
    | cons x todo => cases hr
    | nil =>
      simp only [runC, Option.some.injEq] at hr
      rw [← hr]
      refine ⟨hl.kept, hl.only, ?_⟩
      intro t' k' x hk' hv o ho hp hle
      by_cases htt : t' = t
      · rw [htt, setTask_self] at hk'; cases hk'; cases hv
        exact hl.done t _ (n, []) hk rfl o ho hp hle
      · rw [setTask_ne _ _ htt] at hk'
        exact hl.done t' k' x hk' hv o ho hp hle
  | cRemove n =>
    simp only [runC, Option.some.injEq] at hr
    rw [← hr]
    refine ⟨hl.kept, hl.only, ?_⟩
    intro t' k' x hk' hv o ho hp hle
    by_cases htt : t' = t
    · rw [htt, setTask_self] at hk'; cases hk'; cases hv
      exact hl.done t _ (n, []) hk rfl o ho hp hle
    · rw [setTask_ne _ _ htt] at hk'
      exact hl.done t' k' x hk' hv o ho hp hle
  | kSet =>
    simp only [runC, Option.some.injEq] at hr
    rw [← hr]
    refine hl.goto (hq ?_ ?_ ?_) ?_ t ?_ <;> rfl
  | kToken =>
    simp only [runC, Option.some.injEq] at hr
    rw [← hr]
    refine hl.goto (hq ?_ ?_ ?_) ?_ t ?_ <;> rfl
  | _ => cases hr

theorem step_live {c : Cfg} {st st' : St} (h : Inv c st) (hl : Live c st) {a : Act} (hs : step c st a = some st') : Live c st' := by
  have hnew : ∀ t k, visited k = none → Live c (setTask st t k) := fun t k hv => hl.goto (Quiet.refl _) rfl t hv
  cases a with
  | validate t b => simp only [step] at hs; split at hs <;> simp only [Option.some.injEq, reduceCtorEq] at hs; rw [← hs]; exact hnew _ _ rfl
  | exchange t p n s => simp only [step] at hs; split at hs <;> simp only [Option.some.injEq, reduceCtorEq] at hs; rw [← hs]; exact hnew _ _ rfl
  | cancelUntil t n => simp only [step] at hs; split at hs <;> simp only [Option.some.injEq, reduceCtorEq] at hs; rw [← hs]; exact hnew _ _ rfl
  | cancel t => simp only [step] at hs; split at hs <;> simp only [Option.some.injEq, reduceCtorEq] at hs; rw [← hs]; exact hnew _ _ rfl
  | run t =>
    simp only [step] at hs
    cases hk : st.tasks t with
    | none => rw [hk] at hs; cases hs
    | some k =>
      rw [hk] at hs
      simp only [Option.bind_some, Option.or_eq_some_iff] at hs
      rcases hs with h1 | ⟨_, h1⟩
      · rcases h1 with h1 | ⟨_, h1⟩
        · rcases h1 with h1 | ⟨_, h1⟩
          · exact runV_live h hl hk h1
          · exact runR_live hl h1
        · exact runX_live hl h1
      · exact runC_live h hl hk h1
  | spawn t r =>
    simp only [step] at hs
    split at hs
    · split at hs
      · simp only [Option.some.injEq] at hs
        rw [← hs]
        exact (hnew r _ rfl).goto (Quiet.refl _) rfl t rfl
      · cases hs
    · cases hs
  | take t r =>
    simp only [step] at hs
    split at hs
    · split at hs
      · simp only [Option.some.injEq] at hs; rw [← hs]; exact hnew _ _ rfl
      · cases hs
    · cases hs
  | stop t =>
    simp only [step] at hs
    split at hs
    · split at hs
      · simp only [Option.some.injEq] at hs; rw [← hs]; exact hnew _ _ rfl
      · cases hs
    · cases hs
  | exhaust t =>
    simp only [step] at hs
    split at hs
    · split at hs
      · simp only [Option.some.injEq] at hs; rw [← hs]; exact hnew _ _ rfl
      · cases hs
    · cases hs
  | query t =>
    simp only [step] at hs
    split at hs
    · simp only [Option.some.injEq] at hs; rw [← hs]
      exact ⟨hl.kept, hl.only, hl.done⟩
    · cases hs
  | answer t s =>
    simp only [step] at hs
    split at hs
    · simp only [Option.some.injEq] at hs; rw [← hs]; exact hnew _ _ rfl
    · cases hs
  | found t =>
    simp only [step] at hs
    split at hs
    · rw [Option.map_eq_some_iff] at hs
      obtain ⟨s, _, hs⟩ := hs
      rw [← hs]; exact hnew _ _ rfl
    · cases hs
  | token t n =>
    simp only [step] at hs
    split at hs
    · next m todo ht =>
      split at hs
      · next hnm =>
        simp only [Option.some.injEq] at hs
        rw [← hs]
        have key : ∀ st1 : St, Live c st1 → st1.tasks = st.tasks → (∀ o, o < st1.nobjs → (st1.objs o).passed = true → c.seqno (st1.objs o).block = n → (st1.objs o).cancelled = true) →
            Live c (setTask st1 t (.cTokens m (todo.filter (fun j => decide (j ≠ n))))) := by
          intro st1 h1 h2 h3
          refine ⟨h1.kept, h1.only, ?_⟩
          intro t' k' x hk' hv o ho hp hle
          by_cases htt : t' = t
          · rw [htt, setTask_self] at hk'; cases hk'; cases hv
            change (st1.objs o).cancelled = true ∨ c.seqno (st1.objs o).block ∈ _
            by_cases hn : c.seqno (st1.objs o).block = n
            · exact Or.inl (h3 o ho hp hn)
            · rcases h1.done t _ (m, todo) (by rw [h2]; exact ht) rfl o ho hp hle with h4 | h4
              · exact Or.inl h4
              · exact Or.inr (List.mem_filter.2 ⟨h4, decide_eq_true hn⟩)
          · rw [setTask_ne _ _ htt] at hk'
            exact h1.done t' k' x hk' hv o ho hp hle
        cases hg : get st.blocks n with
        | none =>
          refine key st hl rfl ?_
          intro o ho hp he
          cases hc : (st.objs o).cancelled with
          | true => rfl
          | false => have := hl.kept o ho hp hc; rw [he, hg] at this; cases this
        | some o' =>
          refine key _ (hl.token o') rfl ?_
          intro o ho hp he
          by_cases ho' : o = o'
          · rw [ho', setObj_self]
          · rw [setObj_ne _ _ ho'] at hp he ⊢
            cases hc : (st.objs o).cancelled with
            | true => rfl
            | false => have := hl.kept o ho hp hc; rw [he, hg] at this; cases this; exact absurd rfl ho'
      · cases hs
    · cases hs
  | remove t n =>
    simp only [step] at hs
    split at hs
    · next m ht =>
      split at hs
      · next hnm =>
        simp only [Option.some.injEq] at hs
        rw [← hs]
        refine hl.drop ?_
        intro o ho hp he
        rcases hl.done t _ (m, []) ht rfl o ho hp (by simp only; omega) with h1 | h1
        · exact h1
        · cases h1
      · cases hs
    · cases hs
  | abort t =>
    simp only [step] at hs
    split at hs
    · split at hs
      · cases hs
      · simp only [Option.some.injEq] at hs; rw [← hs]; exact hnew _ _ rfl
    · cases hs

theorem init_live (c : Cfg) (start : Nat) : Live c (init c start) := by
  obtain ⟨x, y, z, he⟩ := createSlots_same ⟨fun _ => ⟨0, fun _ => none, 0, false, false, fun _ => false, false⟩, 0, fun _ _ => none, 0, [], [], start, 0, false, fun _ => none, []⟩ start c.slots
  rw [init, he]
  exact ⟨fun o ho => absurd ho (Nat.not_lt_zero _), fun o o' ho => absurd ho (Nat.not_lt_zero _), fun t k x h => by (cases h)⟩

theorem steps_live {c : Cfg} (hc : CfgOk c) {st st' : St} (h : Inv c st) (hl : Live c st) {l : List Act} (hs : steps c st l = some st') : Live c st' := by
  induction l generalizing st with
  | nil => cases hs; exact hl
  | cons a l ih =>
    rw [steps] at hs
    cases h1 : step c st a with
    | none => rw [h1] at hs; cases hs
    | some st1 => rw [h1] at hs; exact ih (step_inv hc h h1) (step_live h hl h1) hs

theorem Reach.live {c : Cfg} (hc : CfgOk c) {start : Nat} {st : St} (h : Reach c start st) : Live c st := by
  obtain ⟨l, hl⟩ := h
  exact steps_live hc (init_inv c start) (init_live c start) hl

end Tycho.Validator
