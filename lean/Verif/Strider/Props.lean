import Verif.Strider.Steps

/-! Order, phases, exactly once. -/
namespace Tycho.Strider
open Tycho.Table

/-! ### The context given to subscribers -/

theorem heights_get (tops : List BlockId) (h : (tops.map BlockId.shard).Nodup) (t : BlockId) (ht : t ∈ tops) :
    get (heights tops) t.shard = some t.seqno := by
  have := get_putAll_mem ([] : Table Nat Nat) (tops.map (fun t => (t.shard, t.seqno)))
    (by rw [List.map_map]; exact h) (t.shard, t.seqno) (List.mem_map.2 ⟨t, ht, rfl⟩)
  exact this

theorem top_flag (w : World) (hw : WorldOk w) (p m : BlockId) (hn : w.next p m) (b : BlockId) (h : New w p m b) :
    (shardCx w m b).top = true ↔ b ∈ (w.mcBlock m).tops := by
  have hv := hw.next p m hn
  obtain ⟨t, ht, hs, hb⟩ := new_shard w hw.blocks p m hv b h
  have hg := heights_get _ hv.distinct t ht
  show heightsContain w _ b = true ↔ _
  unfold heightsContain
  rw [hs, hg]
  dsimp only
  rw [decide_eq_true_eq]
  constructor
  · intro hle
    rcases hb with rfl | hb
    · exact ht
    · omega
  · intro hbm
    rcases hb with rfl | hb
    · exact Nat.le_refl _
    · have := heights_get _ hv.distinct b hbm
      rw [hs, hg] at this
      simp only [Option.some.injEq] at this
      omega

/-! ### Order -/

/-- When a shard block is given to the subscribers it is a new block of the masterchain block right after the
last committed one, it is not committed, all blocks before it are behind, and its context is right. -/
theorem shard_block_in_order (w : World) (hw : WorldOk w) (s0 : State) (h0 : InitOk w s0) (tr : List Event) (s s' : State)
    (h : Exec w s0 tr s) (cx : Cx) (hs : Step w s (.handle cx) s') (hb : cx.block.shard ≠ 0) :
    w.next (s.store.last w) cx.mc ∧ New w (s.store.last w) cx.mc cx.block ∧ s.store.isCommitted w cx.block = false ∧
    (∀ a ∈ parents w cx.block, Behind w s.store a) ∧
    (cx.top = true ↔ cx.block ∈ (w.mcBlock cx.mc).tops) ∧ cx.key = false ∧ cx.mcKey = (w.mcBlock cx.mc).key := by
  have hi := exec_inv w hw s0 h0 tr s h
  cases hs with
  | handle r c l t l' b hr hc ht hp hcur =>
    have hm := (hi.run r hr).busy c hc
    have hst := stage_shards w _ r c hm l l' t ht (by rw [Ne, finished_iff, hp]; simp)
    have hnc : c.stage ≠ .cleaning := by rw [hst]; exact fun h => nomatch h
    obtain ⟨a, x, b', hx, _, h2, _⟩ := forall2_split _ _ _ _ _ (hm.tasks hnc _ ht)
    have hrem : t.rem = b :: t.todo := by simp [Task.rem, hp, hcur]
    obtain ⟨h3, h4, h5⟩ := h2.rem.new b (by rw [hrem]; simp)
    exact ⟨hm.next hnc, h3, h5, h2.rem.first b _ hrem, top_flag w hw _ _ (hm.next hnc) b h3, rfl, rfl⟩
  | mcHandle r c ts hr hc ht hfin hp hst =>
    have hm := (hi.run r hr).busy c hc
    have hnc : c.stage ≠ .cleaning := by rw [hst]; exact fun h => nomatch h
    exact absurd (hw.next _ _ (hm.next hnc)).mc hb

theorem behind_closed (w : World) (hw : WorldOk w) (st : Store) (hi : StoreInv w st) (m : BlockId)
    (hn : w.next (st.last w) m) (hb : ∀ t ∈ (w.mcBlock m).tops, Behind w st t) (b : BlockId) (h : Covered w m b) :
    b.shard = 0 ∨ Behind w st b := by
  obtain ⟨h0, t, ht, hbt⟩ := h
  have hv := hw.next _ _ hn
  have key : ∀ a c, Anc w a c → Covered w m c → (c.seqno = 0 ∨ st.isCommitted w c = true ∨ Covered w (st.last w) c) →
      a.seqno ≠ 0 → a.shard = 0 ∨ Behind w st a := by
    intro a c hac
    induction hac with
    | refl => intro _ h _; exact .inr h
    | step x c hax hxc ih =>
      intro hcm hc ha0
      have hx0 : x.seqno ≠ 0 := by have := anc_seqno w hw.blocks a x hax; omega
      have hxm := covered_parent w m x c hcm hxc hx0
      by_cases hcov : Covered w (st.last w) c
      · exact ih hxm (.inr (.inr (covered_parent w _ x c hcov hxc hx0))) ha0
      · have hcn : New w (st.last w) m c := ⟨hcm, hcov⟩
        obtain ⟨t', ht', hs', _⟩ := new_shard w hw.blocks _ m hv c hcn
        have hcs : c.shard ≠ 0 := by rw [hs']; exact hv.shards t' ht'
        rcases hc with hc | hc | hc
        · exact absurd hc hcm.1
        · exact ih hxm (hi.closed c hcs hc (new_future w _ m c hn hcn) x hxc) ha0
        · exact absurd hc hcov
  exact key b t hbt (covered_top w m t ht (by have := anc_seqno w hw.blocks b t hbt; omega)) (hb t ht) h0

theorem tops_behind (w : World) (st : Store) (m : BlockId) (tops : List BlockId) (ts : List Task)
    (h : List.Forall₂ (fun t k => TaskInv w st m t k) tops ts) (hf : ∀ k ∈ ts, k.finished = true) :
    ∀ t ∈ tops, Behind w st t := by
  induction h with
  | nil => simp
  | cons h1 _ ih =>
    intro t ht
    rcases List.mem_cons.1 ht with rfl | ht
    · exact h1.rem.last.1 (finished_rem _ (hf _ (by simp)))
    · exact ih (fun k hk => hf k (by simp [hk])) t ht

/-- When a masterchain block is given to the subscribers it is the one right after the last committed one, and
every shard block of its history is behind. -/
theorem master_block_after_its_shards (w : World) (hw : WorldOk w) (s0 : State) (h0 : InitOk w s0) (tr : List Event)
    (s s' : State) (h : Exec w s0 tr s) (cx : Cx) (hs : Step w s (.handle cx) s') (hb : cx.block.shard = 0) :
    cx.block = cx.mc ∧ w.next (s.store.last w) cx.mc ∧
    (∀ b, Covered w cx.mc b → b.shard ≠ 0 → Behind w s.store b) ∧
    cx.top = true ∧ cx.key = (w.mcBlock cx.mc).key ∧ cx.mcKey = cx.key := by
  have hi := exec_inv w hw s0 h0 tr s h
  cases hs with
  | handle r c l t l' b hr hc ht hp hcur =>
    exfalso
    have hm := (hi.run r hr).busy c hc
    have hst := stage_shards w _ r c hm l l' t ht (by rw [Ne, finished_iff, hp]; simp)
    have hnc : c.stage ≠ .cleaning := by rw [hst]; exact fun h => nomatch h
    obtain ⟨a, x, b', hx, _, h2, _⟩ := forall2_split _ _ _ _ _ (hm.tasks hnc _ ht)
    have hrem : t.rem = b :: t.todo := by simp [Task.rem, hp, hcur]
    obtain ⟨_, h4, _⟩ := h2.rem.new b (by rw [hrem]; simp)
    exact (hw.next _ _ (hm.next hnc)).shards x (by rw [hx]; simp) (by rw [← h4]; exact hb)
  | mcHandle r c ts hr hc ht hfin hp hst =>
    have hm := (hi.run r hr).busy c hc
    have hnc : c.stage ≠ .cleaning := by rw [hst]; exact fun h => nomatch h
    refine ⟨rfl, hm.next hnc, ?_, rfl, rfl, rfl⟩
    intro b hcov hbs
    have := behind_closed w hw s.store hi.store c.id (hm.next hnc)
      (tops_behind w _ _ _ _ (hm.tasks hnc ts ht) hfin) b hcov
    exact this.resolve_left hbs

/-! ### Phases -/

/-- The events since the last start, newest first. -/
def session (tr : List Event) : List Event := tr.takeWhile (fun e => decide (e ≠ .start))

theorem mem_session_cons (e x : Event) (tr : List Event) (he : e ≠ .start) (h : x ∈ session tr) : x ∈ session (e :: tr) := by
  unfold session
  rw [List.takeWhile_cons, if_pos (by simp [he])]
  exact List.mem_cons_of_mem _ h

theorem self_session (e : Event) (tr : List Event) (he : e ≠ .start) : e ∈ session (e :: tr) := by
  unfold session
  rw [List.takeWhile_cons, if_pos (by simp [he])]
  exact List.mem_cons_self

structure TaskTrace (w : World) (m : BlockId) (ev : List Event) (k : Task) : Prop where
  prepare : ∀ b d, k.prep = some (b, d) → .prepare (shardCx w m b) ∈ ev
  prepared : ∀ b, k.prep = some (b, true) → .prepared b ∈ ev
  handle : ∀ b g, k.cur = some (b, g) → .handle (shardCx w m b) ∈ ev
  handled : ∀ b, k.cur = some (b, .joining) → .handled b ∈ ev

structure McTrace (w : World) (ev : List Event) (c : McRun) : Prop where
  prepare : .prepare (mcCx w c.id) ∈ ev
  prepared : c.prepared = true → .prepared c.id ∈ ev
  handle : c.stage ≠ .shards → .handle (mcCx w c.id) ∈ ev
  handled : c.stage ≠ .shards → c.stage ≠ .handling → .handled c.id ∈ ev
  commit : c.stage = .cleaning → .commit c.id ∈ ev
  tasks : ∀ ts, c.tasks = some ts → ∀ k ∈ ts, TaskTrace w c.id ev k

theorem taskTrace_mono (w : World) (m : BlockId) (ev ev' : List Event) (h : ∀ x ∈ ev, x ∈ ev') (k : Task)
    (hk : TaskTrace w m ev k) : TaskTrace w m ev' k :=
  ⟨fun b d hb => h _ (hk.prepare b d hb), fun b hb => h _ (hk.prepared b hb), fun b g hb => h _ (hk.handle b g hb),
    fun b hb => h _ (hk.handled b hb)⟩

theorem mcTrace_mono (w : World) (ev ev' : List Event) (h : ∀ x ∈ ev, x ∈ ev') (c : McRun) (hc : McTrace w ev c) :
    McTrace w ev' c :=
  ⟨h _ hc.prepare, fun hp => h _ (hc.prepared hp), fun hp => h _ (hc.handle hp), fun hp hp' => h _ (hc.handled hp hp'),
    fun hp => h _ (hc.commit hp), fun ts ht k hk => taskTrace_mono w _ ev ev' h k (hc.tasks ts ht k hk)⟩

/-- One task changes. -/
theorem mcTrace_task (w : World) (ev ev' : List Event) (h : ∀ x ∈ ev, x ∈ ev') (c : McRun) (hc : McTrace w ev c)
    (l l' : List Task) (t t' : Task) (ht : c.tasks = some (l ++ t :: l')) (hk : TaskTrace w c.id ev' t') :
    McTrace w ev' { c with tasks := some (l ++ t' :: l') } := by
  have hm := mcTrace_mono w ev ev' h c hc
  refine ⟨hm.prepare, hm.prepared, hm.handle, hm.handled, hm.commit, ?_⟩
  intro ts hts k hkm
  cases hts
  rcases List.mem_append.1 hkm with hkm | hkm
  · exact hm.tasks _ ht k (by simp [hkm])
  · rcases List.mem_cons.1 hkm with rfl | hkm
    · exact hk
    · exact hm.tasks _ ht k (by simp [hkm])

def TraceInv (w : World) (tr : List Event) (s : State) : Prop :=
  ∀ r c, s.run = some r → r.cur = some c → McTrace w (session tr) c

theorem step_trace (w : World) (tr : List Event) (s : State) (e : Event) (s' : State)
    (hi : TraceInv w tr s) (h : Step w s e s') : TraceInv w (e :: tr) s' := by
  intro r' c' hr' hc'
  cases h with
  | start hr => cases hr'; cases hc'
  | stop r hr => cases hr'
  | lose st hr hst => exact absurd hr' (by rw [show ({ s with store := st } : State).run = none from hr]; exact (fun h => nomatch h))
  | gc b q hq h0 hb =>
    exact mcTrace_mono w _ _ (fun x hx => mem_session_cons (.gc b) x tr (fun h => nomatch h) hx) c' (hi r' c' hr' hc')
  | fetch r m hr hf hn =>
    cases hr'
    exact mcTrace_mono w _ _ (fun x hx => mem_session_cons (.fetched m) x tr (fun h => nomatch h) hx) c' (hi r c' hr hc')
  | take r m hr hc hf =>
    cases hr'
    cases hc'
    exact ⟨self_session _ _ (fun h => nomatch h), (fun h => nomatch h), fun h => absurd rfl h, fun h => absurd rfl h,
      (fun h => nomatch h), (fun ts h => nomatch h)⟩
  | mcPrepared r c hr hc hp =>
    cases hr'
    cases hc'
    have hm := mcTrace_mono w _ _ (fun x hx => mem_session_cons (.prepared c.id) x tr (fun h => nomatch h) hx) c (hi r c hr hc)
    exact ⟨hm.prepare, fun _ => self_session _ _ (fun h => nomatch h), hm.handle, hm.handled, hm.commit, hm.tasks⟩
  | download r c ls hr hc ht hd =>
    cases hr'
    cases hc'
    have hm := mcTrace_mono w _ _ (fun x hx => mem_session_cons (.downloaded c.id) x tr (fun h => nomatch h) hx) c (hi r c hr hc)
    refine ⟨hm.prepare, hm.prepared, hm.handle, hm.handled, hm.commit, ?_⟩
    intro ts hts k hk
    cases hts
    obtain ⟨l, _, rfl⟩ := List.mem_map.1 hk
    exact ⟨by simp [newTask], by simp [newTask], by simp [newTask], by simp [newTask]⟩
  | prep r c l t l' b rest hr hc ht hp htodo =>
    cases hr'
    cases hc'
    refine mcTrace_task w _ _ (fun x hx => mem_session_cons (.prepare (shardCx w c.id b)) x tr (fun h => nomatch h) hx) c (hi r c hr hc) l l' t _ ht ?_
    have hk := taskTrace_mono w _ _ _ (fun x hx => mem_session_cons (.prepare (shardCx w c.id b)) x tr (fun h => nomatch h) hx) t
      ((hi r c hr hc).tasks _ ht t (by simp))
    refine ⟨?_, by simp, hk.handle, hk.handled⟩
    intro b' d hb
    simp only [Option.some.injEq, Prod.mk.injEq] at hb
    obtain ⟨rfl, _⟩ := hb
    exact self_session _ _ (fun h => nomatch h)
  | prepared r c l t l' b hr hc ht hp =>
    cases hr'
    cases hc'
    refine mcTrace_task w _ _ (fun x hx => mem_session_cons (.prepared b) x tr (fun h => nomatch h) hx) c (hi r c hr hc) l l' t _ ht ?_
    have hk := taskTrace_mono w _ _ _ (fun x hx => mem_session_cons (.prepared b) x tr (fun h => nomatch h) hx) t
      ((hi r c hr hc).tasks _ ht t (by simp))
    refine ⟨?_, ?_, hk.handle, hk.handled⟩
    · intro b' d hb
      simp only [Option.some.injEq, Prod.mk.injEq] at hb
      obtain ⟨rfl, _⟩ := hb
      exact hk.prepare b false hp
    · intro b' hb
      simp only [Option.some.injEq, Prod.mk.injEq, and_true] at hb
      subst hb
      exact self_session _ _ (fun h => nomatch h)
  | handle r c l t l' b hr hc ht hp hcur =>
    cases hr'
    cases hc'
    refine mcTrace_task w _ _ (fun x hx => mem_session_cons (.handle (shardCx w c.id b)) x tr (fun h => nomatch h) hx) c (hi r c hr hc) l l' t _ ht ?_
    refine ⟨by simp, by simp, ?_, by simp⟩
    intro b' g hb
    simp only [Option.some.injEq, Prod.mk.injEq] at hb
    obtain ⟨rfl, _⟩ := hb
    exact self_session _ _ (fun h => nomatch h)
  | handled r c l t l' b hr hc ht hcur =>
    cases hr'
    cases hc'
    refine mcTrace_task w _ _ (fun x hx => mem_session_cons (.handled b) x tr (fun h => nomatch h) hx) c (hi r c hr hc) l l' t _ ht ?_
    have hk := taskTrace_mono w _ _ _ (fun x hx => mem_session_cons (.handled b) x tr (fun h => nomatch h) hx) t
      ((hi r c hr hc).tasks _ ht t (by simp))
    refine ⟨hk.prepare, hk.prepared, ?_, ?_⟩
    · intro b' g hb
      simp only [Option.some.injEq, Prod.mk.injEq] at hb
      obtain ⟨rfl, _⟩ := hb
      exact hk.handle b _ hcur
    · intro b' hb
      simp only [Option.some.injEq, Prod.mk.injEq, and_true] at hb
      subst hb
      exact self_session _ _ (fun h => nomatch h)
  | commit r c l t l' b hr hc ht hcur =>
    cases hr'
    cases hc'
    refine mcTrace_task w _ _ (fun x hx => mem_session_cons (.commit b) x tr (fun h => nomatch h) hx) c (hi r c hr hc) l l' t _ ht ?_
    have hk := taskTrace_mono w _ _ _ (fun x hx => mem_session_cons (.commit b) x tr (fun h => nomatch h) hx) t
      ((hi r c hr hc).tasks _ ht t (by simp))
    exact ⟨hk.prepare, hk.prepared, by simp, by simp⟩
  | mcHandle r c ts hr hc ht hfin hp hst =>
    cases hr'
    cases hc'
    have hm := mcTrace_mono w _ _ (fun x hx => mem_session_cons (.handle (mcCx w c.id)) x tr (fun h => nomatch h) hx) c (hi r c hr hc)
    exact ⟨hm.prepare, hm.prepared, fun _ => self_session _ _ (fun h => nomatch h), fun _ h => absurd rfl h, (fun h => nomatch h), hm.tasks⟩
  | mcHandled r c hr hc hst =>
    cases hr'
    cases hc'
    have hm := mcTrace_mono w _ _ (fun x hx => mem_session_cons (.handled c.id) x tr (fun h => nomatch h) hx) c (hi r c hr hc)
    exact ⟨hm.prepare, hm.prepared, fun _ => hm.handle (by rw [hst]; exact (fun h => nomatch h)),
      fun _ _ => self_session _ _ (fun h => nomatch h), (fun h => nomatch h), hm.tasks⟩
  | mcCommit r c hr hc hst =>
    cases hr'
    cases hc'
    have hm := mcTrace_mono w _ _ (fun x hx => mem_session_cons (.commit c.id) x tr (fun h => nomatch h) hx) c (hi r c hr hc)
    exact ⟨hm.prepare, hm.prepared, fun _ => hm.handle (by rw [hst]; exact (fun h => nomatch h)),
      fun _ _ => hm.handled (by rw [hst]; exact (fun h => nomatch h)) (by rw [hst]; exact (fun h => nomatch h)),
      fun _ => self_session _ _ (fun h => nomatch h), hm.tasks⟩
  | cleanup r c hr hc hst =>
    cases hr'
    cases hc'

theorem exec_trace (w : World) (s0 : State) (h0 : s0.run = none) (tr : List Event) (s : State)
    (h : Exec w s0 tr s) : TraceInv w tr s := by
  induction h with
  | init => intro r c hr; rw [h0] at hr; cases hr
  | step tr s e s' _ hs ih => exact step_trace w tr s e s' ih hs

/-- A block is given to the subscribers only after this run of the node prepared it; it is committed only after
they handled it (and their delayed tasks ended); resources of providers are freed only after the commit. -/
theorem phases_in_order (w : World) (s0 : State) (h0 : s0.run = none) (tr : List Event) (s s' : State) (e : Event)
    (h : Exec w s0 tr s) (hs : Step w s e s') :
    (∀ b, e = .prepared b → ∃ cx, cx.block = b ∧ .prepare cx ∈ session tr) ∧
    (∀ cx, e = .handle cx → .prepare cx ∈ session tr ∧ .prepared cx.block ∈ session tr) ∧
    (∀ b, e = .handled b → ∃ cx, cx.block = b ∧ .handle cx ∈ session tr) ∧
    (∀ b, e = .commit b → (∃ cx, cx.block = b ∧ .handle cx ∈ session tr) ∧ .handled b ∈ session tr) ∧
    (∀ n, e = .cleanup n → ∃ m, m.seqno = n ∧ .commit m ∈ session tr) := by
  have hi := exec_trace w s0 h0 tr s h
  cases hs with
  | mcPrepared r c hr hc hp =>
    refine ⟨?_, by simp, by simp, by simp, by simp⟩
    intro b hb; cases hb
    exact ⟨_, rfl, (hi r c hr hc).prepare⟩
  | prepared r c l t l' b hr hc ht hp =>
    refine ⟨?_, by simp, by simp, by simp, by simp⟩
    intro b' hb; cases hb
    exact ⟨_, rfl, ((hi r c hr hc).tasks _ ht t (by simp)).prepare b _ hp⟩
  | handle r c l t l' b hr hc ht hp hcur =>
    refine ⟨by simp, ?_, by simp, by simp, by simp⟩
    intro cx hb; cases hb
    exact ⟨((hi r c hr hc).tasks _ ht t (by simp)).prepare b _ hp, ((hi r c hr hc).tasks _ ht t (by simp)).prepared b hp⟩
  | handled r c l t l' b hr hc ht hcur =>
    refine ⟨by simp, by simp, ?_, by simp, by simp⟩
    intro b' hb; cases hb
    exact ⟨_, rfl, ((hi r c hr hc).tasks _ ht t (by simp)).handle b _ hcur⟩
  | commit r c l t l' b hr hc ht hcur =>
    refine ⟨by simp, by simp, by simp, ?_, by simp⟩
    intro b' hb; cases hb
    have hk := (hi r c hr hc).tasks _ ht t (by simp)
    exact ⟨⟨_, rfl, hk.handle b _ hcur⟩, hk.handled b hcur⟩
  | mcHandle r c ts hr hc ht hfin hp hst =>
    refine ⟨by simp, ?_, by simp, by simp, by simp⟩
    intro cx hb; cases hb
    exact ⟨(hi r c hr hc).prepare, (hi r c hr hc).prepared hp⟩
  | mcHandled r c hr hc hst =>
    refine ⟨by simp, by simp, ?_, by simp, by simp⟩
    intro b hb; cases hb
    exact ⟨_, rfl, (hi r c hr hc).handle (by rw [hst]; exact fun h => nomatch h)⟩
  | mcCommit r c hr hc hst =>
    refine ⟨by simp, by simp, by simp, ?_, by simp⟩
    intro b hb; cases hb
    exact ⟨⟨_, rfl, (hi r c hr hc).handle (by rw [hst]; exact fun h => nomatch h)⟩,
      (hi r c hr hc).handled (by rw [hst]; exact fun h => nomatch h) (by rw [hst]; exact fun h => nomatch h)⟩
  | cleanup r c hr hc hst =>
    refine ⟨by simp, by simp, by simp, by simp, ?_⟩
    intro n hn; cases hn
    exact ⟨_, rfl, (hi r c hr hc).commit hst⟩
  | _ => refine ⟨by simp, by simp, by simp, by simp, by simp⟩

end Tycho.Strider
