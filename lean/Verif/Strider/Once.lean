import Verif.Strider.Props

/-! Exactly once. -/
namespace Tycho.Strider
open Tycho.Table

/-- The blocks committed in a trace, newest first. -/
def commits (tr : List Event) : List BlockId :=
  tr.filterMap (fun e => match e with | .commit b => some b | _ => none)

/-- The blocks given to the subscribers in a trace, newest first. -/
def handles (tr : List Event) : List BlockId :=
  tr.filterMap (fun e => match e with | .handle cx => some cx.block | _ => none)

/-- `l` are successive masterchain blocks after `p`, the last one is `q`. -/
def ChainFrom (w : World) : BlockId → List BlockId → BlockId → Prop
  | p, [], q => p = q
  | p, m :: l, q => w.next p m ∧ ChainFrom w m l q

theorem chain_snoc (w : World) (p : BlockId) (l : List BlockId) (q m : BlockId) (h : ChainFrom w p l q) (hn : w.next q m) :
    ChainFrom w p (l ++ [m]) m := by
  induction l generalizing p with
  | nil => cases h; exact ⟨hn, rfl⟩
  | cons x l ih => exact ⟨h.1, ih x h.2⟩

theorem chain_path (w : World) (p : BlockId) (l : List BlockId) (q : BlockId) (h : ChainFrom w p l q) : Path w p q := by
  induction l generalizing p with
  | nil => cases h; exact .refl
  | cons x l ih => exact path_cons w p x q h.1 (ih x h.2)

theorem covered_path (w : World) (hw : WorldOk w) (p q b : BlockId) (hp : Path w p q) (h : Covered w p b) : Covered w q b := by
  induction hp with
  | refl => exact h
  | step x y _ hn ih => exact covered_next w hw.blocks x y (hw.next _ _ hn) b ih

theorem path_seqno (w : World) (hw : WorldOk w) (p q : BlockId) (hp : Path w p q) : p.seqno ≤ q.seqno := by
  induction hp with
  | refl => exact Nat.le_refl _
  | step x y _ hn ih => have := (hw.next _ _ hn).seqno; omega

/-- A step without a commit: no flag appears, and no flag of a future block disappears. -/
structure Quiet (w : World) (st st' : Store) : Prop where
  last : st'.last w = st.last w
  less : ∀ b, b.shard ≠ 0 → st'.isCommitted w b = true → st.isCommitted w b = true
  keep : ∀ b, b.shard ≠ 0 → st.isCommitted w b = true → Future w (st.last w) b → st'.isCommitted w b = true

theorem quiet_same (w : World) (st st' : Store) (h : SameFlags w st st') : Quiet w st st' :=
  ⟨h.last, fun b _ hb => by rw [← h.flags b]; exact hb, fun b _ hb _ => by rw [h.flags b]; exact hb⟩

structure Effect (w : World) (s : State) (e : Event) (s' : State) : Prop where
  past : ∀ st ∈ s'.past, st = s.store ∨ st ∈ s.past
  lose : e = .lose → s'.store ∈ s.past
  quiet : e ≠ .lose → (∀ b, e ≠ .commit b) → Quiet w s.store s'.store
  shard : ∀ b, e = .commit b → b.shard ≠ 0 → Commits w s.store b s'.store ∧ s.store.isCommitted w b = false ∧
    ∃ m, w.next (s.store.last w) m ∧ New w (s.store.last w) m b
  mc : ∀ m, e = .commit m → m.shard = 0 → w.next (s.store.last w) m ∧ s'.store.last w = m ∧
    (∀ b, b.shard ≠ 0 → s'.store.isCommitted w b = s.store.isCommitted w b) ∧
    (∀ b, Covered w m b → b.shard ≠ 0 → Behind w s.store b)

theorem effect_quiet (w : World) (s : State) (e : Event) (s' : State) (hp : ∀ st ∈ s'.past, st = s.store ∨ st ∈ s.past)
    (hc : ∀ b, e ≠ .commit b) (hl : e ≠ .lose) (hq : Quiet w s.store s'.store) : Effect w s e s' :=
  ⟨hp, fun h => absurd h hl, fun _ _ => hq, fun b h => absurd h (hc b), fun b h => absurd h (hc b)⟩

theorem step_effect (w : World) (hw : WorldOk w) (s : State) (e : Event) (s' : State) (hi : SInv w s) (h : Step w s e s') :
    Effect w s e s' := by
  have hq := quiet_same w s.store s.store (same_refl w _)
  have hpast : ∀ st ∈ s.past, st = s.store ∨ st ∈ s.past := fun _ h => .inr h
  have hpw : ∀ (st' st : Store), st ∈ (s.write st').past → st = s.store ∨ st ∈ s.past := fun _ _ h => List.mem_cons.1 h
  cases h with
  | start hr => exact effect_quiet w s _ _ hpast (by simp) (by simp) hq
  | stop r hr => exact effect_quiet w s _ _ hpast (by simp) (by simp) hq
  | lose st hr hst => exact ⟨hpast, fun _ => hst, fun h => absurd rfl h, by simp, by simp⟩
  | gc b q hqp h0 hb =>
    refine effect_quiet w s _ _ (hpw _) (by simp) (by simp) ⟨rfl, ?_, ?_⟩
    · intro c hc h
      have := gc_flags w s.store b c hc
      change ({ s.store with handles := del s.store.handles (fun k => decide (k = b)) } : Store).isCommitted w c = true at h
      rw [this] at h
      split at h
      · cases h
      · exact h
    · intro c hc h hf
      change ({ s.store with handles := del s.store.handles (fun k => decide (k = b)) } : Store).isCommitted w c = true
      rw [gc_flags w s.store b c hc, if_neg]
      · exact h
      · rintro rfl
        have hc0 : c.seqno ≠ 0 := by obtain ⟨_, m, _, hm⟩ := hf; exact hm.1
        rw [if_neg hc, hw.heights q _ c hqp hc0 (.inr hf)] at hb
        cases hb
  | fetch r m hr hf hn => exact effect_quiet w s _ _ hpast (by simp) (by simp) hq
  | take r m hr hc hf => exact effect_quiet w s _ _ hpast (by simp) (by simp) hq
  | mcPrepared r c hr hc hp =>
    exact effect_quiet w s _ _ (hpw (s.store.save w c.id)) (by simp) (by simp) (quiet_same w _ _ (save_same w s.store c.id))
  | download r c ls hr hc ht hd => exact effect_quiet w s _ _ hpast (by simp) (by simp) hq
  | prep r c l t l' b rest hr hc ht hp htodo => exact effect_quiet w s _ _ hpast (by simp) (by simp) hq
  | prepared r c l t l' b hr hc ht hp =>
    exact effect_quiet w s _ _ (hpw (s.store.save w b)) (by simp) (by simp) (quiet_same w _ _ (save_same w s.store b))
  | handle r c l t l' b hr hc ht hp hcur => exact effect_quiet w s _ _ hpast (by simp) (by simp) hq
  | handled r c l t l' b hr hc ht hcur => exact effect_quiet w s _ _ hpast (by simp) (by simp) hq
  | commit r c l t l' b hr hc ht hcur =>
    have hm := (hi.run r hr).busy c hc
    have hst := stage_shards w _ r c hm l l' t ht (by rw [Ne, finished_iff, hcur]; simp)
    have hnc : c.stage ≠ .cleaning := by rw [hst]; exact fun h => nomatch h
    obtain ⟨a, x, b', hx, _, h2, _⟩ := forall2_split _ _ _ _ _ (hm.tasks hnc _ ht)
    have hrem : t.rem = b :: ({ t with cur := none } : Task).rem := by simp [Task.rem, hcur]
    obtain ⟨h3, h4, h5⟩ := h2.rem.new b (by rw [hrem]; simp)
    have hxs := (hw.next _ _ (hm.next hnc)).shards x (by rw [hx]; simp)
    refine ⟨hpw (s.store.commitShard b), by simp, fun _ h => absurd rfl (h b), ?_, ?_⟩
    · intro b1 h1 _; cases h1
      exact ⟨commitShard_commits w s.store b (h2.cur b _ hcur), h5, c.id, hm.next hnc, h3⟩
    · intro b1 h1 hs; cases h1
      exact absurd (h4 ▸ hs) hxs
  | mcHandle r c ts hr hc ht hfin hp hst => exact effect_quiet w s _ _ hpast (by simp) (by simp) hq
  | mcHandled r c hr hc hst => exact effect_quiet w s _ _ hpast (by simp) (by simp) hq
  | mcCommit r c hr hc hst =>
    have hm := (hi.run r hr).busy c hc
    have hnc : c.stage ≠ .cleaning := by rw [hst]; exact fun h => nomatch h
    have hns : c.stage ≠ .shards := by rw [hst]; exact fun h => nomatch h
    have hmc := (hw.next _ _ (hm.next hnc)).mc
    obtain ⟨⟨ts, ht, hfin⟩, _⟩ := hm.fin hns
    refine ⟨hpw (s.store.commitMaster c.id), by simp, fun _ h => absurd rfl (h c.id), ?_, ?_⟩
    · intro b1 h1 hs; cases h1; exact absurd hmc hs
    · intro b1 h1 _; cases h1
      refine ⟨hm.next hnc, rfl, ?_, ?_⟩
      · intro b hb; simp [Store.isCommitted, hb, Store.commitMaster, State.setCur, State.write]
      · intro b hcov hbs
        exact (behind_closed w hw s.store hi.store c.id (hm.next hnc)
          (tops_behind w _ _ _ _ (hm.tasks hnc ts ht) hfin) b hcov).resolve_left hbs
  | cleanup r c hr hc hst => exact effect_quiet w s _ _ hpast (by simp) (by simp) hq

/-! ### Nothing is skipped -/

structure Kept (w : World) (p0 : BlockId) (tr : List Event) (st : Store) : Prop where
  flag : ∀ b, b.shard ≠ 0 → st.isCommitted w b = true → Covered w p0 b ∨ .commit b ∈ tr
  cov : ∀ b, b.shard ≠ 0 → Covered w (st.last w) b → Covered w p0 b ∨ .commit b ∈ tr

theorem kept_mono (w : World) (p0 : BlockId) (tr : List Event) (e : Event) (st : Store) (h : Kept w p0 tr st) :
    Kept w p0 (e :: tr) st :=
  ⟨fun b h1 h2 => (h.flag b h1 h2).imp id (fun h => List.mem_cons_of_mem _ h),
    fun b h1 h2 => (h.cov b h1 h2).imp id (fun h => List.mem_cons_of_mem _ h)⟩

theorem exec_kept (w : World) (hw : WorldOk w) (s0 : State) (h0 : InitOk w s0) (tr : List Event) (s : State)
    (h : Exec w s0 tr s) : ∀ st, st = s.store ∨ st ∈ s.past → Kept w (s0.store.last w) tr st := by
  induction h with
  | init =>
    intro st hst
    rw [h0.past] at hst
    simp only [List.not_mem_nil, or_false] at hst
    subst hst
    exact ⟨fun b hb h => .inl (h0.rest b h hb), fun b _ h => .inl h⟩
  | step tr s e s' hex hs ih =>
    have hi := exec_inv w hw s0 h0 tr s hex
    have he := step_effect w hw s e s' hi hs
    have hcur := ih s.store (.inl rfl)
    intro st hst
    rcases hst with rfl | hst
    · by_cases hl : e = .lose
      · exact kept_mono w _ tr e _ (ih _ (.inr (he.lose hl)))
      by_cases hc : ∃ b, e = .commit b
      · obtain ⟨b, rfl⟩ := hc
        by_cases hb : b.shard = 0
        · obtain ⟨hn, hlast, hfl, hbe⟩ := he.mc b rfl hb
          refine ⟨?_, ?_⟩
          · intro c hc h; rw [hfl c hc] at h
            exact (kept_mono w _ tr _ _ hcur).flag c hc h
          · intro c hc h
            rw [hlast] at h
            rcases hbe c h hc with h1 | h1 | h1
            · exact absurd h1 h.1
            · exact (kept_mono w _ tr _ _ hcur).flag c hc h1
            · exact (kept_mono w _ tr _ _ hcur).cov c hc h1
        · obtain ⟨hcm, _, _⟩ := he.shard b rfl hb
          refine ⟨?_, ?_⟩
          · intro c hc h
            rw [hcm.flags c hc] at h
            simp only [Bool.or_eq_true, decide_eq_true_eq] at h
            rcases h with h | rfl
            · exact (kept_mono w _ tr _ _ hcur).flag c hc h
            · exact .inr List.mem_cons_self
          · intro c hc h
            rw [hcm.last] at h
            exact (kept_mono w _ tr _ _ hcur).cov c hc h
      · have hq := he.quiet hl (fun b h => hc ⟨b, h⟩)
        refine ⟨?_, ?_⟩
        · intro c hc h
          exact (kept_mono w _ tr _ _ hcur).flag c hc (hq.less c hc h)
        · intro c hc h
          rw [hq.last] at h
          exact (kept_mono w _ tr _ _ hcur).cov c hc h
    · exact kept_mono w _ tr e st (ih st (he.past st hst))

/-- No shard block is skipped, whatever stops, restarts, losses of recent writes and garbage collections there
were: every shard block of the history of the last committed masterchain block was there at the start or was
committed, hence handled. -/
theorem no_block_skipped (w : World) (hw : WorldOk w) (s0 : State) (h0 : InitOk w s0) (tr : List Event) (s : State)
    (h : Exec w s0 tr s) (b : BlockId) (hb : b.shard ≠ 0) (hc : Covered w (s.store.last w) b) :
    Covered w (s0.store.last w) b ∨ .commit b ∈ tr :=
  (exec_kept w hw s0 h0 tr s h s.store (.inl rfl)).cov b hb hc

/-! ### Nothing is repeated -/

structure OnceInv (w : World) (p0 : BlockId) (tr : List Event) (st : Store) : Prop where
  nodup : (commits tr).Nodup
  shard : ∀ b ∈ commits tr, b.shard ≠ 0 → ¬ Covered w p0 b ∧ (st.isCommitted w b = true ∨ ¬ Future w (st.last w) b)
  mc : ∀ b ∈ commits tr, b.shard = 0 → b.seqno ≤ (st.last w).seqno
  chain : ChainFrom w p0 ((commits tr).filter (fun b => decide (b.shard = 0))).reverse (st.last w)

theorem commits_cons (b : BlockId) (tr : List Event) : commits (.commit b :: tr) = b :: commits tr := rfl

theorem commits_other (e : Event) (tr : List Event) (h : ∀ b, e ≠ .commit b) : commits (e :: tr) = commits tr := by
  cases e <;> first | rfl | exact absurd rfl (h _)

theorem exec_once (w : World) (hw : WorldOk w) (s0 : State) (h0 : InitOk w s0) (tr : List Event) (s : State)
    (h : Exec w s0 tr s) (hl : .lose ∉ tr) : OnceInv w (s0.store.last w) tr s.store := by
  induction h with
  | init => exact ⟨List.nodup_nil, by simp [commits], by simp [commits], rfl⟩
  | step tr s e s' hex hs ih =>
    have hne : e ≠ .lose := fun h => hl (by simp [h])
    have ih := ih (fun h => hl (by simp [h]))
    have hi := exec_inv w hw s0 h0 tr s hex
    have he := step_effect w hw s e s' hi hs
    by_cases hc : ∃ b, e = .commit b
    · obtain ⟨b, rfl⟩ := hc
      rw [show OnceInv w (s0.store.last w) (Event.commit b :: tr) s'.store ↔ _ from Iff.rfl]
      by_cases hb : b.shard = 0
      · obtain ⟨hn, hlast, hfl, _⟩ := he.mc b rfl hb
        have hseq := (hw.next _ _ hn).seqno
        refine ⟨?_, ?_, ?_, ?_⟩
        · rw [commits_cons, List.nodup_cons]
          refine ⟨?_, ih.nodup⟩
          intro hm
          have := ih.mc b hm hb
          omega
        · intro c hc hcs
          rw [commits_cons] at hc
          rcases List.mem_cons.1 hc with rfl | hc
          · exact absurd hb hcs
          · obtain ⟨h1, h2⟩ := ih.shard c hc hcs
            refine ⟨h1, ?_⟩
            rw [hfl c hcs, hlast]
            exact h2.imp id (fun h hf => h (future_next w hw _ b c hn hf))
        · intro c hc hcs
          rw [hlast]
          rw [commits_cons] at hc
          rcases List.mem_cons.1 hc with rfl | hc
          · exact Nat.le_refl _
          · have := ih.mc c hc hcs; omega
        · rw [commits_cons, List.filter_cons, if_pos (by simpa using hb), List.reverse_cons, hlast]
          exact chain_snoc w _ _ _ b ih.chain hn
      · obtain ⟨hcm, hnf, m, hn, hnew⟩ := he.shard b rfl hb
        refine ⟨?_, ?_, ?_, ?_⟩
        · rw [commits_cons, List.nodup_cons]
          refine ⟨?_, ih.nodup⟩
          intro hm
          rcases (ih.shard b hm hb).2 with h | h
          · rw [hnf] at h; cases h
          · exact h (new_future w _ m b hn hnew)
        · intro c hc hcs
          rw [hcm.flags c hcs, hcm.last]
          rw [commits_cons] at hc
          rcases List.mem_cons.1 hc with rfl | hc
          · refine ⟨fun h => hnew.2 (covered_path w hw _ _ c (chain_path w _ _ _ ih.chain) h), .inl (by simp)⟩
          · obtain ⟨h1, h2⟩ := ih.shard c hc hcs
            exact ⟨h1, h2.imp (fun h => by simp [h]) id⟩
        · intro c hc hcs
          rw [hcm.last]
          rw [commits_cons] at hc
          rcases List.mem_cons.1 hc with rfl | hc
          · exact absurd hcs hb
          · exact ih.mc c hc hcs
        · rw [commits_cons, List.filter_cons, if_neg (by simpa using hb), hcm.last]
          exact ih.chain
    · have hc' : ∀ b, e ≠ .commit b := fun b h => hc ⟨b, h⟩
      have hq := he.quiet hne hc'
      refine ⟨?_, ?_, ?_, ?_⟩
      · rw [commits_other e tr hc']; exact ih.nodup
      · intro c hc hcs
        rw [commits_other e tr hc'] at hc
        obtain ⟨h1, h2⟩ := ih.shard c hc hcs
        refine ⟨h1, ?_⟩
        rw [hq.last]
        by_cases hf : Future w (s.store.last w) c
        · exact .inl (hq.keep c hcs (h2.resolve_right (fun h => h hf)) hf)
        · exact .inr hf
      · intro c hc hcs
        rw [commits_other e tr hc'] at hc
        rw [hq.last]
        exact ih.mc c hc hcs
      · rw [commits_other e tr hc', hq.last]; exact ih.chain

/-- Exactly once, across stops and restarts, as long as no written data is lost: no block is committed twice,
none of the start is committed again, the committed masterchain blocks follow one another from the start to the
last one, and the committed shard blocks of its history are exactly those that were not there at the start. -/
theorem committed_exactly_once (w : World) (hw : WorldOk w) (s0 : State) (h0 : InitOk w s0) (tr : List Event) (s : State)
    (h : Exec w s0 tr s) (hl : .lose ∉ tr) :
    (commits tr).Nodup ∧
    ChainFrom w (s0.store.last w) ((commits tr).filter (fun b => decide (b.shard = 0))).reverse (s.store.last w) ∧
    (∀ b, b.shard ≠ 0 → Covered w (s.store.last w) b → (b ∈ commits tr ↔ ¬ Covered w (s0.store.last w) b)) := by
  have hi := exec_once w hw s0 h0 tr s h hl
  refine ⟨hi.nodup, hi.chain, ?_⟩
  intro b hb hc
  refine ⟨fun hm => (hi.shard b hm hb).1, fun hn => ?_⟩
  rcases no_block_skipped w hw s0 h0 tr s h b hb hc with h1 | h1
  · exact absurd h1 hn
  · exact List.mem_filterMap.2 ⟨_, h1, rfl⟩

end Tycho.Strider
