import Verif.Strider.Once

/-! A block is handled at most once per run of the node. -/
namespace Tycho.Strider
open Tycho.Table

/-- The run is processing the block right now. -/
def Handling (r : Run) (b : BlockId) : Prop :=
  ∃ c ts k g, r.cur = some c ∧ c.tasks = some ts ∧ k ∈ ts ∧ k.cur = some (b, g)

structure HInv (w : World) (tr : List Event) (s : State) : Prop where
  nodup : (handles (session tr)).Nodup
  shard : ∀ r, s.run = some r → ∀ b ∈ handles (session tr), b.shard ≠ 0 →
    s.store.isCommitted w b = true ∨ ¬ Future w (s.store.last w) b ∨ Handling r b
  mc : ∀ r, s.run = some r → ∀ b ∈ handles (session tr), b.shard = 0 →
    b.seqno ≤ (s.store.last w).seqno ∨ ∃ c, r.cur = some c ∧ c.id = b ∧ c.stage ≠ .shards

theorem session_cons (e : Event) (tr : List Event) (he : e ≠ .start) : session (e :: tr) = e :: session tr := by
  unfold session
  rw [List.takeWhile_cons, if_pos (by simp [he])]

theorem session_start (tr : List Event) : session (.start :: tr) = [] := by
  simp [session]

theorem handles_other (e : Event) (tr : List Event) (h : ∀ cx, e ≠ .handle cx) : handles (e :: tr) = handles tr := by
  cases e <;> first | rfl | exact absurd rfl (h _)

theorem handles_session_other (e : Event) (tr : List Event) (h : ∀ cx, e ≠ .handle cx) (he : e ≠ .start) :
    handles (session (e :: tr)) = handles (session tr) := by
  rw [session_cons e tr he, handles_other e _ h]

/-- Two tasks of a masterchain block have no block in common. -/
theorem task_disjoint (w : World) (st : Store) (m : BlockId) (tops : List BlockId) (l l' : List Task) (t k : Task)
    (h : List.Forall₂ (fun t k => TaskInv w st m t k) tops (l ++ t :: l')) (hd : (tops.map BlockId.shard).Nodup)
    (hk : k ∈ l ++ t :: l') (b : BlockId) (ht : b ∈ t.rem) (hb : b ∈ k.rem) : k = t := by
  obtain ⟨a, x, b', hx, h1, h2, h3⟩ := forall2_split _ _ _ _ _ h
  rw [hx, List.map_append, List.map_cons, List.nodup_append] at hd
  have hbx := (h2.rem.new b ht).2.1
  have key : ∀ (ys : List BlockId) (ks : List Task), List.Forall₂ (fun t k => TaskInv w st m t k) ys ks → k ∈ ks →
      ∃ y ∈ ys, y.shard = b.shard := by
    intro ys ks hf hk
    induction hf with
    | nil => cases hk
    | cons hyk _ ih =>
      rcases List.mem_cons.1 hk with rfl | hk
      · exact ⟨_, by simp, ((hyk.rem.new b hb).2.1).symm⟩
      · obtain ⟨y, hy, h⟩ := ih hk; exact ⟨y, by simp [hy], h⟩
  rcases List.mem_append.1 hk with hk | hk
  · obtain ⟨y, hy, he⟩ := key a l h1 hk
    exact absurd (by rw [he, hbx]) (hd.2.2 y.shard (List.mem_map.2 ⟨y, hy, rfl⟩) x.shard (by simp))
  · rcases List.mem_cons.1 hk with rfl | hk
    · rfl
    · obtain ⟨y, hy, he⟩ := key b' l' h3 hk
      have hn := hd.2.1
      rw [List.nodup_cons] at hn
      exact absurd (List.mem_map.2 ⟨y, hy, by rw [he, hbx]⟩) hn.1

/-- A task changes, what it handles stays the same. -/
theorem handling_mono (r : Run) (c : McRun) (hc : r.cur = some c) (l l' : List Task) (t t' : Task)
    (ht : c.tasks = some (l ++ t :: l')) (b : BlockId) (h : Handling r b)
    (hk : ∀ g, t.cur = some (b, g) → ∃ g', t'.cur = some (b, g')) :
    Handling { r with cur := some { c with tasks := some (l ++ t' :: l') } } b := by
  obtain ⟨c1, ts, k, g, h1, h2, h3, h4⟩ := h
  rw [hc] at h1; cases h1
  rw [ht] at h2; cases h2
  rcases List.mem_append.1 h3 with h3 | h3
  · exact ⟨_, _, k, g, rfl, rfl, by simp [h3], h4⟩
  · rcases List.mem_cons.1 h3 with rfl | h3
    · obtain ⟨g', hg⟩ := hk g h4
      exact ⟨_, _, t', g', rfl, rfl, by simp, hg⟩
    · exact ⟨_, _, k, g, rfl, rfl, by simp [h3], h4⟩

/-- A step that neither handles nor commits nor starts: what is needed of it. -/
theorem hinv_quiet (w : World) (tr : List Event) (s : State) (e : Event) (s' : State) (hi : HInv w tr s)
    (he : ∀ cx, e ≠ .handle cx) (hst : e ≠ .start) (hq : Quiet w s.store s'.store)
    (hrun : ∀ r', s'.run = some r' → ∃ r, s.run = some r ∧
      (∀ b, Handling r b → Handling r' b ∨ ¬ Future w (s.store.last w) b) ∧
      (∀ c, r.cur = some c → c.stage ≠ .shards →
        c.id.seqno ≤ (s.store.last w).seqno ∨ ∃ c', r'.cur = some c' ∧ c'.id = c.id ∧ c'.stage ≠ .shards)) :
    HInv w (e :: tr) s' := by
  have hh := handles_session_other e tr he hst
  refine ⟨by rw [hh]; exact hi.nodup, ?_, ?_⟩
  · intro r' hr' b hb hs
    rw [hh] at hb
    obtain ⟨r, hr, h1, _⟩ := hrun r' hr'
    rw [hq.last]
    rcases hi.shard r hr b hb hs with h | h | h
    · by_cases hf : Future w (s.store.last w) b
      · exact .inl (hq.keep b hs h hf)
      · exact .inr (.inl hf)
    · exact .inr (.inl h)
    · rcases h1 b h with h | h
      · exact .inr (.inr h)
      · exact .inr (.inl h)
  · intro r' hr' b hb hs
    rw [hh] at hb
    obtain ⟨r, hr, _, h2⟩ := hrun r' hr'
    rw [hq.last]
    rcases hi.mc r hr b hb hs with h | ⟨c, hc, rfl, hcs⟩
    · exact .inl h
    · exact h2 c hc hcs

theorem step_hinv (w : World) (hw : WorldOk w) (tr : List Event) (s : State) (e : Event) (s' : State) (hsi : SInv w s)
    (hi : HInv w tr s) (h : Step w s e s') : HInv w (e :: tr) s' := by
  have heff := step_effect w hw s e s' hsi h
  have hnoh : ∀ r c, r.cur = some c → c.tasks = none → ∀ b, ¬ Handling r b := by
    rintro r c hc ht b ⟨c1, ts, k, g, h1, h2, _⟩
    rw [hc] at h1; cases h1; rw [ht] at h2; cases h2
  have hfinh : ∀ r c ts, r.cur = some c → c.tasks = some ts → (∀ t ∈ ts, t.finished = true) → ∀ b, ¬ Handling r b := by
    rintro r c ts hc ht hf b ⟨c1, ts1, k, g, h1, h2, h3, h4⟩
    rw [hc] at h1; cases h1; rw [ht] at h2; cases h2
    have := (finished_iff k).1 (hf k h3)
    rw [this.2.2] at h4; cases h4
  cases h with
  | start hr =>
    exact ⟨by rw [session_start]; exact List.nodup_nil, fun _ _ b hb => absurd hb (by rw [session_start]; simp [handles]),
      fun _ _ b hb => absurd hb (by rw [session_start]; simp [handles])⟩
  | stop r hr =>
    exact hinv_quiet w tr s _ _ hi (by simp) (by simp) (heff.quiet (by simp) (by simp)) (fun r' h => nomatch h)
  | lose st hr hst =>
    refine ⟨?_, ?_, ?_⟩
    · rw [handles_session_other .lose tr (by simp) (by simp)]; exact hi.nodup
    · intro r' h; rw [show ({ s with store := st } : State).run = none from hr] at h; cases h
    · intro r' h; rw [show ({ s with store := st } : State).run = none from hr] at h; cases h
  | gc b q hq h0 hb =>
    exact hinv_quiet w tr s _ _ hi (by simp) (by simp) (heff.quiet (by simp) (by simp))
      (fun r' h => ⟨r', h, fun b h => .inl h, fun c hc hcs => .inr ⟨c, hc, rfl, hcs⟩⟩)
  | fetch r m hr hf hn =>
    refine hinv_quiet w tr s _ _ hi (by simp) (by simp) (heff.quiet (by simp) (by simp)) ?_
    intro r' h; cases h
    exact ⟨r, hr, fun b h => .inl h, fun c hc hcs => .inr ⟨c, hc, rfl, hcs⟩⟩
  | take r m hr hc hf =>
    refine hinv_quiet w tr s _ _ hi (by simp) (by simp) (heff.quiet (by simp) (by simp)) ?_
    intro r' h; cases h
    refine ⟨r, hr, ?_, ?_⟩
    · rintro b ⟨c, _, _, _, h, _⟩; rw [hc] at h; cases h
    · intro c h; rw [hc] at h; cases h
  | mcPrepared r c hr hc hp =>
    refine hinv_quiet w tr s _ _ hi (by simp) (by simp) (heff.quiet (by simp) (by simp)) ?_
    intro r' h; cases h
    refine ⟨r, hr, ?_, ?_⟩
    · rintro b ⟨c1, ts, k, g, h1, h2, h3, h4⟩
      rw [hc] at h1; cases h1
      exact .inl ⟨_, ts, k, g, rfl, h2, h3, h4⟩
    · intro c1 h1 h2; rw [hc] at h1; cases h1
      exact .inr ⟨_, rfl, rfl, h2⟩
  | download r c ls hr hc ht hd =>
    refine hinv_quiet w tr s _ _ hi (by simp) (by simp) (heff.quiet (by simp) (by simp)) ?_
    intro r' h; cases h
    refine ⟨r, hr, fun b hb => absurd hb (hnoh r c hc ht b), ?_⟩
    intro c1 h1 h2; rw [hc] at h1; cases h1
    exact .inr ⟨_, rfl, rfl, h2⟩
  | prep r c l t l' b rest hr hc ht hp htodo =>
    refine hinv_quiet w tr s _ _ hi (by simp) (by simp) (heff.quiet (by simp) (by simp)) ?_
    intro r' h; cases h
    refine ⟨r, hr, fun b' hb => .inl (handling_mono r c hc l l' t _ ht b' hb (fun g hg => ⟨g, hg⟩)), ?_⟩
    intro c1 h1 h2; rw [hc] at h1; cases h1
    exact .inr ⟨_, rfl, rfl, h2⟩
  | prepared r c l t l' b hr hc ht hp =>
    refine hinv_quiet w tr s _ _ hi (by simp) (by simp) (heff.quiet (by simp) (by simp)) ?_
    intro r' h; cases h
    refine ⟨r, hr, fun b' hb => .inl (handling_mono r c hc l l' t _ ht b' hb (fun g hg => ⟨g, hg⟩)), ?_⟩
    intro c1 h1 h2; rw [hc] at h1; cases h1
    exact .inr ⟨_, rfl, rfl, h2⟩
  | handle r c l t l' b hr hc ht hp hcur =>
    have hm := (hsi.run r hr).busy c hc
    have hst := stage_shards w _ r c hm l l' t ht (by rw [Ne, finished_iff, hp]; simp)
    have hnc : c.stage ≠ .cleaning := by rw [hst]; exact fun h => nomatch h
    have hall := hm.tasks hnc _ ht
    obtain ⟨a, x, b', hx, _, h2, _⟩ := forall2_split _ _ _ _ _ hall
    have hrem : t.rem = b :: t.todo := by simp [Task.rem, hp, hcur]
    have hbt : b ∈ t.rem := by rw [hrem]; simp
    obtain ⟨h3, h4, h5⟩ := h2.rem.new b hbt
    have hvn := hw.next _ _ (hm.next hnc)
    have hbs : b.shard ≠ 0 := by rw [h4]; exact hvn.shards x (by rw [hx]; simp)
    have hh : handles (session (Event.handle (shardCx w c.id b) :: tr)) = b :: handles (session tr) := by
      rw [session_cons _ _ (by simp)]; rfl
    refine ⟨?_, ?_, ?_⟩
    · rw [hh, List.nodup_cons]
      refine ⟨?_, hi.nodup⟩
      intro hmem
      rcases hi.shard r hr b hmem hbs with h | h | ⟨c1, ts, k, g, e1, e2, e3, e4⟩
      · rw [h5] at h; cases h
      · exact h (new_future w _ _ b (hm.next hnc) h3)
      · rw [hc] at e1; cases e1
        rw [ht] at e2; cases e2
        have := task_disjoint w _ _ _ l l' t k hall hvn.distinct e3 b hbt (by simp [Task.rem, e4])
        subst this
        rw [hcur] at e4; cases e4
    · intro r' hr' b1 hb1 hs1
      cases hr'
      rw [hh] at hb1
      rcases List.mem_cons.1 hb1 with rfl | hb1
      · exact .inr (.inr ⟨_, _, { t with prep := none, cur := some (b1, .handling) }, .handling, rfl, rfl, by simp, rfl⟩)
      · rcases hi.shard r hr b1 hb1 hs1 with h | h | h
        · exact .inl h
        · exact .inr (.inl h)
        · exact .inr (.inr (handling_mono r c hc l l' t _ ht b1 h (fun g hg => by rw [hcur] at hg; cases hg)))
    · intro r' hr' b1 hb1 hs1
      cases hr'
      rw [hh] at hb1
      rcases List.mem_cons.1 hb1 with rfl | hb1
      · exact absurd hs1 hbs
      · rcases hi.mc r hr b1 hb1 hs1 with h | ⟨c1, h1, rfl, h2⟩
        · exact .inl h
        · rw [hc] at h1; cases h1
          exact .inr ⟨_, rfl, rfl, h2⟩
  | handled r c l t l' b hr hc ht hcur =>
    refine hinv_quiet w tr s _ _ hi (by simp) (by simp) (heff.quiet (by simp) (by simp)) ?_
    intro r' h; cases h
    refine ⟨r, hr, fun b' hb => .inl (handling_mono r c hc l l' t _ ht b' hb (fun g hg => ?_)), ?_⟩
    · rw [hcur] at hg; cases hg; exact ⟨_, rfl⟩
    · intro c1 h1 h2; rw [hc] at h1; cases h1
      exact .inr ⟨_, rfl, rfl, h2⟩
  | commit r c l t l' b hr hc ht hcur =>
    have hm := (hsi.run r hr).busy c hc
    have hst := stage_shards w _ r c hm l l' t ht (by rw [Ne, finished_iff, hcur]; simp)
    have hnc : c.stage ≠ .cleaning := by rw [hst]; exact fun h => nomatch h
    obtain ⟨a, x, b', hx, _, h2, _⟩ := forall2_split _ _ _ _ _ (hm.tasks hnc _ ht)
    have hbs : b.shard ≠ 0 := by
      rw [(h2.rem.new b (by simp [Task.rem, hcur])).2.1]
      exact (hw.next _ _ (hm.next hnc)).shards x (by rw [hx]; simp)
    obtain ⟨hcm, _, _⟩ := heff.shard b rfl hbs
    have hh := handles_session_other (.commit b) tr (by simp) (by simp)
    refine ⟨by rw [hh]; exact hi.nodup, ?_, ?_⟩
    · intro r' hr' b1 hb1 hs1
      cases hr'
      rw [hh] at hb1
      rw [hcm.flags b1 hs1, hcm.last]
      by_cases hbb : b1 = b
      · exact .inl (by simp [hbb])
      rcases hi.shard r hr b1 hb1 hs1 with h | h | h
      · exact .inl (by simp [h])
      · exact .inr (.inl h)
      · refine .inr (.inr (handling_mono r c hc l l' t _ ht b1 h (fun g hg => ?_)))
        rw [hcur] at hg; cases hg; exact absurd rfl hbb
    · intro r' hr' b1 hb1 hs1
      cases hr'
      rw [hh] at hb1
      rw [hcm.last]
      rcases hi.mc r hr b1 hb1 hs1 with h | ⟨c1, h1, rfl, h2⟩
      · exact .inl h
      · rw [hc] at h1; cases h1
        exact .inr ⟨_, rfl, rfl, h2⟩
  | mcHandle r c ts hr hc ht hfin hp hst =>
    have hm := (hsi.run r hr).busy c hc
    have hnc : c.stage ≠ .cleaning := by rw [hst]; exact fun h => nomatch h
    have hvn := hw.next _ _ (hm.next hnc)
    have hh : handles (session (Event.handle (mcCx w c.id) :: tr)) = c.id :: handles (session tr) := by
      rw [session_cons _ _ (by simp)]; rfl
    refine ⟨?_, ?_, ?_⟩
    · rw [hh, List.nodup_cons]
      refine ⟨?_, hi.nodup⟩
      intro hmem
      rcases hi.mc r hr c.id hmem hvn.mc with h | ⟨c1, h1, _, h2⟩
      · have := hvn.seqno; omega
      · rw [hc] at h1; cases h1; exact h2 hst
    · intro r' hr' b1 hb1 hs1
      cases hr'
      rw [hh] at hb1
      rcases List.mem_cons.1 hb1 with rfl | hb1
      · exact absurd hvn.mc hs1
      · rcases hi.shard r hr b1 hb1 hs1 with h | h | h
        · exact .inl h
        · exact .inr (.inl h)
        · exact absurd h (hfinh r c ts hc ht hfin b1)
    · intro r' hr' b1 hb1 hs1
      cases hr'
      rw [hh] at hb1
      rcases List.mem_cons.1 hb1 with rfl | hb1
      · exact .inr ⟨_, rfl, rfl, fun h => nomatch h⟩
      · rcases hi.mc r hr b1 hb1 hs1 with h | ⟨c1, h1, _, h2⟩
        · exact .inl h
        · rw [hc] at h1; cases h1; exact absurd hst h2
  | mcHandled r c hr hc hst =>
    refine hinv_quiet w tr s _ _ hi (by simp) (by simp) (heff.quiet (by simp) (by simp)) ?_
    intro r' h; cases h
    refine ⟨r, hr, ?_, ?_⟩
    · rintro b ⟨c1, ts, k, g, h1, h2, h3, h4⟩
      rw [hc] at h1; cases h1
      exact .inl ⟨_, ts, k, g, rfl, h2, h3, h4⟩
    · intro c1 h1 h2; rw [hc] at h1; cases h1
      exact .inr ⟨_, rfl, rfl, fun h => nomatch h⟩
  | mcCommit r c hr hc hst =>
    have hm := (hsi.run r hr).busy c hc
    have hnc : c.stage ≠ .cleaning := by rw [hst]; exact fun h => nomatch h
    have hns : c.stage ≠ .shards := by rw [hst]; exact fun h => nomatch h
    obtain ⟨hn, hlast, hfl, _⟩ := heff.mc c.id rfl (hw.next _ _ (hm.next hnc)).mc
    have hvn := hw.next _ _ hn
    obtain ⟨⟨ts, ht, hfin⟩, _⟩ := hm.fin hns
    have hh := handles_session_other (.commit c.id) tr (by simp) (by simp)
    refine ⟨by rw [hh]; exact hi.nodup, ?_, ?_⟩
    · intro r' hr' b1 hb1 hs1
      cases hr'
      rw [hh] at hb1
      rw [hfl b1 hs1, hlast]
      rcases hi.shard r hr b1 hb1 hs1 with h | h | h
      · exact .inl h
      · exact .inr (.inl (fun hf => h (future_next w hw _ _ b1 hn hf)))
      · exact absurd h (hfinh r c ts hc ht hfin b1)
    · intro r' hr' b1 hb1 hs1
      cases hr'
      rw [hh] at hb1
      rw [hlast]
      rcases hi.mc r hr b1 hb1 hs1 with h | ⟨c1, h1, rfl, h2⟩
      · have := hvn.seqno; exact .inl (by omega)
      · rw [hc] at h1; cases h1
        exact .inl (Nat.le_refl _)
  | cleanup r c hr hc hst =>
    have hm := (hsi.run r hr).busy c hc
    have hns : c.stage ≠ .shards := by rw [hst]; exact fun h => nomatch h
    obtain ⟨⟨ts, ht, hfin⟩, _⟩ := hm.fin hns
    refine hinv_quiet w tr s _ _ hi (by simp) (by simp) (heff.quiet (by simp) (by simp)) ?_
    intro r' h; cases h
    refine ⟨r, hr, fun b hb => absurd hb (hfinh r c ts hc ht hfin b), ?_⟩
    intro c1 h1 h2; rw [hc] at h1; cases h1
    exact .inl (by rw [hm.done hst]; exact Nat.le_refl _)

theorem exec_hinv (w : World) (hw : WorldOk w) (s0 : State) (h0 : InitOk w s0) (tr : List Event) (s : State)
    (h : Exec w s0 tr s) : HInv w tr s := by
  induction h with
  | init =>
    exact ⟨by simp [session, handles], fun r h => absurd (h0.run ▸ h) (by simp), fun r h => absurd (h0.run ▸ h) (by simp)⟩
  | step tr s e s' hex hs ih => exact step_hinv w hw tr s e s' (exec_inv w hw s0 h0 tr s hex) ih hs

/-- Within one run of the node no block is given to the subscribers twice. -/
theorem handled_once_per_run (w : World) (hw : WorldOk w) (s0 : State) (h0 : InitOk w s0) (tr : List Event) (s : State)
    (h : Exec w s0 tr s) : (handles (session tr)).Nodup := (exec_hinv w hw s0 h0 tr s h).nodup

end Tycho.Strider
