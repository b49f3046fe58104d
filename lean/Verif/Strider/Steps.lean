import Verif.Strider.Inv

/-! Every step keeps the invariants. -/
namespace Tycho.Strider
open Tycho.Table

structure McInv (w : World) (st : Store) (r : Run) (c : McRun) : Prop where
  prev : r.prev = c.id
  next : c.stage ≠ .cleaning → w.next (st.last w) c.id
  done : c.stage = .cleaning → st.last w = c.id
  tasks : c.stage ≠ .cleaning → ∀ ts, c.tasks = some ts →
    List.Forall₂ (fun t k => TaskInv w st c.id t k) (w.mcBlock c.id).tops ts
  fin : c.stage ≠ .shards → (∃ ts, c.tasks = some ts ∧ ∀ t ∈ ts, t.finished = true) ∧ c.prepared = true

structure RunInv (w : World) (st : Store) (r : Run) : Prop where
  fetched : ∀ m, r.fetched = some m → w.next r.prev m
  idle : r.cur = none → r.prev = st.last w
  busy : ∀ c, r.cur = some c → McInv w st r c

structure SInv (w : World) (s : State) : Prop where
  store : StoreInv w s.store
  past : ∀ st ∈ s.past, StoreInv w st
  run : ∀ r, s.run = some r → RunInv w s.store r

theorem forall2_split {α β : Type} (R : α → β → Prop) (as : List α) (l l' : List β) (k : β)
    (h : List.Forall₂ R as (l ++ k :: l')) :
    ∃ a t b, as = a ++ t :: b ∧ List.Forall₂ R a l ∧ R t k ∧ List.Forall₂ R b l' := by
  induction l generalizing as with
  | nil =>
    cases h with
    | cons h1 h2 => exact ⟨[], _, _, rfl, .nil, h1, h2⟩
  | cons x l ih =>
    cases h with
    | cons h1 h2 =>
      obtain ⟨a, t, b, rfl, h3, h4, h5⟩ := ih _ h2
      exact ⟨_ :: a, t, b, rfl, .cons h1 h3, h4, h5⟩

theorem forall2_join {α β : Type} (R : α → β → Prop) (a b : List α) (l l' : List β) (t : α) (k : β)
    (h : List.Forall₂ R a l) (hk : R t k) (h' : List.Forall₂ R b l') : List.Forall₂ R (a ++ t :: b) (l ++ k :: l') := by
  induction h with
  | nil => exact .cons hk h'
  | cons h1 _ ih => exact .cons h1 ih

theorem forall2_mono {α β : Type} (R R' : α → β → Prop) (a : List α) (l : List β) (h : List.Forall₂ R a l)
    (hr : ∀ x ∈ a, ∀ y ∈ l, R x y → R' x y) : List.Forall₂ R' a l := by
  induction h with
  | nil => exact .nil
  | cons h1 _ ih =>
    exact .cons (hr _ (by simp) _ (by simp) h1) (ih (fun x hx y hy => hr x (by simp [hx]) y (by simp [hy])))

theorem finished_iff (t : Task) : t.finished = true ↔ t.todo = [] ∧ t.prep = none ∧ t.cur = none := by
  unfold Task.finished
  cases t.todo <;> cases t.prep <;> cases t.cur <;> simp

theorem finished_rem (t : Task) (h : t.finished = true) : t.rem = [] := by
  rw [finished_iff] at h
  simp [Task.rem, h]

/-- A task that is not finished: the shard blocks are being processed. -/
theorem stage_shards (w : World) (st : Store) (r : Run) (c : McRun) (h : McInv w st r c) (l l' : List Task) (t : Task)
    (ht : c.tasks = some (l ++ t :: l')) (hf : t.finished ≠ true) : c.stage = .shards := by
  cases hs : c.stage with
  | shards => rfl
  | _ =>
    exfalso
    obtain ⟨⟨ts, h1, h2⟩, _⟩ := h.fin (by rw [hs]; exact fun h => nomatch h)
    rw [ht] at h1
    cases h1
    exact hf (h2 t (by simp))

/-- A step inside one task that does not change the store's flags. -/
theorem task_step (w : World) (st st' : Store) (hsame : SameFlags w st st') (r : Run) (c : McRun) (h : McInv w st r c)
    (l l' : List Task) (t t' : Task) (ht : c.tasks = some (l ++ t :: l')) (hst : c.stage = .shards)
    (hrem : t'.rem = t.rem)
    (hprep : ∀ b, t'.prep = some (b, true) → t.prep = some (b, true) ∨ (get st'.handles b).isSome = true)
    (hcur : ∀ b g, t'.cur = some (b, g) → (∃ g', t.cur = some (b, g')) ∨ t.prep = some (b, true)) :
    McInv w st' r { c with tasks := some (l ++ t' :: l') } := by
  have hall := h.tasks (by rw [hst]; exact fun h => nomatch h) _ ht
  obtain ⟨a, x, b, hx, h1, h2, h3⟩ := forall2_split _ _ _ _ _ hall
  refine ⟨h.prev, ?_, ?_, ?_, ?_⟩
  · intro hs; rw [hsame.last]; exact h.next hs
  · intro hs; rw [hsame.last]; exact h.done hs
  · intro hs ts hts
    cases hts
    dsimp only
    rw [hx]
    refine forall2_join _ a b l l' x t' ?_ ?_ ?_
    · exact forall2_mono _ _ a l h1 (fun y _ k _ hk => taskInv_same w st st' hsame c.id y k hk)
    · refine ⟨?_, ?_, ?_⟩
      · rw [hrem]; exact remInv_same w st st' hsame c.id x _ h2.rem
      · intro y hy
        rcases hprep y hy with h | h
        · exact hsame.more y (h2.prep y h)
        · exact h
      · intro y g hy
        rcases hcur y g hy with ⟨g', h⟩ | h
        · exact hsame.more y (h2.cur y g' h)
        · exact hsame.more y (h2.prep y h)
    · exact forall2_mono _ _ b l' h3 (fun y _ k _ hk => taskInv_same w st st' hsame c.id y k hk)
  · intro hs; exact absurd hst hs

theorem same_refl (w : World) (st : Store) : SameFlags w st st := ⟨rfl, fun _ => rfl, fun _ h => h⟩

theorem write_past (w : World) (s : State) (st : Store) (hi : SInv w s) : ∀ x ∈ (s.write st).past, StoreInv w x := by
  intro x hx
  rcases List.mem_cons.1 hx with rfl | hx
  · exact hi.store
  · exact hi.past x hx

/-- After the run of a masterchain block changed. -/
theorem setCur_inv (w : World) (s : State) (r : Run) (c : McRun) (hr : RunInv w s.store r) (st' : Store)
    (hprev : r.prev = c.id) (hc : McInv w st' r c) :
    RunInv w st' { r with cur := some c } := by
  refine ⟨fun m hm => hr.fetched m hm, fun h => (nomatch h), fun c' hc' => ?_⟩
  cases hc'
  exact ⟨hprev, hc.next, hc.done, hc.tasks, hc.fin⟩

/-- The handles that the garbage collection removes. -/
theorem gc_flags (w : World) (st : Store) (b c : BlockId) (hc : c.shard ≠ 0) :
    ({ st with handles := del st.handles (fun k => decide (k = b)) } : Store).isCommitted w c =
      (if c = b then false else st.isCommitted w c) := by
  simp only [Store.isCommitted, hc, if_false]
  rw [get_del]
  by_cases h : c = b <;> simp [h]

theorem step_inv (w : World) (hw : WorldOk w) (s : State) (e : Event) (s' : State) (hi : SInv w s) (h : Step w s e s') :
    SInv w s' := by
  cases h with
  | start hr =>
    refine ⟨hi.store, hi.past, ?_⟩
    intro r h
    cases h
    exact ⟨fun m h => (nomatch h), fun _ => rfl, fun c h => (nomatch h)⟩
  | stop r hr => exact ⟨hi.store, hi.past, fun r h => (nomatch h)⟩
  | lose st hr hst =>
    refine ⟨hi.past st hst, hi.past, ?_⟩
    intro r h
    rw [hr] at h; cases h
  | gc b q hq h0 hb =>
    -- blocks that matter are not removed
    have keep : ∀ c, c.shard ≠ 0 → c.seqno ≠ 0 → (c ∈ (w.mcBlock (s.store.last w)).tops ∨ Future w (s.store.last w) c) → c ≠ b := by
      rintro c hs hc0 hc rfl
      rw [if_neg hs, hw.heights q _ c hq hc0 hc] at hb
      cases hb
    let st' : Store := { s.store with handles := del s.store.handles (fun k => decide (k = b)) }
    have hmc : ∀ c, c.shard = 0 → st'.isCommitted w c = s.store.isCommitted w c := by
      intro c hc; unfold Store.isCommitted; rw [if_pos hc, if_pos hc]; rfl
    have hbe : ∀ a, Behind w s.store a → (a.seqno = 0 ∨ Covered w (s.store.last w) a ∨ Future w (s.store.last w) a) →
        Behind w st' a := by
      intro a ha hc
      rcases ha with ha | ha | ha
      · exact .inl ha
      · by_cases h0 : a.seqno = 0
        · exact .inl h0
        rcases hc with hc | hc | hc
        · exact absurd hc h0
        · exact .inr (.inr hc)
        · refine .inr (.inl ?_)
          by_cases hs : a.shard = 0
          · rw [hmc a hs]; exact ha
          · rw [gc_flags w s.store b a hs, if_neg (keep a hs h0 (.inr hc))]; exact ha
      · exact .inr (.inr ha)
    have hpar : ∀ a c, Future w (s.store.last w) c → a ∈ parents w c →
        a.seqno = 0 ∨ Covered w (s.store.last w) a ∨ Future w (s.store.last w) a := by
      intro a c hc ha
      by_cases h0 : a.seqno = 0
      · exact .inl h0
      · exact .inr (future_parent w _ a c hc ha h0)
    have hstore : StoreInv w st' := by
      refine ⟨hi.store.shards, ?_, ?_⟩
      · intro t ht h0
        have hs := hi.store.shards t ht
        rw [gc_flags w s.store b t hs, if_neg (keep t hs h0 (.inl ht))]
        exact hi.store.tops t ht h0
      · intro c hs hc hf a ha
        rw [gc_flags w s.store b c hs] at hc
        split at hc
        · cases hc
        · exact hbe a (hi.store.closed c hs hc hf a ha) (hpar a c hf ha)
    refine ⟨hstore, write_past w s _ hi, ?_⟩
    intro r hr
    have hr' := hi.run r hr
    refine ⟨hr'.fetched, hr'.idle, ?_⟩
    intro c hc
    have hm := hr'.busy c hc
    refine ⟨hm.prev, hm.next, hm.done, ?_, hm.fin⟩
    intro hst ts hts
    have hnext := hm.next hst
    have hvn := hw.next _ _ hnext
    refine forall2_mono _ _ _ _ (hm.tasks hst ts hts) ?_
    intro t ht k _ hk
    have hts : t.shard ≠ 0 := hvn.shards t ht
    have hfut : ∀ x ∈ k.rem, Future w (s.store.last w) x ∧ x.shard ≠ 0 ∧ x.seqno ≠ 0 := by
      intro x hx
      obtain ⟨h1, h2, _⟩ := hk.rem.new x hx
      exact ⟨new_future w _ _ x hnext h1, by rw [h2]; exact hts, h1.1.1⟩
    have hkeep : ∀ x ∈ k.rem, (get s.store.handles x).isSome = true → (get st'.handles x).isSome = true := by
      intro x hx hh
      obtain ⟨h1, h2, h3⟩ := hfut x hx
      have : x ≠ b := keep x h2 h3 (.inr h1)
      show (get (del s.store.handles (fun k => decide (k = b))) x).isSome = true
      rw [get_del]
      simp only [this, decide_false]
      exact hh
    refine ⟨⟨?_, hk.rem.line, ?_, ?_, hk.rem.last.2⟩, ?_, ?_⟩
    · intro x hx
      obtain ⟨h1, h2, h3⟩ := hk.rem.new x hx
      refine ⟨h1, h2, ?_⟩
      show st'.isCommitted w x = false
      rw [gc_flags w s.store b x (hfut x hx).2.1]
      split
      · rfl
      · exact h3
    · intro x rest hx a ha
      exact hbe a (hk.rem.first x rest hx a ha) (hpar a x (hfut x (by rw [hx]; simp)).1 ha)
    · intro hr
      refine hbe t (hk.rem.last.1 hr) ?_
      by_cases h0 : t.seqno = 0
      · exact .inl h0
      · by_cases hcv : Covered w (s.store.last w) t
        · exact .inr (.inl hcv)
        · exact .inr (.inr (new_future w _ _ t hnext ⟨covered_top w _ t ht h0, hcv⟩))
    · intro x hx
      exact hkeep x (by simp [Task.rem, hx]) (hk.prep x hx)
    · intro x g hx
      exact hkeep x (by simp [Task.rem, hx]) (hk.cur x g hx)
  | fetch r m hr hf hn =>
    refine ⟨hi.store, hi.past, ?_⟩
    intro r' h
    cases h
    have hr' := hi.run r hr
    refine ⟨?_, hr'.idle, ?_⟩
    · intro m' hm'; cases hm'; exact hn
    · intro c hc
      have hm := hr'.busy c hc
      exact ⟨hm.prev, hm.next, hm.done, hm.tasks, hm.fin⟩
  | take r m hr hc hf =>
    refine ⟨hi.store, hi.past, ?_⟩
    intro r' h
    cases h
    have hr' := hi.run r hr
    refine ⟨fun m h => (nomatch h), fun h => (nomatch h), ?_⟩
    intro c h
    cases h
    refine ⟨rfl, fun _ => ?_, fun h => (nomatch h), fun _ ts h => (nomatch h), fun h => absurd rfl h⟩
    rw [← hr'.idle hc]
    exact hr'.fetched m hf
  | mcPrepared r c hr hc hp =>
    have hr' := hi.run r hr
    have hm := hr'.busy c hc
    have hs := save_same w s.store c.id
    refine ⟨storeInv_same w _ _ hs hi.store, write_past w s (s.store.save w c.id) hi, ?_⟩
    intro r' h
    cases h
    refine setCur_inv w s r _ hr' _ hm.prev ⟨hm.prev, ?_, ?_, ?_, ?_⟩
    · intro h; show w.next ((s.store.save w c.id).last w) c.id; rw [hs.last]; exact hm.next h
    · intro h; show (s.store.save w c.id).last w = c.id; rw [hs.last]; exact hm.done h
    · intro h ts hts
      exact forall2_mono _ _ _ _ (hm.tasks h ts hts) (fun t _ k _ hk => taskInv_same w s.store (s.store.save w c.id) hs c.id t k hk)
    · intro h; exact ⟨(hm.fin h).1, rfl⟩
  | download r c ls hr hc ht hd =>
    have hr' := hi.run r hr
    have hm := hr'.busy c hc
    have hst : c.stage = .shards := by
      cases hs : c.stage with
      | shards => rfl
      | _ =>
        obtain ⟨⟨ts, h1, _⟩, _⟩ := hm.fin (by rw [hs]; exact fun h => nomatch h)
        rw [ht] at h1; cases h1
    refine ⟨hi.store, hi.past, ?_⟩
    intro r' h
    cases h
    have hnext := hm.next (by rw [hst]; exact fun h => nomatch h)
    refine setCur_inv w s r _ hr' _ hm.prev ⟨hm.prev, hm.next, hm.done, ?_, ?_⟩
    · intro _ ts hts
      cases hts
      exact downloadAll_inv w hw s.store hi.store c.id (hw.next _ _ hnext) _ (fun t h => h) ls hd
    · intro h; exact absurd hst h
  | prep r c l t l' b rest hr hc ht hp htodo =>
    have hr' := hi.run r hr
    have hm := hr'.busy c hc
    have hst := stage_shards w _ r c hm l l' t ht (by rw [Ne, finished_iff, htodo]; simp)
    refine ⟨hi.store, hi.past, ?_⟩
    intro r' h
    cases h
    refine setCur_inv w s r _ hr' _ hm.prev (task_step w _ _ (same_refl w _) r c hm l l' t _ ht hst ?_ ?_ ?_)
    · simp [Task.rem, hp, htodo]
    · intro x hx; simp at hx
    · intro x g hx; exact .inl ⟨g, hx⟩
  | prepared r c l t l' b hr hc ht hp =>
    have hr' := hi.run r hr
    have hm := hr'.busy c hc
    have hst := stage_shards w _ r c hm l l' t ht (by rw [Ne, finished_iff, hp]; simp)
    have hs := save_same w s.store b
    refine ⟨storeInv_same w _ _ hs hi.store, write_past w s (s.store.save w b) hi, ?_⟩
    intro r' h
    cases h
    refine setCur_inv w s r _ hr' _ hm.prev (task_step w _ _ hs r c hm l l' t _ ht hst ?_ ?_ ?_)
    · simp [Task.rem, hp]
    · intro x hx
      simp only [Option.some.injEq, Prod.mk.injEq, and_true] at hx
      subst hx
      exact .inr (save_has w hw s.store b)
    · intro x g hx; exact .inl ⟨g, hx⟩
  | handle r c l t l' b hr hc ht hp hcur =>
    have hr' := hi.run r hr
    have hm := hr'.busy c hc
    have hst := stage_shards w _ r c hm l l' t ht (by rw [Ne, finished_iff, hp]; simp)
    refine ⟨hi.store, hi.past, ?_⟩
    intro r' h
    cases h
    refine setCur_inv w s r _ hr' _ hm.prev (task_step w _ _ (same_refl w _) r c hm l l' t _ ht hst ?_ ?_ ?_)
    · simp [Task.rem, hp, hcur]
    · intro x hx; simp at hx
    · intro x g hx
      simp only [Option.some.injEq, Prod.mk.injEq] at hx
      obtain ⟨rfl, _⟩ := hx
      exact .inr hp
  | handled r c l t l' b hr hc ht hcur =>
    have hr' := hi.run r hr
    have hm := hr'.busy c hc
    have hst := stage_shards w _ r c hm l l' t ht (by rw [Ne, finished_iff, hcur]; simp)
    refine ⟨hi.store, hi.past, ?_⟩
    intro r' h
    cases h
    refine setCur_inv w s r _ hr' _ hm.prev (task_step w _ _ (same_refl w _) r c hm l l' t _ ht hst ?_ ?_ ?_)
    · simp [Task.rem, hcur]
    · intro x hx; exact .inl hx
    · intro x g hx
      simp only [Option.some.injEq, Prod.mk.injEq] at hx
      obtain ⟨rfl, _⟩ := hx
      exact .inl ⟨_, hcur⟩
  | commit r c l t l' b hr hc ht hcur =>
    have hr' := hi.run r hr
    have hm := hr'.busy c hc
    have hst := stage_shards w _ r c hm l l' t ht (by rw [Ne, finished_iff, hcur]; simp)
    have hnc : c.stage ≠ .cleaning := by rw [hst]; exact fun h => nomatch h
    have hvn := hw.next _ _ (hm.next hnc)
    have hall := hm.tasks hnc _ ht
    obtain ⟨a, x, b', hx, h1, h2, h3⟩ := forall2_split _ _ _ _ _ hall
    have hcom := commitShard_commits w s.store b (h2.cur b _ hcur)
    have hxs : x.shard ≠ 0 := hvn.shards x (by rw [hx]; simp)
    have hrem : t.rem = b :: ({ t with cur := none } : Task).rem := by simp [Task.rem, hcur]
    have hbx : b.shard = x.shard := (h2.rem.new b (by rw [hrem]; simp)).2.1
    have hdist := hvn.distinct
    rw [hx, List.map_append, List.map_cons, List.nodup_append] at hdist
    refine ⟨storeInv_commits w _ _ b hcom hi.store (h2.rem.first b _ hrem), write_past w s (s.store.commitShard b) hi, ?_⟩
    intro r' h
    cases h
    refine setCur_inv w s r _ hr' _ hm.prev ⟨hm.prev, ?_, ?_, ?_, ?_⟩
    · intro h; show w.next ((s.store.commitShard b).last w) c.id; rw [hcom.last]; exact hm.next h
    · intro h; show (s.store.commitShard b).last w = c.id; rw [hcom.last]; exact hm.done h
    · intro h ts hts
      cases hts
      dsimp only
      rw [hx]
      refine forall2_join _ a b' l l' x _ ?_ ?_ ?_
      · refine forall2_mono _ _ a l h1 (fun y hy k _ hk => ?_)
        refine taskInv_commits w _ _ b hcom c.id y k hk (hvn.shards y (by rw [hx]; simp [hy])) ?_
        rw [hbx]
        exact hdist.2.2 _ (List.mem_map.2 ⟨y, hy, rfl⟩) _ (by simp)
      · refine ⟨?_, ?_, ?_⟩
        · have := h2.rem
          rw [hrem] at this
          exact remInv_commits w hw.blocks _ _ b hcom c.id x _ this hxs
        · intro y hy; exact hcom.more y (h2.prep y hy)
        · intro y g hy; cases hy
      · refine forall2_mono _ _ b' l' h3 (fun y hy k _ hk => ?_)
        refine taskInv_commits w _ _ b hcom c.id y k hk (hvn.shards y (by rw [hx]; simp [hy])) ?_
        rw [hbx]
        intro heq
        have hn2 := hdist.2.1
        rw [List.nodup_cons] at hn2
        exact hn2.1 (by rw [← heq]; exact List.mem_map.2 ⟨y, hy, rfl⟩)
    · intro h; exact absurd hst h
  | mcHandle r c ts hr hc ht hfin hp hst =>
    have hr' := hi.run r hr
    have hm := hr'.busy c hc
    refine ⟨hi.store, hi.past, ?_⟩
    intro r' h
    cases h
    have hnc : c.stage ≠ .cleaning := by rw [hst]; exact fun h => nomatch h
    refine setCur_inv w s r _ hr' _ hm.prev ⟨hm.prev, fun _ => hm.next hnc, fun h => (nomatch h),
      fun _ ts hts => hm.tasks hnc ts hts, fun _ => ⟨⟨ts, ht, hfin⟩, hp⟩⟩
  | mcHandled r c hr hc hst =>
    have hr' := hi.run r hr
    have hm := hr'.busy c hc
    refine ⟨hi.store, hi.past, ?_⟩
    intro r' h
    cases h
    have hnc : c.stage ≠ .cleaning := by rw [hst]; exact fun h => nomatch h
    have hns : c.stage ≠ .shards := by rw [hst]; exact fun h => nomatch h
    exact setCur_inv w s r _ hr' _ hm.prev ⟨hm.prev, fun _ => hm.next hnc, fun h => (nomatch h),
      fun _ ts hts => hm.tasks hnc ts hts, fun _ => hm.fin hns⟩
  | mcCommit r c hr hc hst =>
    have hr' := hi.run r hr
    have hm := hr'.busy c hc
    have hnc : c.stage ≠ .cleaning := by rw [hst]; exact fun h => nomatch h
    have hns : c.stage ≠ .shards := by rw [hst]; exact fun h => nomatch h
    have hnext := hm.next hnc
    have hvn := hw.next _ _ hnext
    obtain ⟨⟨ts, ht, hfin⟩, _⟩ := hm.fin hns
    have hall := hm.tasks hnc ts ht
    have hflag : ∀ b, b.shard ≠ 0 → (s.store.commitMaster c.id).isCommitted w b = s.store.isCommitted w b := by
      intro b hb; simp [Store.isCommitted, hb, Store.commitMaster]
    have hbt : ∀ t ∈ (w.mcBlock c.id).tops, Behind w s.store t := by
      intro t ht
      have := hall
      clear hnext
      have key : ∀ (tops : List BlockId) (ts : List Task), List.Forall₂ (fun t k => TaskInv w s.store c.id t k) tops ts →
          (∀ k ∈ ts, k.finished = true) → ∀ t ∈ tops, Behind w s.store t := by
        intro tops ts h
        induction h with
        | nil => simp
        | cons h1 _ ih =>
          intro hf t ht
          rcases List.mem_cons.1 ht with rfl | ht
          · exact h1.rem.last.1 (finished_rem _ (hf _ (by simp)))
          · exact ih (fun k hk => hf k (by simp [hk])) t ht
      exact key _ _ this hfin t ht
    have hstore : StoreInv w (s.store.commitMaster c.id) := by
      refine ⟨hvn.shards, ?_, ?_⟩
      · intro t ht h0
        rw [hflag t (hvn.shards t ht)]
        rcases hbt t ht with h | h | h
        · exact absurd h h0
        · exact h
        · exact hi.store.tops t (hvn.old t ht h) h0
      · intro b hb hc' hf a ha
        rw [hflag b hb] at hc'
        have hf' : Future w (s.store.last w) b := future_next w hw _ c.id b hnext hf
        rcases hi.store.closed b hb hc' hf' a ha with h | h | h
        · exact .inl h
        · refine .inr (.inl ?_)
          by_cases hs : a.shard = 0
          · unfold Store.isCommitted at h ⊢
            rw [if_pos hs] at h ⊢
            simp only [decide_eq_true_eq] at h ⊢
            show a.seqno ≤ c.id.seqno
            rw [hvn.seqno]
            omega
          · rw [hflag a hs]; exact h
        · exact .inr (.inr (covered_next w hw.blocks _ c.id hvn a h))
    refine ⟨hstore, write_past w s (s.store.commitMaster c.id) hi, ?_⟩
    intro r' h
    cases h
    exact setCur_inv w s r _ hr' _ hm.prev ⟨hm.prev, fun h => absurd rfl h, fun _ => rfl, fun h => absurd rfl h,
      fun _ => hm.fin hns⟩
  | cleanup r c hr hc hst =>
    have hr' := hi.run r hr
    have hm := hr'.busy c hc
    refine ⟨hi.store, hi.past, ?_⟩
    intro r' h
    cases h
    refine ⟨hr'.fetched, fun _ => ?_, fun c h => (nomatch h)⟩
    show r.prev = s.store.last w
    rw [hm.done hst]; exact hm.prev

theorem init_inv (w : World) (s : State) (h : InitOk w s) : SInv w s := by
  refine ⟨⟨h.shards, h.tops, ?_⟩, by rw [h.past]; simp, by rw [h.run]; intro r h; cases h⟩
  intro b hb hc hf
  exact absurd (h.rest b hc hb) hf.1

theorem exec_inv (w : World) (hw : WorldOk w) (s0 : State) (h0 : InitOk w s0) (tr : List Event) (s : State)
    (h : Exec w s0 tr s) : SInv w s := by
  induction h with
  | init => exact init_inv w s0 h0
  | step tr s e s' _ hs ih => exact step_inv w hw s e s' ih hs

end Tycho.Strider
