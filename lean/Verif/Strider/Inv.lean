import Verif.Strider.Spec
import Mathlib.Data.List.Forall2

/-! Invariants of the strider. -/
namespace Tycho.Strider
open Tycho.Table

/-- Flag of the handle of a shard block. -/
theorem isCommitted_shard (w : World) (st : Store) (b : BlockId) (h : b.shard ≠ 0) :
    st.isCommitted w b = (get st.handles b).getD false := by
  simp [Store.isCommitted, h]

/-! ### History -/

theorem anc_trans (w : World) (a b c : BlockId) (h : Anc w a b) (h' : Anc w b c) : Anc w a c := by
  induction h' with
  | refl => exact h
  | step p c _ hp ih => exact .step a p c ih hp

theorem anc_seqno (w : World) (hb : BlocksOk w) (a b : BlockId) (h : Anc w a b) : a.seqno ≤ b.seqno := by
  induction h with
  | refl => exact Nat.le_refl _
  | step p b _ hp ih => exact Nat.le_trans ih (Nat.le_of_lt (hb.grow b p hp))

theorem covered_anc (w : World) (m a b : BlockId) (h : Covered w m b) (ha : Anc w a b) (h0 : a.seqno ≠ 0) :
    Covered w m a := by
  obtain ⟨_, t, ht, hbt⟩ := h
  exact ⟨h0, t, ht, anc_trans w a b t ha hbt⟩

theorem anc_parent (w : World) (a b : BlockId) (h : a ∈ parents w b) : Anc w a b := .step a a b (.refl a) h

theorem covered_parent (w : World) (m a b : BlockId) (h : Covered w m b) (ha : a ∈ parents w b) (h0 : a.seqno ≠ 0) :
    Covered w m a := covered_anc w m a b h (anc_parent w a b ha) h0

theorem covered_top (w : World) (m t : BlockId) (h : t ∈ (w.mcBlock m).tops) (h0 : t.seqno ≠ 0) : Covered w m t :=
  ⟨h0, t, h, .refl t⟩

theorem covered_next (w : World) (hb : BlocksOk w) (p m : BlockId) (hn : ValidNext w p m) (b : BlockId)
    (h : Covered w p b) : Covered w m b := by
  obtain ⟨h0, t, ht, hbt⟩ := h
  have : t.seqno ≠ 0 := by
    have := anc_seqno w hb b t hbt
    omega
  exact covered_anc w m b t (hn.keeps t ht this) hbt h0

theorem path_cons (w : World) (q p m : BlockId) (h : w.next q p) (hp : Path w p m) : Path w q m := by
  induction hp with
  | refl => exact .step q p .refl h
  | step x y _ hn ih => exact .step x y ih hn

theorem future_next (w : World) (hw : WorldOk w) (p m b : BlockId) (hn : w.next p m) (h : Future w m b) :
    Future w p b := by
  obtain ⟨h1, x, hx, hc⟩ := h
  exact ⟨fun hp => h1 (covered_next w hw.blocks p m (hw.next p m hn) b hp), x, path_cons w p m x hn hx, hc⟩

theorem new_future (w : World) (p m b : BlockId) (hn : w.next p m) (h : New w p m b) : Future w p b :=
  ⟨h.2, m, .step p m .refl hn, h.1⟩

theorem future_parent (w : World) (p a b : BlockId) (h : Future w p b) (ha : a ∈ parents w b) (h0 : a.seqno ≠ 0) :
    Covered w p a ∨ Future w p a := by
  by_cases hc : Covered w p a
  · exact .inl hc
  · obtain ⟨_, m, hm, hb⟩ := h
    exact .inr ⟨hc, m, hm, covered_parent w m a b hb ha h0⟩

/-- A new block is in the shard of the top block above it. -/
theorem new_shard (w : World) (hb : BlocksOk w) (p m : BlockId) (hn : ValidNext w p m) (b : BlockId) (h : New w p m b) :
    ∃ t ∈ (w.mcBlock m).tops, b.shard = t.shard ∧ (b = t ∨ b.seqno < t.seqno) := by
  obtain ⟨⟨h0, t, ht, hbt⟩, hold⟩ := h
  refine ⟨t, ht, ?_⟩
  have key : ∀ a c, Anc w a c → a.seqno ≠ 0 → ¬ Covered w p a → Covered w m c →
      a.shard = c.shard ∧ (a = c ∨ a.seqno < c.seqno) := by
    intro a c hac
    induction hac with
    | refl => intros; exact ⟨rfl, .inl rfl⟩
    | step x c hax hxc ih =>
      intro ha0 hna hcm
      have hx0 : x.seqno ≠ 0 := by have := anc_seqno w hb a x hax; omega
      have hnx : ¬ Covered w p x := fun hx => hna (covered_anc w p a x hx hax ha0)
      have hnc : ¬ Covered w p c := fun hc => hnx (covered_parent w p x c hc hxc hx0)
      have hxm := covered_parent w m x c hcm hxc hx0
      obtain ⟨h1, h2⟩ := ih ha0 hna hxm
      have hlt := hb.grow c x hxc
      refine ⟨?_, .inr (by rcases h2 with rfl | h2 <;> omega)⟩
      rw [h1]
      cases hi : w.shardBlock c with
      | none => simp [parents, hi] at hxc
      | some i =>
        by_cases hs : (i.afterSplit || i.afterMerge) = true
        · rcases hn.split c i ⟨hcm, hnc⟩ hi hs x hxc with h | h
          · exact absurd h hx0
          · exact absurd h hnx
        · have hs' := hs
          simp only [Bool.or_eq_true, not_or, Bool.not_eq_true] at hs'
          cases hp : i.prev with
          | afterMerge a1 a2 a3 a4 =>
            have := hb.merge c i hi a1 a2 a3 a4 hp
            rw [hs'.2] at this; cases this
          | single s h =>
            simp [parents, hi, hp, hs'.1] at hxc
            rw [hxc]
  exact key b t hbt h0 hold (covered_top w m t ht (by have := anc_seqno w hb b t hbt; omega))

/-! ### The store -/

structure StoreInv (w : World) (st : Store) : Prop where
  shards : ∀ t ∈ (w.mcBlock (st.last w)).tops, t.shard ≠ 0
  tops : ∀ t ∈ (w.mcBlock (st.last w)).tops, t.seqno ≠ 0 → st.isCommitted w t = true
  closed : ∀ b, b.shard ≠ 0 → st.isCommitted w b = true → Future w (st.last w) b → ∀ a ∈ parents w b, Behind w st a

/-- Blocks of a list follow one another. -/
def Line (w : World) : List BlockId → Prop
  | x :: y :: l => parents w y = [x] ∧ Line w (y :: l)
  | _ => True

def Task.rem (t : Task) : List BlockId := (t.cur.map Prod.fst).toList ++ (t.prep.map Prod.fst).toList ++ t.todo

/-- `t` is the top block, `rem` the blocks not committed yet. -/
structure RemInv (w : World) (st : Store) (m t : BlockId) (rem : List BlockId) : Prop where
  new : ∀ b ∈ rem, New w (st.last w) m b ∧ b.shard = t.shard ∧ st.isCommitted w b = false
  line : Line w rem
  first : ∀ b rest, rem = b :: rest → ∀ a ∈ parents w b, Behind w st a
  last : (rem = [] → Behind w st t) ∧ (rem ≠ [] → rem.getLast? = some t)

structure TaskInv (w : World) (st : Store) (m t : BlockId) (k : Task) : Prop where
  rem : RemInv w st m t k.rem
  prep : ∀ b, k.prep = some (b, true) → (get st.handles b).isSome = true
  cur : ∀ b g, k.cur = some (b, g) → (get st.handles b).isSome = true

theorem line_append (w : World) (r : List BlockId) (x y : BlockId) (h : Line w r) (hl : r.getLast? = some y)
    (hp : parents w x = [y]) : Line w (r ++ [x]) := by
  induction r with
  | nil => simp [Line]
  | cons a r ih =>
    cases r with
    | nil =>
      simp only [List.getLast?_singleton, Option.some.injEq] at hl
      subst hl
      exact ⟨hp, trivial⟩
    | cons b r =>
      rw [List.getLast?_cons_cons] at hl
      exact ⟨h.1, ih h.2 hl⟩

theorem line_tail (w : World) (x : BlockId) (r : List BlockId) (h : Line w (x :: r)) : Line w r := by
  cases r with
  | nil => trivial
  | cons y r => exact h.2

theorem line_lt (w : World) (hb : BlocksOk w) (x : BlockId) (r : List BlockId) (h : Line w (x :: r)) :
    ∀ y ∈ r, x.seqno < y.seqno := by
  induction r generalizing x with
  | nil => simp
  | cons y r ih =>
    intro z hz
    have h1 : x.seqno < y.seqno := hb.grow y x (by rw [h.1]; simp)
    rcases List.mem_cons.1 hz with rfl | hz
    · exact h1
    · exact Nat.lt_trans h1 (ih y h.2 z hz)

/-! ### Downloading -/

theorem download_inv (w : World) (hw : WorldOk w) (st : Store) (hst : StoreInv w st) (m : BlockId)
    (hn : ValidNext w (st.last w) m) (fuel : Nat) (x : BlockId) (l : List BlockId)
    (hs : x.shard ≠ 0)
    (hc : x.seqno = 0 ∨ Covered w m x) (ho : Covered w (st.last w) x → x ∈ (w.mcBlock (st.last w)).tops)
    (h : download w st fuel x = some l) :
    RemInv w st m x l.reverse := by
  induction fuel generalizing x l with
  | zero => simp [download] at h
  | succ fuel ih =>
    rw [download] at h
    split at h
    · rename_i hx
      cases h
      refine ⟨by simp, trivial, by simp, ⟨fun _ => ?_, by simp⟩⟩
      rcases hx with hx | hx
      · exact .inl hx
      · exact .inr (.inl hx)
    · rename_i hx
      rw [not_or] at hx
      have hnew : New w (st.last w) m x := by
        refine ⟨hc.resolve_left hx.1, fun hcov => ?_⟩
        exact hx.2 (hst.tops x (ho hcov) hx.1)
      have hunc : st.isCommitted w x = false := by
        cases hh : st.isCommitted w x with
        | false => rfl
        | true => exact absurd hh hx.2
      cases hi : w.shardBlock x with
      | none => rw [hi] at h; cases h
      | some i =>
        rw [hi] at h
        dsimp only at h
        split at h
        · rename_i hsp
          cases h
          refine ⟨by simp [hnew, hunc], trivial, ?_, ⟨by simp, by simp⟩⟩
          intro b rest hb a ha
          simp only [List.reverse_singleton, List.cons.injEq] at hb
          obtain ⟨rfl, rfl⟩ := hb
          rcases hn.split x i hnew hi hsp a ha with h | h
          · exact .inl h
          · exact .inr (.inr h)
        · rename_i hsp
          have hs' := hsp
          simp only [Bool.or_eq_true, not_or, Bool.not_eq_true] at hs'
          cases hp : i.prev with
          | afterMerge a1 a2 a3 a4 => rw [hp] at h; cases h
          | single s hh =>
            rw [hp] at h
            dsimp only at h
            split at h
            · cases h
            · cases hd : download w st fuel ⟨x.shard, s, hh⟩ with
              | none => rw [hd] at h; cases h
              | some l' =>
                rw [hd] at h
                simp only [Option.map_some, Option.some.injEq] at h
                subst h
                have hpar : parents w x = [⟨x.shard, s, hh⟩] := by simp [parents, hi, hp, hs'.1]
                have r := ih ⟨x.shard, s, hh⟩ l' hs (by
                  by_cases h0 : s = 0
                  · exact .inl h0
                  · exact .inr (covered_parent w m _ x hnew.1 (by rw [hpar]; simp) h0))
                  (fun hcov => hn.attached x hnew _ (by rw [hpar]; simp) hcov) hd
                rw [List.reverse_cons]
                refine ⟨?_, ?_, ?_, ⟨by simp, by simp⟩⟩
                · intro b hb
                  rcases List.mem_append.1 hb with hb | hb
                  · exact r.new b hb
                  · simp only [List.mem_singleton] at hb
                    subst hb
                    exact ⟨hnew, rfl, hunc⟩
                · by_cases hl : l'.reverse = []
                  · rw [hl]; trivial
                  · exact line_append w _ x _ r.line (r.last.2 hl) hpar
                · intro b rest hb a ha
                  by_cases hl : l'.reverse = []
                  · rw [hl] at hb
                    simp only [List.nil_append, List.cons.injEq] at hb
                    obtain ⟨rfl, _⟩ := hb
                    rw [hpar] at ha
                    simp only [List.mem_singleton] at ha
                    subst ha
                    exact r.last.1 hl
                  · obtain ⟨y, ys, hy⟩ := List.exists_cons_of_ne_nil hl
                    rw [hy] at hb
                    simp only [List.cons_append, List.cons.injEq] at hb
                    obtain ⟨rfl, _⟩ := hb
                    exact r.first y ys hy a ha

theorem downloadAll_inv (w : World) (hw : WorldOk w) (st : Store) (hst : StoreInv w st) (m : BlockId)
    (hn : ValidNext w (st.last w) m) (tops : List BlockId) (ht : ∀ t ∈ tops, t ∈ (w.mcBlock m).tops)
    (ls : List (List BlockId)) (h : downloadAll w st tops = some ls) :
    List.Forall₂ (fun t k => TaskInv w st m t k) tops (ls.map newTask) := by
  induction tops generalizing ls with
  | nil => cases h; exact .nil
  | cons t tops ih =>
    rw [downloadAll] at h
    cases hd : download w st maxDepth t with
    | none => rw [hd] at h; cases h
    | some l =>
      rw [hd] at h
      dsimp only at h
      cases ha : downloadAll w st tops with
      | none => rw [ha] at h; cases h
      | some ls' =>
        rw [ha] at h
        cases h
        refine .cons ⟨?_, by simp [newTask], by simp [newTask]⟩ (ih (fun t h => ht t (by simp [h])) ls' ha)
        have := download_inv w hw st hst m hn maxDepth t l (hn.shards t (ht t (by simp))) (by
          by_cases h0 : t.seqno = 0
          · exact .inl h0
          · exact .inr (covered_top w m t (ht t (by simp)) h0)) (hn.old t (ht t (by simp))) hd
        simpa [Task.rem, newTask] using this

/-! ### Changes of the store -/

/-- The store `st'` has the same flags and the same last block, and more handles. -/
structure SameFlags (w : World) (st st' : Store) : Prop where
  last : st'.last w = st.last w
  flags : ∀ b, st'.isCommitted w b = st.isCommitted w b
  more : ∀ b, (get st.handles b).isSome = true → (get st'.handles b).isSome = true

theorem save_same (w : World) (st : Store) (b : BlockId) : SameFlags w st (st.save w b) := by
  unfold Store.save
  split
  · split
    · exact ⟨rfl, fun _ => rfl, fun _ h => h⟩
    · rename_i hb
      refine ⟨rfl, fun c => ?_, fun c hc => ?_⟩
      · unfold Store.isCommitted
        split
        · rfl
        · dsimp only
          rw [get_put]
          split
          · rename_i h; subst h; simp [hb]
          · rfl
      · dsimp only
        rw [get_put]
        split
        · rfl
        · exact hc
  · exact ⟨rfl, fun _ => rfl, fun _ h => h⟩

theorem save_has (w : World) (hw : WorldOk w) (st : Store) (b : BlockId) : (get (st.save w b).handles b).isSome = true := by
  unfold Store.save
  rw [if_pos hw.saves]
  split
  · rename_i h; rw [h]; rfl
  · dsimp only; rw [get_put, if_pos rfl]; rfl

theorem behind_same (w : World) (st st' : Store) (h : SameFlags w st st') (b : BlockId) :
    Behind w st' b ↔ Behind w st b := by
  unfold Behind
  rw [h.last, h.flags]

theorem storeInv_same (w : World) (st st' : Store) (h : SameFlags w st st') (hi : StoreInv w st) : StoreInv w st' := by
  refine ⟨?_, ?_, ?_⟩
  · rw [h.last]; exact hi.shards
  · rw [h.last]; intro t ht h0; rw [h.flags]; exact hi.tops t ht h0
  · rw [h.last]
    intro b hb hc hf a ha
    rw [h.flags] at hc
    exact (behind_same w st st' h a).2 (hi.closed b hb hc hf a ha)

theorem remInv_same (w : World) (st st' : Store) (h : SameFlags w st st') (m t : BlockId) (r : List BlockId)
    (hi : RemInv w st m t r) : RemInv w st' m t r := by
  refine ⟨?_, hi.line, ?_, ?_⟩
  · intro b hb; rw [h.last, h.flags]; exact hi.new b hb
  · intro b rest hr a ha; exact (behind_same w st st' h a).2 (hi.first b rest hr a ha)
  · exact ⟨fun hr => (behind_same w st st' h t).2 (hi.last.1 hr), hi.last.2⟩

theorem taskInv_same (w : World) (st st' : Store) (h : SameFlags w st st') (m t : BlockId) (k : Task)
    (hi : TaskInv w st m t k) : TaskInv w st' m t k :=
  ⟨remInv_same w st st' h m t _ hi.rem, fun b hb => h.more b (hi.prep b hb), fun b g hb => h.more b (hi.cur b g hb)⟩

/-- A block is committed: only its flag changes. -/
structure Commits (w : World) (st : Store) (b : BlockId) (st' : Store) : Prop where
  last : st'.last w = st.last w
  flags : ∀ c, c.shard ≠ 0 → st'.isCommitted w c = (st.isCommitted w c || decide (c = b))
  mc : ∀ c, c.shard = 0 → st'.isCommitted w c = st.isCommitted w c
  more : ∀ c, (get st.handles c).isSome = true → (get st'.handles c).isSome = true

theorem commitShard_commits (w : World) (st : Store) (b : BlockId) (h : (get st.handles b).isSome = true) :
    Commits w st b (st.commitShard b) := by
  unfold Store.commitShard
  split
  · refine ⟨rfl, fun c hc => ?_, fun c hc => ?_, fun c hc => ?_⟩
    · simp only [Store.isCommitted, hc, if_false]
      rw [get_put]
      split
      · rename_i h; subst h; simp
      · rename_i h; simp [h]
    · unfold Store.isCommitted; rw [if_pos hc, if_pos hc]; rfl
    · dsimp only
      rw [get_put]
      split
      · rfl
      · exact hc
  · rename_i hb; rw [hb] at h; cases h

theorem behind_commits (w : World) (st st' : Store) (b : BlockId) (h : Commits w st b st') (a : BlockId)
    (ha : Behind w st a) : Behind w st' a := by
  unfold Behind at ha ⊢
  rw [h.last]
  rcases ha with ha | ha | ha
  · exact .inl ha
  · refine .inr (.inl ?_)
    by_cases hs : a.shard = 0
    · rw [h.mc a hs]; exact ha
    · rw [h.flags a hs, ha]; rfl
  · exact .inr (.inr ha)

theorem storeInv_commits (w : World) (st st' : Store) (b : BlockId) (h : Commits w st b st') (hi : StoreInv w st)
    (hp : ∀ a ∈ parents w b, Behind w st a) : StoreInv w st' := by
  refine ⟨?_, ?_, ?_⟩
  · rw [h.last]; exact hi.shards
  · rw [h.last]; intro t ht h0
    rw [h.flags t (hi.shards t ht), hi.tops t ht h0]; rfl
  · rw [h.last]
    intro c hs hc hf a ha
    rw [h.flags c hs] at hc
    simp only [Bool.or_eq_true, decide_eq_true_eq] at hc
    rcases hc with hc | rfl
    · exact behind_commits w st st' b h a (hi.closed c hs hc hf a ha)
    · exact behind_commits w st st' c h a (hp a ha)

/-- Other tasks. -/
theorem taskInv_commits (w : World) (st st' : Store) (b : BlockId) (h : Commits w st b st') (m t : BlockId) (k : Task)
    (hi : TaskInv w st m t k) (hs : t.shard ≠ 0) (hne : t.shard ≠ b.shard) : TaskInv w st' m t k := by
  refine ⟨⟨?_, hi.rem.line, ?_, ?_⟩, fun c hc => h.more c (hi.prep c hc), fun c g hc => h.more c (hi.cur c g hc)⟩
  · intro c hc
    obtain ⟨h1, h2, h3⟩ := hi.rem.new c hc
    rw [h.last]
    refine ⟨h1, h2, ?_⟩
    rw [h.flags c (by rw [h2]; exact hs), h3]
    have : c ≠ b := by rintro rfl; exact hne h2.symm
    simp [this]
  · intro c rest hr a ha; exact behind_commits w st st' b h a (hi.rem.first c rest hr a ha)
  · exact ⟨fun hr => behind_commits w st st' b h t (hi.rem.last.1 hr), hi.rem.last.2⟩

/-- The task whose first block is committed. -/
theorem remInv_commits (w : World) (hb : BlocksOk w) (st st' : Store) (b : BlockId) (h : Commits w st b st')
    (m t : BlockId) (r : List BlockId) (hi : RemInv w st m t (b :: r)) (hs : t.shard ≠ 0) : RemInv w st' m t r := by
  have hbs : b.shard ≠ 0 := by rw [(hi.new b (by simp)).2.1]; exact hs
  have hbb : Behind w st' b := .inr (.inl (by rw [h.flags b hbs]; simp))
  refine ⟨?_, line_tail w b r hi.line, ?_, ?_⟩
  · intro c hc
    obtain ⟨h1, h2, h3⟩ := hi.new c (by simp [hc])
    rw [h.last]
    refine ⟨h1, h2, ?_⟩
    rw [h.flags c (by rw [h2]; exact hs), h3]
    have : c ≠ b := by
      rintro rfl
      exact absurd (line_lt w hb c r hi.line c hc) (Nat.lt_irrefl _)
    simp [this]
  · intro c rest hr a ha
    subst hr
    rw [hi.line.1] at ha
    simp only [List.mem_singleton] at ha
    subst ha
    exact hbb
  · have hl := hi.last.2 (by simp)
    constructor
    · intro hr
      subst hr
      simp only [List.getLast?_singleton, Option.some.injEq] at hl
      subst hl; exact hbb
    · intro hr
      obtain ⟨y, ys, rfl⟩ := List.exists_cons_of_ne_nil hr
      rw [List.getLast?_cons_cons] at hl
      exact hl

end Tycho.Strider
