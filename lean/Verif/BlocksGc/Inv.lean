import Verif.BlocksGc.Model
import Mathlib.Data.List.Nodup

namespace Tycho.BlocksGc
open Tycho.Table Tycho.BlockMeta

/-- Order of blocks in the table of ids. -/
def Before (j k : Key) : Prop := j.shard < k.shard ∨ (j.shard = k.shard ∧ j.seqno < k.seqno)

theorem before_trans {i j k : Key} (h : Before i j) (h' : Before j k) : Before i k := by
  unfold Before at *; omega

theorem before_irrefl {k : Key} : ¬ Before k k := by unfold Before; omega

theorem mem_inRange {sh a b : Nat} {k : Key} : inRange sh a b k = true ↔ k.shard = sh ∧ a ≤ k.seqno ∧ k.seqno < b := by
  simp [inRange, and_assoc]

/-- What the written operations and removed data ranges did to `db`. -/
structure Reached (db0 db : Db) (W : List Op) (D : List (Nat × Nat × Nat × Nat)) : Prop where
  ids : ∀ k, k ∈ db.ids ↔ k ∈ db0.ids ∧ ∀ sh a b, .delIds sh a b ∈ W → inRange sh a b k = false
  sub : db.ids.Sublist db0.ids
  conns : ∀ k, k ∈ db.conns ↔ k ∈ db0.conns ∧ ∀ sh a b, .delConns sh a b ∈ W → inRange sh a b k = false
  handles : ∀ r, (.delHandle r ∈ W → get db.handles r = none) ∧ (.delHandle r ∉ W → get db.handles r = get db0.handles r)
  data : ∀ e, e ∈ db.data ↔ e ∈ db0.data ∧ ∀ sh a b ty, (sh, a, b, ty) ∈ D → dataRange sh a b ty e = false

theorem reached_init (db : Db) : Reached db db [] [] :=
  ⟨by simp, List.Sublist.refl _, by simp, by simp, by simp⟩

theorem reached_op (db0 db : Db) (W : List Op) (D) (h : Reached db0 db W D) (o : Op) : Reached db0 (db.op o) (W ++ [o]) D := by
  cases o with
  | delIds sh a b =>
    refine ⟨?_, ?_, ?_, ?_, ?_⟩
    · intro k
      simp only [Db.op, List.mem_filter, h.ids, Bool.not_eq_eq_eq_not, Bool.not_true, List.mem_append, List.mem_singleton,
        Op.delIds.injEq]
      constructor
      · rintro ⟨⟨h1, h2⟩, h3⟩
        refine ⟨h1, fun sh' a' b' hm => ?_⟩
        rcases hm with hm | ⟨rfl, rfl, rfl⟩
        · exact h2 _ _ _ hm
        · exact h3
      · rintro ⟨h1, h2⟩
        exact ⟨⟨h1, fun _ _ _ hm => h2 _ _ _ (.inl hm)⟩, h2 _ _ _ (.inr ⟨rfl, rfl, rfl⟩)⟩
    · exact List.Sublist.trans List.filter_sublist h.sub
    · simpa [Db.op] using h.conns
    · intro r; simpa [Db.op] using h.handles r
    · exact h.data
  | delConns sh a b =>
    refine ⟨?_, h.sub, ?_, ?_, h.data⟩
    · simpa [Db.op] using h.ids
    · intro k
      simp only [Db.op, List.mem_filter, h.conns, Bool.not_eq_eq_eq_not, Bool.not_true, List.mem_append, List.mem_singleton,
        Op.delConns.injEq]
      constructor
      · rintro ⟨⟨h1, h2⟩, h3⟩
        refine ⟨h1, fun sh' a' b' hm => ?_⟩
        rcases hm with hm | ⟨rfl, rfl, rfl⟩
        · exact h2 _ _ _ hm
        · exact h3
      · rintro ⟨h1, h2⟩
        exact ⟨⟨h1, fun _ _ _ hm => h2 _ _ _ (.inl hm)⟩, h2 _ _ _ (.inr ⟨rfl, rfl, rfl⟩)⟩
    · intro r; simpa [Db.op] using h.handles r
  | delHandle r0 =>
    refine ⟨?_, h.sub, ?_, ?_, h.data⟩
    · simpa [Db.op] using h.ids
    · simpa [Db.op] using h.conns
    · intro r
      obtain ⟨h1, h2⟩ := h.handles r
      simp only [Db.op, get_del, List.mem_append, List.mem_singleton, Op.delHandle.injEq, decide_eq_true_eq]
      by_cases hr : r = r0
      · subst hr; simp
      · simp only [hr, or_false, if_false]
        exact ⟨h1, h2⟩

theorem reached_write (db0 db : Db) (W : List Op) (D) (h : Reached db0 db W D) (batch : List Op) :
    Reached db0 (db.write batch) (W ++ batch) D := by
  induction batch generalizing db W with
  | nil => simpa [Db.write] using h
  | cons o batch ih =>
    have := ih (db.op o) (W ++ [o]) (reached_op db0 db W D h o)
    simpa [Db.write] using this

theorem reached_data (db0 db : Db) (W : List Op) (D) (h : Reached db0 db W D) (sh a b ty : Nat) :
    Reached db0 (db.dropData sh a b ty) W (D ++ [(sh, a, b, ty)]) := by
  refine ⟨h.ids, h.sub, h.conns, h.handles, ?_⟩
  intro e
  simp only [Db.dropData, List.mem_filter, h.data, Bool.not_eq_eq_eq_not, Bool.not_true, List.mem_append, List.mem_singleton,
    Prod.mk.injEq]
  constructor
  · rintro ⟨⟨h1, h2⟩, h3⟩
    refine ⟨h1, fun sh' a' b' ty' hm => ?_⟩
    rcases hm with hm | ⟨rfl, rfl, rfl, rfl⟩
    · exact h2 _ _ _ _ hm
    · exact h3
  · rintro ⟨h1, h2⟩
    exact ⟨⟨h1, fun _ _ _ _ hm => h2 _ _ _ _ (.inl hm)⟩, h2 _ _ _ _ (.inr ⟨rfl, rfl, rfl, rfl⟩)⟩

/-- All blocks with an id in the range are outdated. -/
def RangeOut (p : Params) (db0 : Db) (sh a b : Nat) : Prop :=
  ∀ k ∈ db0.ids, inRange sh a b k = true → keeps p db0 k = false

/-- Operations that touch outdated blocks only; ids go after handles and data. -/
structure Safe (p : Params) (db0 : Db) (W : List Op) (D : List (Nat × Nat × Nat × Nat)) : Prop where
  ids : ∀ sh a b, .delIds sh a b ∈ W → RangeOut p db0 sh a b ∧
    (∀ k ∈ db0.ids, inRange sh a b k = true → .delHandle k.root ∈ W) ∧ (∀ ty, ty < 3 → (sh, a, b, ty) ∈ D)
  conns : ∀ sh a b, .delConns sh a b ∈ W → RangeOut p db0 sh a b
  handles : ∀ r, .delHandle r ∈ W → ∃ k ∈ db0.ids, k.root = r ∧ keeps p db0 k = false

def SafeD (p : Params) (db0 : Db) (D : List (Nat × Nat × Nat × Nat)) : Prop :=
  ∀ sh a b ty, (sh, a, b, ty) ∈ D → RangeOut p db0 sh a b ∧ ty < 3

theorem Safe.mono {p : Params} {db0 : Db} {W : List Op} {D D'} (h : Safe p db0 W D) (hd : ∀ x ∈ D, x ∈ D') : Safe p db0 W D' :=
  ⟨fun sh a b hm => ⟨(h.ids sh a b hm).1, (h.ids sh a b hm).2.1, fun ty ht => hd _ ((h.ids sh a b hm).2.2 ty ht)⟩,
    h.conns, h.handles⟩

structure Inv (p : Params) (db0 : Db) (done : List Key) (l : Loop) (W : List Op) (D : List (Nat × Nat × Nat × Nat)) : Prop where
  reached : Reached db0 l.db W D
  safeW : Safe p db0 W D
  safe : Safe p db0 (W ++ l.batch) D
  safeD : SafeD p db0 D
  handle : ∀ k ∈ done, keeps p db0 k = false → .delHandle k.root ∈ W ++ l.batch
  covered : ∀ k ∈ done, keeps p db0 k = false →
    (∃ sh a b, .delIds sh a b ∈ W ++ l.batch ∧ .delConns sh a b ∈ W ++ l.batch ∧ inRange sh a b k = true) ∨
    (∃ sh a b, l.range = some (sh, a, b) ∧ inRange sh a (b + 1) k = true)
  range : ∀ sh a b, l.range = some (sh, a, b) → RangeOut p db0 sh a (b + 1) ∧
    (∀ k ∈ db0.ids, inRange sh a (b + 1) k = true → k ∈ done) ∧ (∃ last, done.getLast? = some last ∧ last.shard = sh ∧ last.seqno = b) ∧ a ≤ b
  roots : ∀ r, .delHandle r ∈ W ++ l.batch → ∃ k ∈ done, k.root = r
  len : l.batch ≠ [] → 0 < l.len
  trace : ∀ db ∈ l.trace, ∃ W' D', Reached db0 db W' D' ∧ Safe p db0 W' D' ∧ SafeD p db0 D'

theorem inv_deleteRange (p : Params) (db0 : Db) (done : List Key) (l : Loop) (W D) (h : Inv p db0 done l W D) (sh a b : Nat)
    (hr : l.range = some (sh, a, b)) (r' : Option (Nat × Nat × Nat)) (hr' : r' = none) (len' : Nat) (hlen : 0 < len') :
    Inv p db0 done { l.deleteRange sh a b with range := r', len := len' } W
      (D ++ [(sh, a, b + 1, 0)] ++ [(sh, a, b + 1, 1)] ++ [(sh, a, b + 1, 2)]) := by
  subst hr'
  obtain ⟨ho, hin, _, hab⟩ := h.range sh a b hr
  have r0 := reached_data _ _ _ _ h.reached sh a (b + 1) 0
  have r1 := reached_data _ _ _ _ r0 sh a (b + 1) 1
  have r2 := reached_data _ _ _ _ r1 sh a (b + 1) 2
  have hsub : ∀ x ∈ D, x ∈ D ++ [(sh, a, b + 1, 0)] ++ [(sh, a, b + 1, 1)] ++ [(sh, a, b + 1, 2)] := by
    intro x hx; simp [hx]
  have sd0 : SafeD p db0 (D ++ [(sh, a, b + 1, 0)]) := by
    intro s' a' b' t' hm
    rcases List.mem_append.1 hm with hm | hm
    · exact h.safeD _ _ _ _ hm
    · simp only [List.mem_singleton, Prod.mk.injEq] at hm
      obtain ⟨rfl, rfl, rfl, rfl⟩ := hm
      exact ⟨ho, by omega⟩
  have sd1 : SafeD p db0 (D ++ [(sh, a, b + 1, 0)] ++ [(sh, a, b + 1, 1)]) := by
    intro s' a' b' t' hm
    rcases List.mem_append.1 hm with hm | hm
    · exact sd0 _ _ _ _ hm
    · simp only [List.mem_singleton, Prod.mk.injEq] at hm
      obtain ⟨rfl, rfl, rfl, rfl⟩ := hm
      exact ⟨ho, by omega⟩
  have sd2 : SafeD p db0 (D ++ [(sh, a, b + 1, 0)] ++ [(sh, a, b + 1, 1)] ++ [(sh, a, b + 1, 2)]) := by
    intro s' a' b' t' hm
    rcases List.mem_append.1 hm with hm | hm
    · exact sd1 _ _ _ _ hm
    · simp only [List.mem_singleton, Prod.mk.injEq] at hm
      obtain ⟨rfl, rfl, rfl, rfl⟩ := hm
      exact ⟨ho, by omega⟩
  have hmem : ∀ o, o ∈ W ++ (l.batch ++ [Op.delIds sh a (b + 1), .delConns sh a (b + 1)]) ↔
      o ∈ W ++ l.batch ∨ o = .delIds sh a (b + 1) ∨ o = .delConns sh a (b + 1) := by
    intro o; simp [or_assoc]
  refine ⟨r2, h.safeW.mono hsub, ⟨?_, ?_, ?_⟩, sd2, ?_, ?_, (fun _ _ _ h => nomatch h), ?_, fun _ => hlen, ?_⟩
  · intro s' a' b' hm
    rcases (hmem _).1 hm with hm | hm | hm
    · obtain ⟨x, y, z⟩ := h.safe.ids _ _ _ hm
      exact ⟨x, fun k hk hk' => (hmem _).2 (.inl (y k hk hk')), fun ty ht => hsub _ (z ty ht)⟩
    · simp only [Op.delIds.injEq] at hm
      obtain ⟨rfl, rfl, rfl⟩ := hm
      refine ⟨ho, fun k hk hk' => (hmem _).2 (.inl (h.handle k (hin k hk hk') (ho k hk hk'))), ?_⟩
      intro ty ht
      have : ty = 0 ∨ ty = 1 ∨ ty = 2 := by omega
      rcases this with rfl | rfl | rfl <;> simp
    · cases hm
  · intro s' a' b' hm
    rcases (hmem _).1 hm with hm | hm | hm
    · exact h.safe.conns _ _ _ hm
    · cases hm
    · simp only [Op.delConns.injEq] at hm
      obtain ⟨rfl, rfl, rfl⟩ := hm
      exact ho
  · intro r hm
    rcases (hmem _).1 hm with hm | hm | hm
    · exact h.safe.handles _ hm
    · cases hm
    · cases hm
  · intro k hk hk'; exact (hmem _).2 (.inl (h.handle k hk hk'))
  · intro k hk hk'
    left
    rcases h.covered k hk hk' with ⟨s', a', b', h1, h2, h3⟩ | ⟨s', a', b', h1, h2⟩
    · exact ⟨s', a', b', (hmem _).2 (.inl h1), (hmem _).2 (.inl h2), h3⟩
    · rw [hr] at h1
      cases h1
      exact ⟨sh, a, b + 1, (hmem _).2 (.inr (.inl rfl)), (hmem _).2 (.inr (.inr rfl)), h2⟩
  · intro r hm
    rcases (hmem _).1 hm with hm | hm | hm
    · exact h.roots r hm
    · cases hm
    · cases hm
  · intro db hdb
    simp only [Loop.deleteRange, List.mem_cons] at hdb
    rcases hdb with rfl | rfl | rfl | hdb
    · exact ⟨_, _, r2, h.safeW.mono hsub, sd2⟩
    · exact ⟨_, _, r1, h.safeW.mono (by intro x hx; simp [hx]), sd1⟩
    · exact ⟨_, _, r0, h.safeW.mono (by intro x hx; simp [hx]), sd0⟩
    · exact h.trace db hdb

theorem inv_flush (p : Params) (db0 : Db) (done : List Key) (l : Loop) (W D) (h : Inv p db0 done l W D) :
    Inv p db0 done l.flush (W ++ l.batch) D := by
  have hr := reached_write _ _ _ _ h.reached l.batch
  refine ⟨hr, h.safe, ?_, h.safeD, ?_, ?_, h.range, ?_, fun h => absurd rfl h, ?_⟩
  · simpa [Loop.flush] using h.safe
  · simpa [Loop.flush] using h.handle
  · simpa [Loop.flush] using h.covered
  · simpa [Loop.flush] using h.roots
  · intro db hdb
    simp only [Loop.flush, List.mem_cons] at hdb
    rcases hdb with rfl | hdb
    · exact ⟨_, _, hr, h.safe, h.safeD⟩
    · exact h.trace db hdb

theorem inv_keep (p : Params) (db0 : Db) (done : List Key) (l : Loop) (W D) (h : Inv p db0 done l W D) :
    ∃ D', Inv p db0 done l.keep W D' ∧ l.keep.range = none := by
  unfold Loop.keep
  cases hr : l.range with
  | none => exact ⟨D, h, hr⟩
  | some x =>
    obtain ⟨sh, a, b⟩ := x
    exact ⟨_, inv_deleteRange p db0 done l W D h sh a b hr none rfl (l.len + 1) (Nat.succ_pos _), rfl⟩

/-- The loop sees the flags of the start. -/
theorem live_keeps (p : Params) (db0 : Db) (done : List Key) (l : Loop) (W D) (h : Inv p db0 done l W D) (k : Key)
    (hk : ∀ j ∈ done, j.root ≠ k.root) : keeps p l.db k = keeps p db0 k := by
  have : get l.db.handles k.root = get db0.handles k.root := by
    apply (h.reached.handles k.root).2
    intro hm
    obtain ⟨j, hj, hr⟩ := h.roots k.root (List.mem_append.2 (.inl hm))
    exact hk j hj hr
  unfold keeps flagged
  rw [this]

theorem inv_skip (p : Params) (db0 : Db) (done : List Key) (l : Loop) (W D) (h : Inv p db0 done l W D) (k : Key)
    (hk : keeps p db0 k = true) (hr : l.range = none) : Inv p db0 (done ++ [k]) l W D := by
  refine ⟨h.reached, h.safeW, h.safe, h.safeD, ?_, ?_, ?_, ?_, h.len, h.trace⟩
  · intro j hj hj'
    rcases List.mem_append.1 hj with hj | hj
    · exact h.handle j hj hj'
    · rw [List.mem_singleton.1 hj, hk] at hj'; cases hj'
  · intro j hj hj'
    rcases List.mem_append.1 hj with hj | hj
    · exact h.covered j hj hj'
    · rw [List.mem_singleton.1 hj, hk] at hj'; cases hj'
  · intro sh a b hx; rw [hr] at hx; cases hx
  · intro r hm
    obtain ⟨j, hj, hr⟩ := h.roots r hm
    exact ⟨j, List.mem_append.2 (.inl hj), hr⟩

/-- The loop after an outdated block, before the handle goes into the batch. -/
theorem inv_extend (p : Params) (db0 : Db) (done rest : List Key) (l : Loop) (W D) (h : Inv p db0 done l W D) (k : Key)
    (hids : db0.ids = done ++ k :: rest) (hs : db0.ids.Pairwise Before) (hk : keeps p db0 k = false) :
    ∃ D', Inv p db0 (done ++ [k]) { l.extend k with batch := (l.extend k).batch ++ [.delHandle k.root], len := (l.extend k).len + 1 } W D' := by
  have hkin : k ∈ db0.ids := by rw [hids]; simp
  have hpw : (∀ j ∈ done, Before j k) ∧ (∀ j ∈ rest, Before k j) := by
    rw [hids, List.pairwise_append] at hs
    refine ⟨fun j hj => hs.2.2 j hj k (by simp), ?_⟩
    exact (List.pairwise_cons.1 hs.2.1).1
  have hone : ∀ j ∈ db0.ids, inRange k.shard k.seqno (k.seqno + 1) j = true → j = k := by
    intro j hj hjr
    obtain ⟨h1, h2, h3⟩ := mem_inRange.1 hjr
    rw [hids, List.mem_append, List.mem_cons] at hj
    rcases hj with hj | rfl | hj
    · have := hpw.1 j hj; unfold Before at this; omega
    · rfl
    · have := hpw.2 j hj; unfold Before at this; omega
  have hself : inRange k.shard k.seqno (k.seqno + 1) k = true := mem_inRange.2 ⟨rfl, Nat.le_refl _, Nat.lt_succ_self _⟩
  -- from a loop without an open range
  have fresh : ∀ (l' : Loop) D', Inv p db0 done l' W D' → l'.range = none →
      Inv p db0 (done ++ [k]) { l' with range := some (k.shard, k.seqno, k.seqno), batch := l'.batch ++ [.delHandle k.root], len := l'.len + 1 } W D' := by
    intro l' D' h' hr
    have hmem : ∀ o, o ∈ W ++ (l'.batch ++ [Op.delHandle k.root]) ↔ o ∈ W ++ l'.batch ∨ o = .delHandle k.root := by
      intro o; simp [or_assoc]
    refine ⟨h'.reached, h'.safeW, ⟨?_, ?_, ?_⟩, h'.safeD, ?_, ?_, ?_, ?_, fun _ => Nat.succ_pos _, h'.trace⟩
    · intro s a b hm
      rcases (hmem _).1 hm with hm | hm
      · obtain ⟨x, y, z⟩ := h'.safe.ids _ _ _ hm
        exact ⟨x, fun k hk hk' => (hmem _).2 (.inl (y k hk hk')), z⟩
      · cases hm
    · intro s a b hm
      rcases (hmem _).1 hm with hm | hm
      · exact h'.safe.conns _ _ _ hm
      · cases hm
    · intro r hm
      rcases (hmem _).1 hm with hm | hm
      · exact h'.safe.handles _ hm
      · cases hm; exact ⟨k, hkin, rfl, hk⟩
    · intro j hj hj'
      rcases List.mem_append.1 hj with hj | hj
      · exact (hmem _).2 (.inl (h'.handle j hj hj'))
      · rw [List.mem_singleton.1 hj]; exact (hmem _).2 (.inr rfl)
    · intro j hj hj'
      rcases List.mem_append.1 hj with hj | hj
      · rcases h'.covered j hj hj' with ⟨s', a', b', h1, h2, h3⟩ | ⟨s', a', b', h1, h2⟩
        · exact .inl ⟨s', a', b', (hmem _).2 (.inl h1), (hmem _).2 (.inl h2), h3⟩
        · rw [hr] at h1; cases h1
      · rw [List.mem_singleton.1 hj]
        exact .inr ⟨_, _, _, rfl, hself⟩
    · intro s a b hx
      cases hx
      refine ⟨fun j hj hjr => by rw [hone j hj hjr]; exact hk, fun j hj hjr => by rw [hone j hj hjr]; simp, ⟨k, by simp, rfl, rfl⟩, Nat.le_refl _⟩
    · intro r hm
      rcases (hmem _).1 hm with hm | hm
      · obtain ⟨j, hj, hjr⟩ := h'.roots r hm
        exact ⟨j, List.mem_append.2 (.inl hj), hjr⟩
      · cases hm; exact ⟨k, by simp, rfl⟩
  unfold Loop.extend
  cases hr : l.range with
  | none => exact ⟨D, fresh l D h hr⟩
  | some x =>
    obtain ⟨sh, a, b⟩ := x
    dsimp only
    by_cases hsh : sh ≠ k.shard
    · rw [if_pos hsh]
      exact ⟨_, fresh _ _ (inv_deleteRange p db0 done l W D h sh a b hr none rfl (l.len + 1) (Nat.succ_pos _)) rfl |>
        fun hi => ⟨hi.reached, hi.safeW, hi.safe, hi.safeD, hi.handle, hi.covered, hi.range, hi.roots, fun _ => Nat.succ_pos _, hi.trace⟩⟩
    · rw [if_neg hsh]
      have hsh' : sh = k.shard := not_not.1 hsh
      subst hsh'
      obtain ⟨ho, hin, ⟨last, hl1, hl2, hl3⟩, hab⟩ := h.range _ a b hr
      have hlast : last ∈ done := List.mem_of_getLast? hl1
      have hbk := hpw.1 last hlast
      have hlt : b < k.seqno := by unfold Before at hbk; omega
      -- done is sorted and `last` is its last element
      have hle : ∀ j ∈ done, j.shard = k.shard → j.seqno ≤ b := by
        intro j hj hjs
        obtain ⟨init, rfl⟩ : ∃ init, done = init ++ [last] := by
          rcases List.eq_nil_or_concat done with rfl | ⟨init, x, rfl⟩
          · simp at hl1
          · simp at hl1; subst hl1; exact ⟨init, by simp⟩
        rcases List.mem_append.1 hj with hj | hj
        · rw [hids, List.append_assoc, List.pairwise_append] at hs
          have := hs.2.2 j hj last (by simp)
          unfold Before at this; omega
        · rw [List.mem_singleton.1 hj]; omega
      have hrange : ∀ j ∈ db0.ids, inRange k.shard a (k.seqno + 1) j = true → j = k ∨ (j ∈ done ∧ inRange k.shard a (b + 1) j = true) := by
        intro j hj hjr
        obtain ⟨h1, h2, h3⟩ := mem_inRange.1 hjr
        rw [hids, List.mem_append, List.mem_cons] at hj
        rcases hj with hj | rfl | hj
        · have := hle j hj h1
          exact .inr ⟨hj, mem_inRange.2 ⟨h1, h2, by omega⟩⟩
        · exact .inl rfl
        · have := hpw.2 j hj; unfold Before at this; omega
      have hmem : ∀ o, o ∈ W ++ (l.batch ++ [Op.delHandle k.root]) ↔ o ∈ W ++ l.batch ∨ o = .delHandle k.root := by
        intro o; simp [or_assoc]
      refine ⟨D, h.reached, h.safeW, ⟨?_, ?_, ?_⟩, h.safeD, ?_, ?_, ?_, ?_, fun _ => Nat.succ_pos _, h.trace⟩
      · intro s a b hm
        rcases (hmem _).1 hm with hm | hm
        · obtain ⟨x, y, z⟩ := h.safe.ids _ _ _ hm
          exact ⟨x, fun k hk hk' => (hmem _).2 (.inl (y k hk hk')), z⟩
        · cases hm
      · intro s a b hm
        rcases (hmem _).1 hm with hm | hm
        · exact h.safe.conns _ _ _ hm
        · cases hm
      · intro r hm
        rcases (hmem _).1 hm with hm | hm
        · exact h.safe.handles _ hm
        · cases hm; exact ⟨k, hkin, rfl, hk⟩
      · intro j hj hj'
        rcases List.mem_append.1 hj with hj | hj
        · exact (hmem _).2 (.inl (h.handle j hj hj'))
        · rw [List.mem_singleton.1 hj]; exact (hmem _).2 (.inr rfl)
      · intro j hj hj'
        rcases List.mem_append.1 hj with hj | hj
        · rcases h.covered j hj hj' with ⟨s', a', b', h1, h2, h3⟩ | ⟨s', a', b', h1, h2⟩
          · exact .inl ⟨s', a', b', (hmem _).2 (.inl h1), (hmem _).2 (.inl h2), h3⟩
          · rw [hr] at h1; cases h1
            refine .inr ⟨_, _, _, rfl, ?_⟩
            obtain ⟨x, y, z⟩ := mem_inRange.1 h2
            exact mem_inRange.2 ⟨x, y, by omega⟩
        · rw [List.mem_singleton.1 hj]
          exact .inr ⟨_, _, _, rfl, mem_inRange.2 ⟨rfl, by omega, Nat.lt_succ_self _⟩⟩
      · intro s a' b' hx
        cases hx
        refine ⟨fun j hj hjr => ?_, fun j hj hjr => ?_, ⟨k, by simp, rfl, rfl⟩, by omega⟩
        · rcases hrange j hj hjr with rfl | ⟨_, hjr⟩
          · exact hk
          · exact ho j hj hjr
        · rcases hrange j hj hjr with rfl | ⟨hj, _⟩
          · simp
          · simp [hj]
      · intro r hm
        rcases (hmem _).1 hm with hm | hm
        · obtain ⟨j, hj, hjr⟩ := h.roots r hm
          exact ⟨j, List.mem_append.2 (.inl hj), hjr⟩
        · cases hm; exact ⟨k, by simp, rfl⟩

theorem inv_step (p : Params) (db0 : Db) (done rest : List Key) (l : Loop) (W D) (h : Inv p db0 done l W D) (k : Key)
    (hids : db0.ids = done ++ k :: rest) (hs : db0.ids.Pairwise Before) (hn : (db0.ids.map (·.root)).Nodup) :
    ∃ W' D', Inv p db0 (done ++ [k]) (l.step p k) W' D' := by
  have hroot : ∀ j ∈ done, j.root ≠ k.root := by
    intro j hj he
    rw [hids, List.map_append, List.nodup_append] at hn
    exact hn.2.2 _ (List.mem_map_of_mem hj) _ (List.mem_map_of_mem (by simp : k ∈ k :: rest)) he
  unfold Loop.step
  rw [live_keeps p db0 done l W D h k hroot]
  cases hk : keeps p db0 k with
  | true =>
    rw [if_pos rfl]
    obtain ⟨D', h1, h2⟩ := inv_keep p db0 done l W D h
    exact ⟨W, D', inv_skip p db0 done _ W D' h1 k hk h2⟩
  | false =>
    rw [if_neg (by simp)]
    obtain ⟨D', h1⟩ := inv_extend p db0 done rest l W D h k hids hs hk
    unfold Loop.drop
    cases p.maxBatch with
    | none => exact ⟨W, D', h1⟩
    | some m =>
      dsimp only
      split
      · exact ⟨_, _, inv_flush _ _ _ _ _ _ h1⟩
      · exact ⟨W, D', h1⟩

theorem inv_fold (p : Params) (db0 : Db) (hs : db0.ids.Pairwise Before) (hn : (db0.ids.map (·.root)).Nodup) (rest : List Key) :
    ∀ (done : List Key) (l : Loop) W D, db0.ids = done ++ rest → Inv p db0 done l W D →
      ∃ W' D', Inv p db0 db0.ids (rest.foldl (Loop.step p) l) W' D' := by
  induction rest with
  | nil => intro done l W D hids h; rw [hids, List.append_nil]; exact ⟨W, D, h⟩
  | cons k rest ih =>
    intro done l W D hids h
    obtain ⟨W', D', h'⟩ := inv_step p db0 done rest l W D h k hids hs hn
    exact ih (done ++ [k]) _ W' D' (by rw [hids]; simp) h'

theorem inv_run (p : Params) (db : Db) (hs : db.ids.Pairwise Before) (hn : (db.ids.map (·.root)).Nodup) :
    ∃ W D, Inv p db db.ids (run p db) W D ∧ (run p db).range = none ∧ (run p db).batch = [] := by
  have h0 : Inv p db [] ⟨db, none, [], 0, [db]⟩ [] [] := by
    refine ⟨reached_init db, ⟨by simp, by simp, by simp⟩, ⟨by simp, by simp, by simp⟩, by intro _ _ _ _ h; simp at h,
      by simp, by simp, (fun _ _ _ h => nomatch h), by simp, by simp, ?_⟩
    intro d hd
    simp only [List.mem_singleton] at hd
    rw [hd]
    exact ⟨[], [], reached_init db, ⟨by simp, by simp, by simp⟩, by intro _ _ _ _ h; simp at h⟩
  obtain ⟨W, D, h1⟩ := inv_fold p db hs hn db.ids [] _ [] [] rfl h0
  obtain ⟨D', h2, h3⟩ := inv_keep p db db.ids _ W D h1
  unfold run Loop.finish
  dsimp only
  split
  · exact ⟨_, _, inv_flush _ _ _ _ _ _ h2, h3, rfl⟩
  · rename_i hl
    refine ⟨W, D', h2, h3, ?_⟩
    by_contra hb
    exact hl (h2.len hb)

end Tycho.BlocksGc
