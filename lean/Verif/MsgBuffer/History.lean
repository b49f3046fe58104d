import Verif.MsgBuffer.Props

/-! ## Histories of buffers and groups, transactions -/
namespace Tycho.MsgBuffer

open Tycho.Table

/-! ### Well-formedness -/

theorem bufOk_empty : BufOk Buffer.empty := by
  refine ⟨uniq_nil, ?_, ?_, rfl, rfl, ?_⟩ <;> simp [Buffer.empty, allMsgs]

theorem groupOk_empty (v : Nat) : GroupOk v Group.empty := by
  refine ⟨uniq_nil, ?_, ?_, ?_, ?_, ?_, ?_, ?_, ?_, rfl, rfl, ?_, ?_⟩ <;> simp [Group.empty, Table.get]

theorem updateMin_le (o : Option Nat) (ct : Nat) : ∃ t, updateMin o ct = some t ∧ t ≤ ct ∧ ∀ x, o = some x → t ≤ x := by
  unfold updateMin
  cases o with
  | none => exact ⟨ct, rfl, Nat.le_refl _, by simp⟩
  | some x =>
    simp only
    split
    · exact ⟨ct, rfl, Nat.le_refl _, by intro y hy; cases hy; omega⟩
    · exact ⟨x, rfl, by omega, by intro y hy; cases hy; omega⟩

theorem countMsg_msgs (b : Buffer) (m : Msg) : (countMsg b m).msgs = b.msgs ∧ (countMsg b m).tx = b.tx ∧
    (countMsg b m).int = b.int + (if m.isInt then 1 else 0) ∧ (countMsg b m).ext = b.ext + (if m.isExt then 1 else 0) := by
  unfold countMsg Msg.isExt Msg.isInt
  cases m.kind <;> simp

/-- The bound of chain times with one more message. -/
theorem countMsg_min {b : Buffer} {m m' : Msg} {ct : Nat} (h : m' = m ∨ ∃ t, b.minExt = some t ∧ t ≤ ct) (hk : m'.kind = .ext ct) :
    ∃ t, (countMsg b m).minExt = some t ∧ t ≤ ct := by
  unfold countMsg
  cases hm : m.kind with
  | int k =>
    rcases h with rfl | h
    · rw [hk] at hm; cases hm
    · exact h
  | ext c =>
    obtain ⟨t, h1, h2, h3⟩ := updateMin_le b.minExt c
    refine ⟨t, h1, ?_⟩
    rcases h with rfl | ⟨x, hx, hle⟩
    · rw [hk] at hm; cases hm; exact h2
    · exact Nat.le_trans (h3 x hx) hle

theorem addMessage_ok {b : Buffer} (h : BufOk b) (m : Msg) : BufOk (addMessage b m) := by
  obtain ⟨c1, c2, c3, c4⟩ := countMsg_msgs b m
  unfold addMessage
  simp only
  cases hg : get (countMsg b m).msgs m.dst with
  | none =>
    simp only
    rw [c1] at hg
    have hall : allMsgs ((countMsg b m).msgs ++ [(m.dst, [m])]) = allMsgs b.msgs ++ [m] := by rw [c1]; simp [allMsgs]
    refine ⟨?_, ?_, ?_, ?_, ?_, ?_⟩
    · show Uniq ((countMsg b m).msgs ++ [_])
      rw [c1]
      have := h.uniq
      unfold Uniq at this ⊢
      rw [List.map_append, List.nodup_append]
      refine ⟨this, by simp, ?_⟩
      intro x hx y hy
      simp at hy
      rintro rfl
      rw [hy] at hx
      exact (get_eq_none_iff b.msgs m.dst).1 hg hx
    · intro e he
      have he' : e ∈ b.msgs ++ [(m.dst, [m])] := by rw [← c1]; exact he
      rcases List.mem_append.1 he' with h' | h'
      · exact h.nonempty e h'
      · simp at h'; rw [h']; simp
    · intro e he
      have he' : e ∈ b.msgs ++ [(m.dst, [m])] := by rw [← c1]; exact he
      rcases List.mem_append.1 he' with h' | h'
      · exact h.dst e h'
      · simp at h'; rw [h']; simp
    · show (countMsg b m).int = (allMsgs _).countP _
      rw [hall, c3, h.int, List.countP_append]; simp [List.countP_cons]
    · show (countMsg b m).ext = (allMsgs _).countP _
      rw [hall, c4, h.ext, List.countP_append]; simp [List.countP_cons]
    · intro m' hm' ct hk
      have hm2 : m' ∈ allMsgs b.msgs ++ [m] := by rw [← hall]; exact hm'
      apply countMsg_min ?_ hk
      rcases List.mem_append.1 hm2 with h' | h'
      · exact Or.inr (h.minExt m' h' ct hk)
      · exact Or.inl (by simpa using h')
  | some l =>
    simp only
    rw [c1] at hg
    have hmsgs : (backup (countMsg b m) m.dst l).msgs = b.msgs := by rw [backup_msgs, c1]
    have hcp := fun P => countP_setMsgs P h.uniq hg (l ++ [m])
    have hmem : ∀ e ∈ setMsgs b.msgs m.dst (l ++ [m]), e = (m.dst, l ++ [m]) ∨ e ∈ b.msgs := by
      intro e he
      obtain ⟨e0, h0, he0⟩ := List.mem_map.1 he
      split at he0
      · exact Or.inl he0.symm
      · exact Or.inr (he0 ▸ h0)
    rw [hmsgs]
    refine ⟨?_, ?_, ?_, ?_, ?_, ?_⟩
    · show Uniq (setMsgs _ _ _)
      unfold Uniq; rw [keys_setMsgs]; exact h.uniq
    · intro e he
      rcases hmem e he with h' | h'
      · rw [h']; simp
      · exact h.nonempty e h'
    · intro e he x hx
      rcases hmem e he with h' | h'
      · rw [h'] at hx ⊢
        rcases List.mem_append.1 hx with hx | hx
        · exact h.dst _ (mem_of_get _ _ _ hg) x hx
        · simp at hx; rw [hx]
      · exact h.dst e h' x hx
    · have := hcp Msg.isInt
      show (backup (countMsg b m) m.dst l).int = (allMsgs (setMsgs b.msgs m.dst (l ++ [m]))).countP _
      rw [backup_int, c3, h.int]
      rw [List.countP_append, List.countP_singleton] at this
      omega
    · have := hcp Msg.isExt
      show (backup (countMsg b m) m.dst l).ext = (allMsgs (setMsgs b.msgs m.dst (l ++ [m]))).countP _
      rw [backup_ext, c4, h.ext]
      rw [List.countP_append, List.countP_singleton] at this
      omega
    · intro m' hm' ct hk
      show ∃ t, (backup (countMsg b m) m.dst l).minExt = some t ∧ _
      rw [backup_minExt]
      apply countMsg_min ?_ hk
      obtain ⟨e, he, hme⟩ := List.mem_flatMap.1 hm'
      rcases hmem e he with h' | h'
      · rw [h'] at hme
        rcases List.mem_append.1 hme with hx | hx
        · exact Or.inr (h.minExt m' (List.mem_flatMap.2 ⟨_, mem_of_get _ _ _ hg, hx⟩) ct hk)
        · exact Or.inl (by simpa using hx)
      · exact Or.inr (h.minExt m' (List.mem_flatMap.2 ⟨e, h', hme⟩) ct hk)

theorem foldl_removeOne (l : List (Acc × List Msg)) (b : Buffer) :
    (l.foldl removeOne b).msgs = b.msgs ∧ (l.foldl removeOne b).int = b.int - (allMsgs l).length ∧ (l.foldl removeOne b).ext = b.ext ∧
      (l.foldl removeOne b).minExt = b.minExt := by
  induction l generalizing b with
  | nil => simp [allMsgs]
  | cons e l ih =>
    obtain ⟨h1, h2, h3, h4⟩ := ih (removeOne b e)
    rw [List.foldl_cons]
    refine ⟨?_, ?_, ?_, ?_⟩
    · rw [h1]; simp [removeOne]
    · rw [h2]; simp [removeOne, allMsgs]; omega
    · rw [h3]; simp [removeOne]
    · rw [h4]; simp [removeOne]

theorem countP_split (P : Msg → Bool) (rm : Acc → Bool) (l : List (Acc × List Msg)) :
    (allMsgs l).countP P = (allMsgs (l.filter (fun e => rm e.1))).countP P + (allMsgs (l.filter (fun e => !rm e.1))).countP P := by
  induction l with
  | nil => rfl
  | cons e l ih =>
    have hc : ∀ t : List (Acc × List Msg), allMsgs (e :: t) = e.2 ++ allMsgs t := fun t => by simp [allMsgs]
    cases he : rm e.1
    · rw [List.filter_cons_of_neg (by simp [he]), List.filter_cons_of_pos (by simp [he]), hc, hc, List.countP_append, List.countP_append, ih]; omega
    · rw [List.filter_cons_of_pos (by simp [he]), List.filter_cons_of_neg (by simp [he]), hc, hc, List.countP_append, List.countP_append, ih]; omega

theorem removeAccounts_ok {b : Buffer} (h : BufOk b) (rm : Acc → Bool) (hi : ∀ e ∈ b.msgs, rm e.1 = true → ∀ m ∈ e.2, m.isInt = true) :
    BufOk (removeAccounts b rm) := by
  obtain ⟨h1, h2, h3, h4⟩ := foldl_removeOne (b.msgs.filter (fun e => rm e.1)) b
  have hint : ∀ m ∈ allMsgs (b.msgs.filter (fun e => rm e.1)), m.isInt = true := by
    intro m hm
    obtain ⟨e, he, hme⟩ := List.mem_flatMap.1 hm
    exact hi e (List.mem_filter.1 he).1 (List.mem_filter.1 he).2 m hme
  have hlen : (allMsgs (b.msgs.filter (fun e => rm e.1))).countP Msg.isInt = (allMsgs (b.msgs.filter (fun e => rm e.1))).length :=
    List.countP_eq_length.2 hint
  have hext : (allMsgs (b.msgs.filter (fun e => rm e.1))).countP Msg.isExt = 0 := by
    rw [List.countP_eq_zero]
    intro m hm
    simp [Msg.isExt, hint m hm]
  unfold removeAccounts
  simp only
  rw [h1]
  refine ⟨?_, ?_, ?_, ?_, ?_, ?_⟩
  · have := h.uniq
    unfold Uniq at this ⊢
    exact this.sublist (List.filter_sublist.map _)
  · intro e he; exact h.nonempty e (List.mem_filter.1 he).1
  · intro e he; exact h.dst e (List.mem_filter.1 he).1
  · show (List.foldl removeOne b _).int = _
    rw [h2, h.int, countP_split Msg.isInt rm, hlen]; simp
  · show (List.foldl removeOne b _).ext = _
    rw [h3, h.ext, countP_split Msg.isExt rm, hext]; simp
  · intro m hm ct hk
    show ∃ t, (List.foldl removeOne b _).minExt = some t ∧ _
    rw [h4]
    obtain ⟨e, he, hme⟩ := List.mem_flatMap.1 hm
    exact h.minExt m (List.mem_flatMap.2 ⟨e, (List.mem_filter.1 he).1, hme⟩) ct hk

/-- A message goes behind the messages of its account; the account keeps its place in the buffer, or is the last one if it is new. -/
theorem addMessage_appends {b : Buffer} (m : Msg) :
    (∀ a, msgsOf (addMessage b m).msgs a = if a = m.dst then msgsOf b.msgs a ++ [m] else msgsOf b.msgs a) ∧
    (addMessage b m).msgs.map (·.1) = if m.dst ∈ b.msgs.map (·.1) then b.msgs.map (·.1) else b.msgs.map (·.1) ++ [m.dst] := by
  obtain ⟨c1, _⟩ := countMsg_msgs b m
  unfold addMessage
  simp only
  cases hg : get (countMsg b m).msgs m.dst with
  | none =>
    simp only
    rw [c1] at hg ⊢
    have hni := (get_eq_none_iff b.msgs m.dst).1 hg
    rw [if_neg hni]
    refine ⟨?_, by simp⟩
    intro a
    have happ : ∀ (l : List (Acc × List Msg)), m.dst ∉ l.map (·.1) → get (l ++ [(m.dst, [m])]) a = if a = m.dst then some [m] else get l a := by
      intro l
      induction l with
      | nil =>
        intro _
        simp only [List.nil_append, Table.get]
        by_cases h : a = m.dst
        · rw [if_pos h.symm, if_pos h]
        · rw [if_neg (fun e => h e.symm), if_neg h]
      | cons e l ih =>
        intro hl
        simp only [List.map_cons, List.mem_cons, not_or] at hl
        simp only [List.cons_append, Table.get]
        by_cases h : e.1 = a
        · rw [if_pos h, if_neg (by rw [← h]; exact fun x => hl.1 x.symm), if_pos h]
        · rw [if_neg h, if_neg h]; exact ih hl.2
    unfold msgsOf
    rw [happ _ hni]
    split
    · rename_i h; rw [h, hg]; rfl
    · rfl
  | some l =>
    simp only
    rw [backup_msgs]
    rw [c1] at hg ⊢
    rw [keys_setMsgs, if_pos (mem_keys_of_get hg)]
    refine ⟨?_, rfl⟩
    intro a
    rw [msgsOf_setMsgs _ _ _ _ _ hg]
    split
    · rename_i h; rw [h, msgsOf_some hg]
    · rfl

/-- Removing accounts drops exactly their messages. -/
theorem removeAccounts_drops {b : Buffer} (hu : Uniq b.msgs) (rm : Acc → Bool) (a : Acc) :
    msgsOf (removeAccounts b rm).msgs a = if rm a then [] else msgsOf b.msgs a := by
  have h3 := (foldl_removeOne (b.msgs.filter (fun e => rm e.1)) b).1
  unfold removeAccounts
  simp only
  rw [h3]
  have : b.msgs.filter (fun e => !rm e.1) = del b.msgs rm := by unfold del; congr 1
  rw [this]
  unfold msgsOf
  rw [get_del]
  split <;> rfl

/-! ### Snapshots -/

/-- A transaction in `b` that can restore `b0`. -/
def Snap (b0 b : Buffer) : Prop := ∃ t, b.tx = some t ∧ t.int = b0.int ∧ t.ext = b0.ext ∧ t.minExt = b0.minExt ∧ t.order = b0.msgs.map (·.1) ∧
  ∀ e ∈ b0.msgs, get t.backups e.1 = some e.2 ∨ (get t.backups e.1 = none ∧ get b.msgs e.1 = some e.2)

theorem mapM_restore (l : List (Acc × List Msg)) (f : Acc → Option (Acc × List Msg)) (h : ∀ e ∈ l, f e.1 = some e) :
    (l.map (·.1)).mapM f = some l := by
  induction l with
  | nil => rfl
  | cons e l ih =>
    rw [List.map_cons, List.mapM_cons, h e (by simp), ih (fun e he => h e (by simp [he]))]
    rfl

theorem Snap.rollback {b0 b : Buffer} (h : Snap b0 b) (h0 : b0.tx = none) : MsgBuffer.rollback b = some b0 := by
  obtain ⟨t, ht, h1, h2, h3, h4, h5⟩ := h
  unfold MsgBuffer.rollback
  rw [ht]
  simp only
  rw [h4, mapM_restore b0.msgs]
  · simp only [Option.map_some, h1, h2, h3, ← h0]
  · intro e he
    unfold restoreOne
    rcases h5 e he with h | ⟨h, h'⟩
    · rw [h]
    · rw [h, h']; rfl

theorem Snap.begin (b : Buffer) (h : b.tx = none) (hu : Uniq b.msgs) : ∃ b1, MsgBuffer.begin b = some b1 ∧ Snap b b1 ∧ b1.msgs = b.msgs ∧ b1.int = b.int ∧
    b1.ext = b.ext ∧ b1.minExt = b.minExt := by
  unfold MsgBuffer.begin
  rw [h]
  refine ⟨_, rfl, ⟨_, rfl, rfl, rfl, rfl, rfl, ?_⟩, rfl, rfl, rfl, rfl⟩
  intro e he
  exact Or.inr ⟨rfl, get_of_mem _ hu _ _ he⟩

/-- A backup, then any change of this account. -/
theorem Snap.touch {b0 b b' : Buffer} (h : Snap b0 b) {a : Acc} {l : List Msg} (hg : get b.msgs a = some l) (htx : b'.tx = (backup b a l).tx)
    (hother : ∀ x, x ≠ a → get b'.msgs x = get b.msgs x) : Snap b0 b' := by
  obtain ⟨t, ht, h1, h2, h3, h4, h5⟩ := h
  unfold backup at htx
  rw [ht] at htx
  simp only at htx
  cases hb : get t.backups a with
  | some v =>
    rw [hb] at htx
    refine ⟨t, htx.trans ht, h1, h2, h3, h4, ?_⟩
    intro e he
    rcases h5 e he with h | ⟨h, h'⟩
    · exact Or.inl h
    · right
      refine ⟨h, ?_⟩
      rw [hother e.1 ?_]
      · exact h'
      · intro hx; rw [hx, hb] at h; cases h
  | none =>
    rw [hb] at htx
    refine ⟨_, htx, h1, h2, h3, h4, ?_⟩
    intro e he
    show get (put t.backups a l) e.1 = _ ∨ (get (put t.backups a l) e.1 = none ∧ _)
    rw [get_put]
    by_cases hx : e.1 = a
    · rw [if_pos hx]
      left
      rcases h5 e he with h | ⟨h, h'⟩
      · rw [hx, hb] at h; cases h
      · rw [hx, hg] at h'; exact h'
    · rw [if_neg hx, hother e.1 hx]
      exact h5 e he

theorem Snap.same {b0 b b' : Buffer} (h : Snap b0 b) (htx : b'.tx = b.tx) (hm : ∀ e ∈ b0.msgs, get b.msgs e.1 = some e.2 → get b'.msgs e.1 = some e.2) : Snap b0 b' := by
  obtain ⟨t, ht, h1, h2, h3, h4, h5⟩ := h
  refine ⟨t, htx.trans ht, h1, h2, h3, h4, ?_⟩
  intro e he
  rcases h5 e he with h | ⟨h, h'⟩
  · exact Or.inl h
  · exact Or.inr ⟨h, hm e he h'⟩

theorem get_append_old (l : List (Acc × List Msg)) (e : Acc × List Msg) (x : Acc) (v : List Msg) (h : get l x = some v) : get (l ++ [e]) x = some v := by
  induction l with
  | nil => cases h
  | cons y l ih =>
    simp only [List.cons_append, Table.get] at h ⊢
    split
    · rename_i hh; rw [if_pos hh] at h; exact h
    · rename_i hh; rw [if_neg hh] at h; exact ih h

theorem Snap.add {b0 b : Buffer} (h : Snap b0 b) (m : Msg) : Snap b0 (addMessage b m) := by
  obtain ⟨c1, c2, _, _⟩ := countMsg_msgs b m
  have hc : Snap b0 (countMsg b m) := h.same c2 (fun e _ he => by rw [c1]; exact he)
  unfold addMessage
  simp only
  cases hg : get (countMsg b m).msgs m.dst with
  | none =>
    exact hc.same rfl (fun e _ he => get_append_old _ _ _ _ he)
  | some l =>
    refine hc.touch hg rfl ?_
    intro x hx
    show get (setMsgs (backup (countMsg b m) m.dst l).msgs m.dst _) x = _
    rw [get_setMsgs, if_neg hx, backup_msgs]

theorem Snap.removeFold {b0 b : Buffer} (l : List (Acc × List Msg)) (h : Snap b0 b) (hl : ∀ e ∈ l, get b.msgs e.1 = some e.2) :
    Snap b0 (l.foldl removeOne b) ∧ ∀ e ∈ l, ∃ t v, (l.foldl removeOne b).tx = some t ∧ get t.backups e.1 = some v := by
  -- backups are never dropped
  have keep : ∀ (l : List (Acc × List Msg)) (b : Buffer) (a : Acc), (∃ t v, b.tx = some t ∧ get t.backups a = some v) →
      ∃ t v, (l.foldl removeOne b).tx = some t ∧ get t.backups a = some v := by
    intro l
    induction l with
    | nil => intro b a h; exact h
    | cons e l ih =>
      rintro b a ⟨t, v, ht, hv⟩
      apply ih
      show ∃ t v, (backup b e.1 e.2).tx = some t ∧ _
      unfold backup
      rw [ht]
      simp only
      cases hb : get t.backups e.1 with
      | some w => exact ⟨t, v, ht, hv⟩
      | none =>
        refine ⟨_, v, rfl, ?_⟩
        rw [get_put, if_neg]
        · exact hv
        · intro he; rw [he, hb] at hv; cases hv
  induction l generalizing b with
  | nil => exact ⟨h, by simp⟩
  | cons e l ih =>
    have hg := hl e (by simp)
    have h1 : Snap b0 (removeOne b e) := by
      refine h.touch hg rfl (fun x _ => ?_)
      show get (backup b e.1 e.2).msgs x = _
      rw [backup_msgs]
    obtain ⟨i1, i2⟩ := ih h1 (fun e' he' => by
      show get (backup b e.1 e.2).msgs e'.1 = _
      rw [backup_msgs]; exact hl e' (by simp [he']))
    refine ⟨i1, ?_⟩
    intro e' he'
    rcases List.mem_cons.1 he' with rfl | he'
    · refine keep l (removeOne b e') e'.1 ?_
      obtain ⟨t, ht, _⟩ := h
      show ∃ t v, (backup b e'.1 e'.2).tx = some t ∧ _
      unfold backup
      rw [ht]
      simp only
      cases hb : get t.backups e'.1 with
      | some w => exact ⟨t, w, ht, hb⟩
      | none => exact ⟨_, e'.2, rfl, by rw [get_put, if_pos rfl]⟩
    · exact i2 e' he'

theorem get_filter_keep {l : List (Acc × List Msg)} (hu : Uniq l) (q : Acc × List Msg → Bool) {x : Acc} {v : List Msg} (h : get l x = some v) (hq : q (x, v) = true) :
    get (l.filter q) x = some v := by
  apply get_of_mem
  · unfold Uniq at hu ⊢
    exact hu.sublist (List.filter_sublist.map _)
  · exact List.mem_filter.2 ⟨mem_of_get _ _ _ h, hq⟩

theorem Snap.remove {b0 b : Buffer} (h : Snap b0 b) (hu : Uniq b.msgs) (rm : Acc → Bool) : Snap b0 (removeAccounts b rm) := by
  have hmem : ∀ e ∈ b.msgs.filter (fun e => rm e.1), get b.msgs e.1 = some e.2 := fun e he => get_of_mem _ hu _ _ (List.mem_filter.1 he).1
  obtain ⟨h1, h2⟩ := h.removeFold _ hmem
  have h3 := (foldl_removeOne (b.msgs.filter (fun e => rm e.1)) b).1
  unfold removeAccounts
  simp only
  obtain ⟨t, ht, e1, e2, e3, e4, e5⟩ := h1
  refine ⟨t, ht, e1, e2, e3, e4, ?_⟩
  intro e he
  rcases e5 e he with hb | ⟨hb, hg⟩
  · exact Or.inl hb
  · right
    refine ⟨hb, ?_⟩
    rw [h3] at hg
    have hrm : rm e.1 = false := by
      cases hr : rm e.1 with
      | false => rfl
      | true =>
        exfalso
        obtain ⟨t', v, ht', hv⟩ := h2 e (List.mem_filter.2 ⟨mem_of_get _ _ _ hg, hr⟩)
        rw [ht] at ht'; cases ht'
        rw [hb] at hv; cases hv
    show get ((List.foldl removeOne b _).msgs.filter _) e.1 = _
    rw [h3]
    exact get_filter_keep hu _ hg (by simp [hrm])

theorem Snap.step {p : Params} {b0 : Buffer} {st st' : Fill} (h : Snap b0 st.buf) (hm : Micro p st st') : Snap b0 st'.buf := by
  cases hm with
  | skip a =>
    rcases trySkip_cases p st a with he | ⟨l, hl, he⟩
    · rw [he]; exact h
    · rw [he]
      refine h.touch hl rfl (fun x hx => ?_)
      show get (setMsgs _ _ _) x = _
      rw [get_setMsgs, if_neg hx]
  | mark a hc => exact h
  | move a sid old s hs ha hsk hc ho =>
    rcases moveAcc_cases p st a sid old s with ⟨he, _⟩ | ⟨l, hl, h0, he⟩ | ⟨pre, rest, hg, hle, hlt, hc⟩
    · rw [he]; exact h
    · rw [he]
      exact h.touch hl rfl (fun x _ => by simp)
    · rcases hc with ⟨_, he⟩ | ⟨_, he⟩ <;>
      · rw [he]
        refine h.touch hg rfl (fun x hx => ?_)
        show get (setMsgs _ _ _) x = _
        rw [get_setMsgs, if_neg hx]
  | «open» sid => exact h
  | close sid s hs h0 => exact h

theorem Snap.steps {p : Params} {b0 : Buffer} {st st' : Fill} (h : Snap b0 st.buf) (hm : Steps p st st') : Snap b0 st'.buf := by
  induction hm with
  | refl => exact h
  | tail _ hm ih => exact ih.step hm

theorem backup_isNone (b : Buffer) (a : Acc) (l : List Msg) (h : b.tx = none) : (backup b a l).tx = none := by
  unfold backup; rw [h]; exact h

theorem step_tx_none {p : Params} {st st' : Fill} (h : st.buf.tx = none) (hm : Micro p st st') : st'.buf.tx = none := by
  cases hm with
  | skip a =>
    rcases trySkip_cases p st a with he | ⟨l, hl, he⟩
    · rw [he]; exact h
    · rw [he]; exact backup_isNone _ _ _ h
  | mark a hc => exact h
  | move a sid old s hs ha hsk hc ho =>
    rcases moveAcc_cases p st a sid old s with ⟨he, _⟩ | ⟨l, hl, h0, he⟩ | ⟨pre, rest, hg, hle, hlt, hc⟩
    · rw [he]; exact h
    · rw [he]; exact backup_isNone _ _ _ h
    · rcases hc with ⟨_, he⟩ | ⟨_, he⟩ <;>
      · rw [he]; exact backup_isNone _ _ _ h
  | «open» sid => exact h
  | close sid s hs h0 => exact h

theorem steps_tx_none {p : Params} {st st' : Fill} (h : st.buf.tx = none) (hm : Steps p st st') : st'.buf.tx = none := by
  induction hm with
  | refl => exact h
  | tail _ hm ih => exact step_tx_none ih hm

theorem add_tx_none {b : Buffer} (h : b.tx = none) (m : Msg) : (addMessage b m).tx = none := by
  have c2 := (countMsg_msgs b m).2.1
  unfold addMessage
  simp only
  split
  · exact c2.trans h
  · exact backup_isNone _ _ _ (c2.trans h)

theorem remove_tx_none {b : Buffer} (h : b.tx = none) (rm : Acc → Bool) : (removeAccounts b rm).tx = none := by
  unfold removeAccounts
  simp only
  generalize b.msgs.filter (fun e => rm e.1) = l
  induction l generalizing b with
  | nil => exact h
  | cons e l ih => exact ih (backup_isNone _ _ _ h)

/-! ### All histories -/

/-- A buffer at any time: well formed, and an open transaction can be rolled back to a well-formed buffer. -/
structure BOk (b : Buffer) : Prop where
  ok : BufOk b
  tx : b.tx = none ∨ ∃ b0, BufOk b0 ∧ b0.tx = none ∧ Snap b0 b

structure WOk (v : Nat) (w : World) : Prop where
  bufs : ∀ i, BOk (w.bufs i)
  grp : GroupOk v w.grp

theorem init_ok (v : Nat) : WOk v World.init := ⟨fun _ => ⟨bufOk_empty, Or.inl rfl⟩, groupOk_empty v⟩

theorem WOk.set {v : Nat} {w : World} (h : WOk v w) (i : Nat) {b : Buffer} (hb : BOk b) : WOk v (setBuf w i b) := by
  refine ⟨fun j => ?_, h.grp⟩
  show BOk (if j = i then b else w.bufs j)
  split
  · exact hb
  · exact h.bufs j

theorem Snap.fill {p : Params} (hv : 0 < p.vert) {b0 b : Buffer} {g : Group} (h : Snap b0 b) (h0 : BufOk b0) (hb : BufOk b) (hg : GroupOk p.vert g)
    (n : Nat) (sk : List Acc) {r : FillResult} (hr : MsgBuffer.fill p n b g sk = some r) : Snap b0 r.buf := by
  obtain ⟨r', h1, hF, st, hs, he⟩ := fill_run hv n sk hb hg
  rw [hr] at h1; cases h1
  have hsn : Snap b0 st.buf := Snap.steps (st := start b g sk) h hs
  have hk := (start_all sk hb hg).steps hb.uniq hs
  have hu : Uniq st.buf.msgs := by unfold Uniq; rw [hk.b.keys]; exact hb.uniq
  rw [he]
  refine hsn.same rfl ?_
  intro e hm hg'
  refine get_filter_keep hu _ hg' ?_
  have := h0.nonempty e hm
  simpa using this

/-- Every operation callers may do succeeds and keeps everything well formed. -/
theorem run_ok {v : Nat} (hv : 0 < v) {w : World} (h : WOk v w) {op : Op} (hl : Legal v w op) : ∃ w', run w op = some w' ∧ WOk v w' := by
  cases op with
  | add i m =>
    refine ⟨_, rfl, h.set i ⟨addMessage_ok (h.bufs i).ok m, ?_⟩⟩
    rcases (h.bufs i).tx with ht | ⟨b0, h1, h2, h3⟩
    · exact Or.inl (add_tx_none ht m)
    · exact Or.inr ⟨b0, h1, h2, h3.add m⟩
  | remove i rm =>
    refine ⟨_, rfl, h.set i ⟨removeAccounts_ok (h.bufs i).ok rm hl, ?_⟩⟩
    rcases (h.bufs i).tx with ht | ⟨b0, h1, h2, h3⟩
    · exact Or.inl (remove_tx_none ht rm)
    · exact Or.inr ⟨b0, h1, h2, h3.remove (h.bufs i).ok.uniq rm⟩
  | fill i p n sk =>
    have hpv : p.vert = v := hl
    subst hpv
    obtain ⟨r, h1, hF, st, hs, he⟩ := fill_run hv n sk (h.bufs i).ok h.grp
    have e : run w (.fill i p n sk) = some { setBuf w i r.buf with grp := r.group } := by
      show (MsgBuffer.fill p n (w.bufs i) w.grp sk).map _ = _
      rw [h1]; rfl
    have hbok : BOk r.buf := by
      refine ⟨hF.buf, ?_⟩
      rcases (h.bufs i).tx with ht | ⟨b0, g1, g2, g3⟩
      · left; rw [he]; exact steps_tx_none (st := start (w.bufs i) w.grp sk) ht hs
      · exact Or.inr ⟨b0, g1, g2, g3.fill hv g1 (h.bufs i).ok h.grp n sk h1⟩
    exact ⟨_, e, (h.set i hbok).bufs, hF.group⟩
  | begin i =>
    obtain ⟨b1, e, hs, h1, h2, h3, h4⟩ := Snap.begin (w.bufs i) hl (h.bufs i).ok.uniq
    refine ⟨setBuf w i b1, ?_, h.set i ⟨?_, Or.inr ⟨w.bufs i, (h.bufs i).ok, hl, hs⟩⟩⟩
    · show (MsgBuffer.begin (w.bufs i)).map _ = _
      rw [e]; rfl
    · have := (h.bufs i).ok
      exact ⟨by rw [h1]; exact this.uniq, by rw [h1]; exact this.nonempty, by rw [h1]; exact this.dst, by rw [h1, h2]; exact this.int,
        by rw [h1, h3]; exact this.ext, by rw [h1, h4]; exact this.minExt⟩
  | commit i =>
    obtain ⟨t, ht⟩ := Option.isSome_iff_exists.1 hl
    refine ⟨setBuf w i { w.bufs i with tx := none }, ?_, h.set i ⟨?_, Or.inl rfl⟩⟩
    · show (MsgBuffer.commit (w.bufs i)).map _ = _
      unfold MsgBuffer.commit; rw [ht]; rfl
    · have := (h.bufs i).ok
      exact ⟨this.uniq, this.nonempty, this.dst, this.int, this.ext, this.minExt⟩
  | rollback i =>
    obtain ⟨t, ht⟩ := Option.isSome_iff_exists.1 hl
    rcases (h.bufs i).tx with hn | ⟨b0, h1, h2, h3⟩
    · rw [ht] at hn; cases hn
    · refine ⟨setBuf w i b0, ?_, h.set i ⟨h1, Or.inl h2⟩⟩
      show (MsgBuffer.rollback (w.bufs i)).map _ = _
      rw [h3.rollback h2]; rfl
  | next => exact ⟨_, rfl, h.bufs, groupOk_empty v⟩

/-- Any history of calls from new buffers and a new group runs without a panic, and buffers and group are well formed at its end. -/
theorem history_ok {v : Nat} (hv : 0 < v) (ops : List Op) {w : World} (h : WOk v w) (hl : LegalAll v w ops) : ∃ w', runs w ops = some w' ∧ WOk v w' := by
  induction ops generalizing w with
  | nil => exact ⟨w, rfl, h⟩
  | cons op ops ih =>
    obtain ⟨w1, e1, h1⟩ := run_ok hv h hl.1
    obtain ⟨w2, e2, h2⟩ := ih h1 (hl.2 w1 e1)
    exact ⟨w2, by simp only [runs, e1, Option.bind_some, e2], h2⟩

theorem history_from_init {v : Nat} (hv : 0 < v) (ops : List Op) (hl : LegalAll v World.init ops) :
    ∃ w, runs World.init ops = some w ∧ (∀ i, BufOk (w.bufs i)) ∧ GroupOk v w.grp := by
  obtain ⟨w, e, h⟩ := history_ok hv ops (init_ok v) hl
  exact ⟨w, e, fun i => (h.bufs i).ok, h.grp⟩

/-- Operations other than the end of the transaction keep the snapshot. -/
theorem run_snap {v : Nat} (hv : 0 < v) {w w' : World} (h : WOk v w) {op : Op} (hl : Legal v w op) {i : Nat} (hno : ¬ op.isTx i) {b0 : Buffer}
    (h0 : BufOk b0) (hs : Snap b0 (w.bufs i)) (hr : run w op = some w') : Snap b0 (w'.bufs i) := by
  have other : ∀ (j : Nat) (b : Buffer), (j = i → Snap b0 b) → Snap b0 ((setBuf w j b).bufs i) := by
    intro j b hb
    show Snap b0 (if i = j then b else w.bufs i)
    split
    · rename_i he; exact hb he.symm
    · exact hs
  cases op with
  | add j m =>
    cases hr
    exact other j _ (fun he => by rw [he]; exact hs.add m)
  | remove j rm =>
    cases hr
    exact other j _ (fun he => by rw [he]; exact hs.remove (h.bufs i).ok.uniq rm)
  | fill j p n sk =>
    have hpv : p.vert = v := hl
    subst hpv
    cases hf : MsgBuffer.fill p n (w.bufs j) w.grp sk with
    | none => simp only [run, hf] at hr; cases hr
    | some r =>
      simp only [run, hf, Option.map_some, Option.some.injEq] at hr
      rw [← hr]
      refine other j r.buf (fun he => ?_)
      subst he
      exact hs.fill hv h0 (h.bufs j).ok h.grp n sk hf
  | begin j =>
    cases hf : MsgBuffer.begin (w.bufs j) with
    | none => simp only [run, hf] at hr; cases hr
    | some b => simp only [run, hf, Option.map_some, Option.some.injEq] at hr; rw [← hr]; exact other j b (fun he => absurd he hno)
  | commit j =>
    cases hf : MsgBuffer.commit (w.bufs j) with
    | none => simp only [run, hf] at hr; cases hr
    | some b => simp only [run, hf, Option.map_some, Option.some.injEq] at hr; rw [← hr]; exact other j b (fun he => absurd he hno)
  | rollback j =>
    cases hf : MsgBuffer.rollback (w.bufs j) with
    | none => simp only [run, hf] at hr; cases hr
    | some b => simp only [run, hf, Option.map_some, Option.some.injEq] at hr; rw [← hr]; exact other j b (fun he => absurd he hno)
  | next => cases hr; exact hs

theorem runs_snap {v : Nat} (hv : 0 < v) (ops : List Op) {w : World} (h : WOk v w) (hl : LegalAll v w ops) {i : Nat} (hno : ∀ op ∈ ops, ¬ op.isTx i) {b0 : Buffer}
    (h0 : BufOk b0) (hs : Snap b0 (w.bufs i)) : ∃ w', runs w ops = some w' ∧ Snap b0 (w'.bufs i) := by
  induction ops generalizing w with
  | nil => exact ⟨w, rfl, hs⟩
  | cons op ops ih =>
    obtain ⟨w1, e1, h1⟩ := run_ok hv h hl.1
    obtain ⟨w2, e2, h2⟩ := ih h1 (hl.2 w1 e1) (fun o ho => hno o (by simp [ho])) (run_snap hv h hl.1 (hno op (by simp)) h0 hs e1)
    exact ⟨w2, by simp only [runs, e1, Option.bind_some, e2], h2⟩

/-- A rollback gives back exactly the buffer at the beginning of the transaction: all messages in order, the order of accounts, the
counters. This holds after any history of calls before, and any calls during the transaction. -/
theorem rollback_exact {v : Nat} (hv : 0 < v) (before during : List Op) (i : Nat) (hl : LegalAll v World.init (before ++ .begin i :: during))
    (hno : ∀ op ∈ during, ¬ op.isTx i) :
    ∃ w0 w1 w2, runs World.init before = some w0 ∧ runs w0 (.begin i :: during) = some w1 ∧ run w1 (.rollback i) = some w2 ∧ w2.bufs i = w0.bufs i := by
  have split : ∀ (a : List Op) (w : World), LegalAll v w (a ++ .begin i :: during) → LegalAll v w a ∧ ∀ w', runs w a = some w' → LegalAll v w' (.begin i :: during) := by
    intro a
    induction a with
    | nil => intro w h; exact ⟨trivial, fun w' e => by cases e; exact h⟩
    | cons op a ih =>
      intro w h
      refine ⟨⟨h.1, fun w' e => (ih w' (h.2 w' e)).1⟩, ?_⟩
      intro w' e
      cases hr : run w op with
      | none => simp only [runs, hr] at e; cases e
      | some w1 =>
        simp only [runs, hr, Option.bind_some] at e
        exact (ih w1 (h.2 w1 hr)).2 w' e
  obtain ⟨l1, l2⟩ := split before _ hl
  obtain ⟨w0, e0, h0⟩ := history_ok hv before (init_ok v) l1
  have l0 := l2 w0 e0
  have htx : (w0.bufs i).tx = none := l0.1
  obtain ⟨b1, eb, hs, _⟩ := Snap.begin (w0.bufs i) htx (h0.bufs i).ok.uniq
  have er : run w0 (.begin i) = some (setBuf w0 i b1) := by
    show (MsgBuffer.begin (w0.bufs i)).map _ = _
    rw [eb]; rfl
  obtain ⟨wb, eb', hwb⟩ := run_ok hv h0 l0.1
  rw [er] at eb'; cases eb'
  obtain ⟨w1, e1, hs1⟩ := runs_snap hv during hwb (l0.2 _ er) hno (h0.bufs i).ok (show Snap (w0.bufs i) ((setBuf w0 i b1).bufs i) by
    show Snap _ (if i = i then b1 else _)
    rw [if_pos rfl]; exact hs)
  refine ⟨w0, w1, setBuf w1 i (w0.bufs i), e0, ?_, ?_, ?_⟩
  · simp only [runs, er, Option.bind_some]; exact e1
  · show (MsgBuffer.rollback (w1.bufs i)).map _ = _
    rw [hs1.rollback htx]; rfl
  · show (if i = i then _ else _) = _
    rw [if_pos rfl]

/-- Same calls inside a committed transaction and without a transaction leave the same messages and counters: a commit changes nothing. -/
theorem commit_keeps (b b' : Buffer) (h : MsgBuffer.commit b = some b') :
    b'.tx = none ∧ b'.msgs = b.msgs ∧ b'.int = b.int ∧ b'.ext = b.ext ∧ b'.minExt = b.minExt := by
  unfold MsgBuffer.commit at h
  split at h
  · cases h
  · cases h; exact ⟨rfl, rfl, rfl, rfl, rfl⟩

/-! ### Groups -/

/-- A group that says it is filled has no free slot, and all its slots are full. -/
theorem isFilled_sound {v n : Nat} {g : Group} (hg : GroupOk v g) (h : isFilled g n v = true) :
    n ≤ g.slots.length ∧ ∀ sid s, get g.slots sid = some s → s.count = v := by
  unfold isFilled at h
  split at h
  · cases h
  · rename_i hn
    refine ⟨by omega, ?_⟩
    intro sid s hs
    have hle := hg.vert sid s hs
    rcases Nat.lt_or_ge s.count v with hlt | hge
    · exfalso
      have hi := hg.indexed sid s hs
      rw [List.getD_eq_getElem?_getD] at hi
      cases hx : g.index[s.count]? with
      | none => rw [hx] at hi; cases hi
      | some l =>
        rw [hx] at hi
        have hm : l ∈ g.index.take v := by
          have hlen : s.count < g.index.length := (List.getElem?_eq_some_iff.1 hx).1
          have hlt' : s.count < (g.index.take v).length := by rw [List.length_take]; omega
          have := List.getElem_mem hlt'
          rw [List.getElem_take, (List.getElem?_eq_some_iff.1 hx).2] at this
          exact this
        have := List.all_eq_true.1 h l hm
        have hi' : sid ∈ l := hi
        rw [List.isEmpty_iff] at this
        rw [this] at hi'; cases hi'
    · omega

/-- What `addSlots` does. -/
theorem addSlots_spec (es : List (Nat × Slot)) (g : Group) (next : Nat) (hu : Uniq g.slots) (hfree : ∀ sid s, get g.slots sid = some s → sid < next)
    (hlast : ∀ l, g.last = some l → l < next) :
    let g' := addSlots g next es
    g'.msgs = g.msgs ∧ g'.int = g.int ∧ g'.ext = g.ext ∧ Uniq g'.slots ∧ g'.slots.length = g.slots.length + es.length ∧
      (∀ f : Slot → Nat, (g'.slots.map (fun e => f e.2)).sum = (g.slots.map (fun e => f e.2)).sum + (es.map (fun e => f e.2)).sum) ∧
      (∀ sid s, get g.slots sid = some s → get g'.slots sid = some s) ∧
      (∀ k e, es[k]? = some e → get g'.slots (next + k) = some e.2) ∧
      (∀ sid s, get g'.slots sid = some s → get g.slots sid = some s ∨ ∃ k e, es[k]? = some e ∧ sid = next + k ∧ s = e.2) ∧
      (∀ sid s, get g'.slots sid = some s → (∃ l, g.last = some l ∧ sid ≤ l) ∨ get g.slots sid = none → ∃ l, g'.last = some l ∧ sid ≤ l) ∧
      (∀ n sid, sid ∈ g'.index.getD n [] ↔ sid ∈ g.index.getD n [] ∨ ∃ k e, es[k]? = some e ∧ sid = next + k ∧ n = e.2.count) := by
  induction es generalizing g next with
  | nil =>
    refine ⟨rfl, rfl, rfl, hu, by simp [addSlots], by simp [addSlots], fun _ _ h => h, by simp, fun _ _ h => Or.inl h, ?_, by simp [addSlots]⟩
    intro sid s hs h
    rcases h with h | h
    · exact h
    · have : get g.slots sid = some s := hs
      rw [h] at this; cases this
  | cons e es ih =>
    have hnone : get g.slots next = none := by
      cases h : get g.slots next with
      | none => rfl
      | some s => have := hfree _ _ h; omega
    have ih := ih { g with index := indexAdd g.index e.2.count next, slots := put g.slots next e.2, last := some next } (next + 1)
      (uniq_put _ _ _ hu) (by
        intro sid s hs
        have hs : get (put g.slots next e.2) sid = some s := hs
        rw [get_put] at hs
        split at hs
        · omega
        · have := hfree _ _ hs; omega) (by
        intro l hl
        have hl : some next = some l := hl
        cases hl; omega)
    obtain ⟨i1, i2, i3, i4, i5, i6, i7, i8, i9, i10, i11⟩ := ih
    have hput : (put g.slots next e.2) = (next, e.2) :: g.slots := put_new hnone
    have hge : ∀ x, get (put g.slots next e.2) x = if x = next then some e.2 else get g.slots x := fun x => get_put _ _ _ _
    refine ⟨i1, i2, i3, i4, ?_, ?_, ?_, ?_, ?_, ?_, ?_⟩
    · refine i5.trans ?_
      show (put g.slots next e.2).length + _ = _
      rw [hput]; simp; omega
    · intro f
      refine (i6 f).trans ?_
      show ((put g.slots next e.2).map _).sum + _ = _
      rw [hput]; simp; omega
    · intro sid s hs
      apply i7
      show get (put g.slots next e.2) sid = _
      rw [hge, if_neg]
      · exact hs
      · intro he; rw [he, hnone] at hs; cases hs
    · intro k x hk
      cases k with
      | zero =>
        simp at hk
        subst hk
        apply i7
        show get (put g.slots next e.2) next = _
        rw [hge, if_pos rfl]
      | succ k =>
        have := i8 k x (by simpa using hk)
        rw [show next + (k + 1) = next + 1 + k by omega]
        exact this
    · intro sid s hs
      rcases i9 sid s hs with h | ⟨k, x, h1, h2, h3⟩
      · have h : get (put g.slots next e.2) sid = some s := h
        rw [hge] at h
        split at h
        · right; exact ⟨0, e, rfl, by omega, by cases h; rfl⟩
        · exact Or.inl h
      · right; exact ⟨k + 1, x, by simpa using h1, by omega, h3⟩
    · intro sid s hs h
      apply i10 sid s hs
      by_cases hx : sid = next
      · left; exact ⟨next, rfl, by omega⟩
      · rcases h with ⟨l, hl, hle⟩ | h
        · left; exact ⟨next, rfl, by have := hlast l hl; omega⟩
        · right
          show get (put g.slots next e.2) sid = none
          rw [hge, if_neg hx]; exact h
    · intro n sid
      refine (i11 n sid).trans ?_
      show sid ∈ (indexAdd g.index e.2.count next).getD n [] ∨ _ ↔ _
      rw [mem_indexAdd]
      constructor
      · rintro ((h | ⟨h1, h2⟩) | ⟨k, x, h1, h2, h3⟩)
        · exact Or.inl h
        · right; exact ⟨0, e, rfl, by omega, h1⟩
        · right; exact ⟨k + 1, x, by simpa using h1, by omega, h3⟩
      · rintro (h | ⟨k, x, h1, h2, h3⟩)
        · exact Or.inl (Or.inl h)
        · cases k with
          | zero => simp at h1; subst h1; left; right; exact ⟨h3, by omega⟩
          | succ k => right; exact ⟨k, x, by simpa using h1, by omega, h3⟩

theorem Group.mem_accounts {v : Nat} {g : Group} (hg : GroupOk v g) (a : Acc) : a ∈ g.accounts ↔ g.msgs a ≠ [] := by
  unfold Group.accounts
  rw [List.mem_flatMap]
  constructor
  · rintro ⟨e, he, ha⟩
    exact (hg.nonempty e.1 e.2 (get_of_mem _ hg.uniq _ _ he)).2 a ha
  · intro h
    obtain ⟨sid, s, hs, ha⟩ := hg.cover a h
    exact ⟨(sid, s), mem_of_get _ _ _ hs, ha⟩

/-- Two groups are merged exactly if no account is in both; then the result is well formed, has the slots of both and each account has
the messages it had. -/
theorem addGroup_correct {v : Nat} {g o : Group} (hg : GroupOk v g) (ho : GroupOk v o) :
    ((addGroup g o).isSome ↔ ∀ a, g.msgs a = [] ∨ o.msgs a = []) ∧
    ∀ r, addGroup g o = some r → GroupOk v r ∧ (∀ a, r.msgs a = g.msgs a ++ o.msgs a) ∧ r.slots.length = g.slots.length + o.slots.length ∧
      r.int = g.int + o.int ∧ r.ext = g.ext + o.ext := by
  have hiff : (o.accounts.all (fun a => (g.msgs a).isEmpty) = true) ↔ ∀ a, g.msgs a = [] ∨ o.msgs a = [] := by
    rw [List.all_eq_true]
    constructor
    · intro h a
      by_cases hoa : o.msgs a = []
      · exact Or.inr hoa
      · exact Or.inl (by simpa using h a ((Group.mem_accounts ho a).2 hoa))
    · intro h a ha
      rcases h a with h | h
      · simp [h]
      · exact absurd h ((Group.mem_accounts ho a).1 ha)
  constructor
  · unfold addGroup
    rw [← hiff]
    split
    · rename_i h; simp [h]
    · rename_i h; simp [h]
  · intro r hr
    unfold addGroup at hr
    split at hr
    swap
    · cases hr
    rename_i hdis
    have hdis := hiff.1 hdis
    have hlastlt : ∀ l, g.last = some l → l < nextId g := by
      intro l hl; unfold nextId; rw [hl]; simp only; omega
    have hfree : ∀ sid s, get g.slots sid = some s → sid < nextId g := by
      intro sid s hs
      obtain ⟨l, hl, hle⟩ := hg.last sid s hs
      have := hlastlt l hl
      omega
    generalize hnx : nextId g = next at *
    obtain ⟨i1, i2, i3, i4, i5, i6, i7, i8, i9, i10, i11⟩ := addSlots_spec o.slots g next hg.uniq hfree hlastlt
    simp only [Option.some.injEq] at hr
    have hmsgs : ∀ a, r.msgs a = g.msgs a ++ o.msgs a := by
      intro a
      rw [← hr]
      simp only
      rcases hdis a with h | h
      · split
        · rename_i h2; rw [List.isEmpty_iff] at h2; rw [h, h2]; rfl
        · rw [h]; rfl
      · rw [h]; simp
    have hmsgsfn : r.msgs = fun a => g.msgs a ++ o.msgs a := funext hmsgs
    have hslots : r.slots = (addSlots g next o.slots).slots := by rw [← hr]
    have hlastr : r.last = (addSlots g next o.slots).last := by rw [← hr]
    have hindex : r.index = (addSlots g next o.slots).index := by rw [← hr]
    have hint : r.int = g.int + o.int := by rw [← hr]; show (addSlots g next o.slots).int + _ = _; rw [i2]
    have hext : r.ext = g.ext + o.ext := by rw [← hr]; show (addSlots g next o.slots).ext + _ = _; rw [i3]
    -- a slot of the result is one of either group
    have horig : ∀ sid s, get r.slots sid = some s → (get g.slots sid = some s ∧ ∀ a ∈ s.accounts, o.msgs a = []) ∨
        (get g.slots sid = none ∧ ∃ k e, o.slots[k]? = some e ∧ sid = next + k ∧ s = e.2 ∧ get o.slots e.1 = some s ∧ ∀ a ∈ s.accounts, g.msgs a = []) := by
      intro sid s hs
      rw [hslots] at hs
      rcases i9 sid s hs with h | ⟨k, e, h1, h2, h3⟩
      · left
        exact ⟨h, fun a ha => (hdis a).resolve_left ((hg.nonempty sid s h).2 a ha)⟩
      · right
        have hgo : get o.slots e.1 = some s := by
          rw [h3]
          exact get_of_mem _ ho.uniq _ _ (List.mem_of_getElem? h1)
        refine ⟨?_, k, e, h1, h2, h3, hgo, fun a ha => (hdis a).resolve_right ((ho.nonempty e.1 s hgo).2 a ha)⟩
        cases hgs : get g.slots sid with
        | none => rfl
        | some s' => have := hfree sid s' hgs; omega
    have hfm : ∀ (s : Slot), (∀ a ∈ s.accounts, o.msgs a = []) → s.accounts.flatMap r.msgs = s.accounts.flatMap g.msgs := by
      intro s h
      apply List.flatMap_congr
      intro a ha
      rw [hmsgs, h a ha, List.append_nil]
    have hfm' : ∀ (s : Slot), (∀ a ∈ s.accounts, g.msgs a = []) → s.accounts.flatMap r.msgs = s.accounts.flatMap o.msgs := by
      intro s h
      apply List.flatMap_congr
      intro a ha
      rw [hmsgs, h a ha, List.nil_append]
    refine ⟨⟨?_, ?_, ?_, ?_, ?_, ?_, ?_, ?_, ?_, ?_, ?_, ?_, ?_⟩, hmsgs, by rw [hslots]; exact i5, hint, hext⟩
    · rw [hslots]; exact i4
    · intro sid s hs
      rcases horig sid s hs with ⟨h, _⟩ | ⟨_, k, e, _, _, _, h, _⟩
      · exact hg.nodup sid s h
      · exact ho.nodup e.1 s h
    · intro sid s hs
      rcases horig sid s hs with ⟨h, _⟩ | ⟨_, k, e, _, _, _, h, _⟩
      · obtain ⟨h1, h2⟩ := hg.nonempty sid s h
        exact ⟨h1, fun a ha => by rw [hmsgs]; simp [h2 a ha]⟩
      · obtain ⟨h1, h2⟩ := ho.nonempty e.1 s h
        exact ⟨h1, fun a ha => by rw [hmsgs]; simp [h2 a ha]⟩
    · intro i j s t a hs ht has hat
      rcases horig i s hs with ⟨h, ha1⟩ | ⟨_, k, e, hk, hi, hse, h, ha1⟩
      · rcases horig j t ht with ⟨h', _⟩ | ⟨_, k', e', _, _, _, h', _⟩
        · exact hg.disjoint i j s t a h h' has hat
        · exact absurd (ha1 a has) ((ho.nonempty e'.1 t h').2 a hat)
      · rcases horig j t ht with ⟨h', ha2⟩ | ⟨_, k', e', hk', hj, hte, h', _⟩
        · exact absurd (ha2 a hat) ((ho.nonempty e.1 s h).2 a has)
        · have hee := ho.disjoint e.1 e'.1 s t a h h' has hat
          have hkk : k = k' := by
            have hu := ho.uniq
            unfold Uniq at hu
            have h1 : (o.slots.map (·.1))[k]? = some e.1 := by rw [List.getElem?_map, hk]; rfl
            have h2 : (o.slots.map (·.1))[k']? = some e.1 := by rw [List.getElem?_map, hk', hee]; rfl
            have hl1 := (List.getElem?_eq_some_iff.1 h1).1
            exact (List.getElem?_inj hl1 hu).1 (h1.trans h2.symm)
          omega
    · intro a ha
      rw [hmsgs] at ha
      by_cases hga : g.msgs a = []
      · have hoa : o.msgs a ≠ [] := by rw [hga, List.nil_append] at ha; exact ha
        obtain ⟨sid, s, hs, has⟩ := ho.cover a hoa
        obtain ⟨k, hk, hke⟩ := List.getElem_of_mem (mem_of_get _ _ _ hs)
        refine ⟨next + k, s, ?_, has⟩
        rw [hslots]
        exact i8 k (sid, s) (by rw [List.getElem?_eq_getElem hk, hke])
      · obtain ⟨sid, s, hs, has⟩ := hg.cover a hga
        exact ⟨sid, s, by rw [hslots]; exact i7 sid s hs, has⟩
    · intro sid s hs
      rcases horig sid s hs with ⟨h, ha⟩ | ⟨_, k, e, _, _, _, h, ha⟩
      · rw [hfm s ha]; exact hg.slotInt sid s h
      · rw [hfm' s ha]; exact ho.slotInt e.1 s h
    · intro sid s hs
      rcases horig sid s hs with ⟨h, ha⟩ | ⟨_, k, e, _, _, _, h, ha⟩
      · rw [hfm s ha]; exact hg.slotExt sid s h
      · rw [hfm' s ha]; exact ho.slotExt e.1 s h
    · intro sid s hs
      rcases horig sid s hs with ⟨h, ha⟩ | ⟨_, k, e, _, _, _, h, ha⟩
      · exact hg.vert sid s h
      · exact ho.vert e.1 s h
    · intro sid s hs
      rw [hlastr]
      have hs' := hs
      rw [hslots] at hs'
      apply i10 sid s hs'
      rcases horig sid s hs with ⟨h, ha⟩ | ⟨hn, _⟩
      · exact Or.inl (hg.last sid s h)
      · exact Or.inr hn
    · rw [hint, hslots, hg.int, ho.int]; exact (i6 Slot.int).symm
    · rw [hext, hslots, hg.ext, ho.ext]; exact (i6 Slot.ext).symm
    · intro sid s hs
      rw [hindex, i11]
      rcases horig sid s hs with ⟨h, ha⟩ | ⟨_, k, e, hk, hsid, hse, h, ha⟩
      · exact Or.inl (hg.indexed sid s h)
      · exact Or.inr ⟨k, e, hk, hsid, by rw [hse]⟩
    · intro n sid hn
      rw [hindex, i11] at hn
      rw [hslots]
      rcases hn with h | ⟨k, e, h1, h2, h3⟩
      · obtain ⟨s, hs⟩ := Option.isSome_iff_exists.1 (hg.index n sid h)
        rw [i7 sid s hs]; rfl
      · rw [h2, i8 k e h1]; rfl

end Tycho.MsgBuffer
