import Verif.MsgBuffer.Loops
import Verif.MsgBuffer.Index

/-! ## Filling a group is correct -/
namespace Tycho.MsgBuffer

open Tycho.Table

theorem allMsgs_filter_nonempty (l : List (Acc × List Msg)) : allMsgs (l.filter (fun e => !e.2.isEmpty)) = allMsgs l := by
  unfold allMsgs
  induction l with
  | nil => rfl
  | cons e l ih =>
    cases he : e.2 with
    | nil => rw [List.filter_cons_of_neg (by simp [he]), ih, List.flatMap_cons, he]; rfl
    | cons m ms => rw [List.filter_cons_of_pos (by simp [he]), List.flatMap_cons, List.flatMap_cons, ih]

theorem msgsOf_filter_nonempty {l : List (Acc × List Msg)} (hu : Uniq l) (a : Acc) : msgsOf (l.filter (fun e => !e.2.isEmpty)) a = msgsOf l a := by
  induction l with
  | nil => rfl
  | cons e l ih =>
    have hu' : Uniq l := by unfold Uniq at hu ⊢; exact (List.nodup_cons.1 hu).2
    have hni : e.1 ∉ l.map (·.1) := by unfold Uniq at hu; exact (List.nodup_cons.1 hu).1
    have ih := ih hu'
    cases he : e.2 with
    | nil =>
      rw [List.filter_cons_of_neg (by simp [he]), ih]
      unfold msgsOf
      simp only [Table.get]
      split
      · rename_i hk
        have : get l a = none := by
          cases hg : get l a with
          | none => rfl
          | some v => exact absurd (mem_keys_of_get hg) (by rw [← hk]; exact hni)
        rw [this, he]; rfl
      · rfl
    | cons m ms =>
      rw [List.filter_cons_of_pos (by simp [he])]
      unfold msgsOf at ih ⊢
      simp only [Table.get]
      split
      · rfl
      · exact ih

theorem GroupOk.sinv {v : Nat} {g : Group} (h : GroupOk v g) (b : Buffer) (sk : List Acc) : SInv v (start b g sk) :=
  ⟨h.uniq, h.nodup, fun sid s hs => (h.nonempty sid s hs).2, h.disjoint, h.cover, h.slotInt, h.slotExt, h.vert, h.last⟩

theorem start_all {p : Params} {b : Buffer} {g : Group} (sk : List Acc) (hb : BufOk b) (hg : GroupOk p.vert g) :
    All p (start b g sk) (start b g sk) := by
  refine ⟨⟨rfl, ?_, hb.int, hb.ext, rfl, ?_, ?_, ?_⟩, hg.sinv b sk, ⟨List.Pairwise.nil, fun _ _ => rfl, ?_, ?_⟩, ⟨fun _ h => h, fun _ h => Or.inl h, fun _ _ => rfl⟩, ⟨rfl, rfl⟩⟩
  · intro a
    exact ⟨[], msgsOf b.msgs a, rfl, by simp [start], Or.inl rfl⟩
  · simp [start]
  · show 0 = (movedMsgs _ _).length
    rw [show movedMsgs (start b g sk) (start b g sk) = [] from by simp [start, movedMsgs]]; rfl
  · simp [start, movedMsgs, keysOf]
  · intro sid u h; cases h
  · intro sid s h _; rw [h]; rfl

theorem stepNew_spec {p : Params} (hv : 0 < p.vert) {n : Nat} {b : Buffer} {g : Group} (sk todo : List Acc) (hg : GroupOk p.vert g) :
    ∃ st' todo' used done, stepNew p n g todo (start b g sk) = some (st', todo', used) ∧ Steps p (start b g sk) st' ∧ todo = done ++ todo' ∧
      (∀ a ∈ done, Settled p st' a) ∧ (∀ j ∈ used, Closed p st' todo' j) ∧ (∀ j, j ∉ used → get st'.slots j = get g.slots j) ∧
      st'.slots.length ≤ max n g.slots.length ∧ (st'.slots.length < n → todo' = []) := by
  unfold stepNew
  split
  · rename_i hpos
    have hpre : NewPre p n (g.last.getD 0 + 1) (n - g.slots.length - 1) [] todo [] (start b g sk) := by
      refine ⟨hg.sinv b sk, Or.inl ⟨?_, ?_, ?_⟩, by simp, by simp, by simp, by simp⟩
      · show get g.slots _ = none
        cases h : get g.slots (g.last.getD 0 + 1) with
        | none => rfl
        | some s =>
          obtain ⟨l, hl, hle⟩ := hg.last _ _ h
          rw [hl] at hle
          simp only [Option.getD_some] at hle
          omega
      · intro l hl
        have hl' : g.last = some l := hl
        rw [hl']; simp
      · show g.slots.length + _ + 1 = n
        omega
    obtain ⟨st', todo', used', done, e, h1, h2, h3, h4, h5, h6, h7, _⟩ := fillNew_spec hv (n + 2 * todo.length + 1) _ _ _ _ _ _ hpre (by simp; omega)
    exact ⟨st', todo', used', done, e, h1, h2, h3, h4, h5, by omega, h7⟩
  · rename_i hz
    refine ⟨_, todo, [], [], rfl, .refl, rfl, by simp, by simp, fun _ _ => rfl, ?_, ?_⟩
    · show g.slots.length ≤ _; omega
    · show g.slots.length < n → _; omega

theorem foldl_trySkip_steps (p : Params) (l : List Acc) (st : Fill) : Steps p st (l.foldl (trySkip p) st) ∧ (l.foldl (trySkip p) st).slots = st.slots := by
  induction l generalizing st with
  | nil => exact ⟨.refl, rfl⟩
  | cons a l ih =>
    obtain ⟨h1, h2⟩ := ih (trySkip p st a)
    exact ⟨Relation.ReflTransGen.trans (.single (Micro.skip st a)) h1, h2.trans (trySkip_slots p st a)⟩

theorem get_mem_updates {u : List (Nat × Upd)} (hs : (u.map (·.1)).Pairwise (· < ·)) {e : Nat × Upd} (h : e ∈ u) : get u e.1 = some e.2 := by
  apply get_of_mem
  · unfold Uniq
    exact hs.imp (fun h => by omega)
  · exact h

/-- How a fill runs: elementary steps, then empty accounts are dropped. -/
theorem fill_run {p : Params} (hv : 0 < p.vert) (n : Nat) {b : Buffer} {g : Group} (skipped : List Acc) (hb : BufOk b) (hg : GroupOk p.vert g) :
    ∃ r, fill p n b g skipped = some r ∧ Filled p n b g skipped r ∧ ∃ st, Steps p (start b g skipped) st ∧
      r.buf = { st.buf with msgs := st.buf.msgs.filter (fun e => !e.2.isEmpty), minExt := r.buf.minExt } := by
  have hA0 := start_all skipped hb hg
  have hub : Uniq (start b g skipped).buf.msgs := hb.uniq
  obtain ⟨st1, todo1, used, done1, e1, s1, d1, set1, cl1, fr1, len1, free1⟩ := stepNew_spec (n := n) (b := b) hv skipped (b.msgs.map (·.1)) hg
  have hA1 := hA0.steps hub s1
  have hids : ∀ j ∈ ((presize g.index p.vert).take p.vert).flatten, ∃ s, get st1.slots j = some s ∧ s.count ≠ 0 := by
    intro j hj
    by_cases hju : j ∈ used
    · obtain ⟨s, h1, h2, _⟩ := cl1 j hju
      exact ⟨s, h1, h2⟩
    · obtain ⟨m, _, hm⟩ := (mem_buckets _ _ _).1 hj
      obtain ⟨s, hs⟩ := Option.isSome_iff_exists.1 (hg.index m j hm)
      refine ⟨s, (fr1 j hju).trans hs, ?_⟩
      intro h0
      exact (hg.nonempty j s hs).1 (((hg.sinv b skipped).empty_iff hs).1 h0)
  obtain ⟨st2, todo2, done2, e2, s2, d2, set2, len2, cl2, fr2⟩ := fillOld_spec (used := used) _ todo1 st1 hA1.s hids used cl1 (fun _ h => h)
  have hfill : fill p n b g skipped = some (result (finish p g todo2 st2)) := by
    unfold fill
    rw [e1]
    simp only [Option.bind_some]
    rw [e2]
    rfl
  -- after skipping in accounts not visited
  obtain ⟨st3, hst3, s3, sl3⟩ : ∃ st3, st3 = (if p.filter.canSkip then todo2.foldl (trySkip p) st2 else st2) ∧ Steps p st2 st3 ∧ st3.slots = st2.slots := by
    refine ⟨_, rfl, ?_⟩
    split
    · exact foldl_trySkip_steps p todo2 st2
    · exact ⟨.refl, rfl⟩
  have hA := hA0.steps hub ((s1.trans s2).trans s3)
  have huq3 : Uniq st3.buf.msgs := by unfold Uniq; rw [hA.b.keys]; exact hb.uniq
  let bm := st3.buf.msgs.filter (fun e => !e.2.isEmpty)
  have hbm : bm = st3.buf.msgs.filter (fun e => !e.2.isEmpty) := rfl
  have hfin : finish p g todo2 st2 = ({ st3 with buf := { st3.buf with msgs := bm, minExt := if bm.isEmpty then none else st3.buf.minExt } },
      ⟨st3.grp, st3.slots, st3.last, (st3.updates.foldl applyUpd ⟨presize g.index p.vert, [], g.int, g.ext⟩).removals.foldl removeIds
        (st3.updates.foldl applyUpd ⟨presize g.index p.vert, [], g.int, g.ext⟩).index,
        (st3.updates.foldl applyUpd ⟨presize g.index p.vert, [], g.int, g.ext⟩).int, (st3.updates.foldl applyUpd ⟨presize g.index p.vert, [], g.int, g.ext⟩).ext⟩) := by
    unfold finish
    simp only [← hst3]
    rfl
  refine ⟨_, hfill, ?_, st3, (s1.trans s2).trans s3, by rw [hfin]; rfl⟩
  rw [hfin]
  unfold result
  simp only
  have hmo : ∀ a, msgsOf bm a = msgsOf st3.buf.msgs a := fun a => msgsOf_filter_nonempty huq3 a
  have hall : allMsgs bm = allMsgs st3.buf.msgs := allMsgs_filter_nonempty _
  have hkeep : ∀ sid, (get g.slots sid).isSome → (get st3.slots sid).isSome := by
    intro sid h
    obtain ⟨s, hs⟩ := Option.isSome_iff_exists.1 h
    apply hA.u.keep sid s hs
    intro h0
    exact (hg.nonempty sid s hs).1 (((hg.sinv b skipped).empty_iff hs).1 h0)
  -- slots with room are closed
  have hclosed : ∀ sid s, get st3.slots sid = some s → s.count ≠ 0 ∧ (s.count < p.vert → Closed p st2 todo2 sid) := by
    intro sid s hs
    rw [sl3] at hs
    by_cases hz : sid ∈ used ++ ((presize g.index p.vert).take p.vert).flatten
    · have hc := cl2 sid hz
      refine ⟨?_, fun _ => hc⟩
      obtain ⟨s', h1, h2, _⟩ := hc
      rw [hs] at h1; cases h1; exact h2
    · have h1 : sid ∉ used := fun h => hz (List.mem_append_left _ h)
      have h2 : sid ∉ ((presize g.index p.vert).take p.vert).flatten := fun h => hz (List.mem_append_right _ h)
      have hsg : get g.slots sid = some s := by rw [← hs, fr2 sid h2, fr1 sid h1]
      constructor
      · intro h0
        exact (hg.nonempty sid s hsg).1 (((hg.sinv b skipped).empty_iff hsg).1 h0)
      · intro hlt
        exfalso
        exact h2 ((mem_buckets _ _ _).2 ⟨s.count, hlt, hg.indexed sid s hsg⟩)
  have hsettled : todo2 = [] → ∀ a, ¬ Blocked p skipped a → msgsOf bm a ≠ [] → st3.grp a ≠ [] := by
    intro ht a hnb hne
    rw [hmo] at hne
    have hmem : a ∈ b.msgs.map (·.1) := by
      have : a ∈ st3.buf.msgs.map (·.1) := by
        cases hgt : get st3.buf.msgs a with
        | none => rw [msgsOf_none hgt] at hne; exact absurd rfl hne
        | some v => exact mem_keys_of_get hgt
      rw [hA.b.keys] at this
      exact this
    have hset : Settled p st3 a := by
      rw [d1, d2, ht, List.append_nil] at hmem
      rcases List.mem_append.1 hmem with h | h
      · exact ((set1 a h).steps s2).steps s3
      · exact (set2 a h).steps s3
    rcases hset with (h | h) | h
    · rcases h with h | h
      · exact absurd (hA.k.sup a h) hnb
      · exact absurd (Or.inr h) hnb
    · exact absurd h hne
    · exact h
  refine ⟨?_, ?_, ?_, ?_, ?_, ?_, ?_, ?_, ?_, ?_, ?_, hA.k.sub, hA.k.sup⟩
  · -- buffer
    refine ⟨?_, ?_, ?_, ?_, ?_, ?_⟩
    · show Uniq bm
      unfold Uniq at huq3 ⊢
      exact huq3.sublist (List.filter_sublist.map _)
    · intro e he
      have := (List.mem_filter.1 he).2
      intro h; rw [h] at this; simp at this
    · intro e he m hm
      have he3 := (List.mem_filter.1 he).1
      have hgt : get st3.buf.msgs e.1 = some e.2 := get_of_mem _ huq3 _ _ he3
      obtain ⟨pre, rest, hbe, _, hr⟩ := hA.b.moved e.1
      rw [msgsOf_some hgt] at hr
      have hm' : m ∈ msgsOf b.msgs e.1 := by
        rw [show msgsOf b.msgs e.1 = pre ++ rest from hbe]
        apply List.mem_append_right
        rcases hr with hr | hr
        · rw [← hr]; exact hm
        · rw [hr] at hm; exact (List.mem_filter.1 hm).1
      unfold msgsOf at hm'
      cases hgb : get b.msgs e.1 with
      | none => rw [hgb] at hm'; cases hm'
      | some v =>
        rw [hgb] at hm'
        exact hb.dst (e.1, v) (mem_of_get _ _ _ hgb) m hm'
    · show st3.buf.int = (allMsgs bm).countP _
      rw [hall]; exact hA.b.int
    · show st3.buf.ext = (allMsgs bm).countP _
      rw [hall]; exact hA.b.ext
    · intro m hm ct hk
      have hm' : m ∈ allMsgs bm := hm
      have hne : bm ≠ [] := by
        intro h; rw [h] at hm'; cases hm'
      obtain ⟨e, he, hme⟩ := List.mem_flatMap.1 hm'
      have he3 := (List.mem_filter.1 he).1
      have hgt : get st3.buf.msgs e.1 = some e.2 := get_of_mem _ huq3 _ _ he3
      obtain ⟨pre, rest, hbe, _, hr⟩ := hA.b.moved e.1
      rw [msgsOf_some hgt] at hr
      have hm' : m ∈ msgsOf b.msgs e.1 := by
        rw [show msgsOf b.msgs e.1 = pre ++ rest from hbe]
        apply List.mem_append_right
        rcases hr with hr | hr
        · rw [← hr]; exact hme
        · rw [hr] at hme; exact (List.mem_filter.1 hme).1
      have hmb : m ∈ allMsgs b.msgs := by
        unfold msgsOf at hm'
        cases hgb : get b.msgs e.1 with
        | none => rw [hgb] at hm'; cases hm'
        | some v =>
          rw [hgb] at hm'
          exact List.mem_flatMap.2 ⟨(e.1, v), mem_of_get _ _ _ hgb, hm'⟩
      obtain ⟨t, ht, hle⟩ := hb.minExt m hmb ct hk
      refine ⟨t, ?_, hle⟩
      show (if bm.isEmpty then none else st3.buf.minExt) = some t
      rw [if_neg (by simpa using hne), hA.b.minExt]
      exact ht
  · -- group
    refine ⟨hA.s.uniq, hA.s.nodup, fun sid s hs => ⟨fun h => ?_, hA.s.nonempty sid s hs⟩, hA.s.disjoint, hA.s.cover, hA.s.slotInt, hA.s.slotExt, hA.s.vert,
      hA.s.last, ?_, ?_, ?_, ?_⟩
    · exact (hclosed sid s hs).1 ((hA.s.empty_iff hs).2 h)
    · have hx := applyUpds_int st3.updates ⟨presize g.index p.vert, [], g.int, g.ext⟩ (fun e he => by
        obtain ⟨s, _, _, _, _, h, _⟩ := hA.u.diff e.1 e.2 (get_mem_updates hA.u.sorted he); exact h) (fun e he => by
        obtain ⟨s, _, _, ho, _⟩ := hA.u.diff e.1 e.2 (get_mem_updates hA.u.sorted he)
        show e.2.oldInt ≤ g.int
        cases hgs : get g.slots e.1 with
        | none =>
          have : (e.2.oldInt, e.2.oldExt) = counts (get g.slots e.1) := ho
          rw [hgs] at this
          simp only [counts, Prod.mk.injEq] at this; omega
        | some s0 =>
          have : (e.2.oldInt, e.2.oldExt) = counts (get g.slots e.1) := ho
          rw [hgs] at this
          simp only [counts, Prod.mk.injEq] at this
          have := le_sum Slot.int hgs
          rw [hg.int]; omega)
      have ht := hA.t.int
      have h0 : (start b g skipped).slots = g.slots := rfl
      rw [h0, ← hg.int] at ht
      simp only at hx ⊢
      omega
    · have hx := applyUpds_ext st3.updates ⟨presize g.index p.vert, [], g.int, g.ext⟩ (fun e he => by
        obtain ⟨s, _, _, _, _, _, h⟩ := hA.u.diff e.1 e.2 (get_mem_updates hA.u.sorted he); exact h) (fun e he => by
        obtain ⟨s, _, _, ho, _⟩ := hA.u.diff e.1 e.2 (get_mem_updates hA.u.sorted he)
        show e.2.oldExt ≤ g.ext
        cases hgs : get g.slots e.1 with
        | none =>
          have : (e.2.oldInt, e.2.oldExt) = counts (get g.slots e.1) := ho
          rw [hgs] at this
          simp only [counts, Prod.mk.injEq] at this; omega
        | some s0 =>
          have : (e.2.oldInt, e.2.oldExt) = counts (get g.slots e.1) := ho
          rw [hgs] at this
          simp only [counts, Prod.mk.injEq] at this
          have := le_sum Slot.ext hgs
          rw [hg.ext]; omega)
      have ht := hA.t.ext
      have h0 : (start b g skipped).slots = g.slots := rfl
      rw [h0, ← hg.ext] at ht
      simp only at hx ⊢
      omega
    · -- each slot is indexed
      intro sid s hs
      rw [mem_removeAll, applyUpds_index]
      have hrem := applyUpds_removals st3.updates ⟨presize g.index p.vert, [], g.int, g.ext⟩
        (fun m y => ∃ u, get st3.updates y = some u ∧ m = u.oldInt + u.oldExt) (by simp)
        (fun e he => ⟨e.2, get_mem_updates hA.u.sorted he, rfl⟩)
      constructor
      · cases hu : get st3.updates sid with
        | none =>
          left
          have h1 := hA.u.same sid hu
          have h0 : (start b g skipped).slots = g.slots := rfl
          rw [hs, h0] at h1
          show sid ∈ (presize g.index p.vert).getD _ []
          rw [presize_getD]
          cases hgs : get g.slots sid with
          | none =>
            exfalso
            rw [hgs] at h1
            simp only [counts, Prod.mk.injEq] at h1
            exact (hclosed sid s hs).1 (by unfold Slot.count; omega)
          | some s0 =>
            rw [hgs] at h1
            simp only [counts, Prod.mk.injEq] at h1
            have : s.count = s0.count := by unfold Slot.count; omega
            show sid ∈ g.index.getD s.count []
            rw [this]
            exact hg.indexed sid s0 hgs
        | some u =>
          right
          obtain ⟨s', hs', hn, _⟩ := hA.u.diff sid u hu
          have hs2 : get st3.slots sid = some s := hs
          rw [hs2] at hs'; cases hs'
          simp only [Prod.mk.injEq] at hn
          exact ⟨(sid, u), mem_of_get _ _ _ hu, by show s.count = _; unfold Slot.count; simp only; omega, rfl⟩
      · intro e he hm hy
        obtain ⟨u, hu, heq⟩ := hrem e he sid hy
        obtain ⟨s', hs', hn, _, hlt, _⟩ := hA.u.diff sid u hu
        have hs2 : get st3.slots sid = some s := hs
        rw [hs2] at hs'; cases hs'
        simp only [Prod.mk.injEq] at hn
        unfold Slot.count at hm
        omega
    · -- no entry of the index is dangling
      intro m sid hm
      rw [mem_removeAll, applyUpds_index] at hm
      rcases hm.1 with h | ⟨e, he, _, rfl⟩
      · have h' : sid ∈ (presize g.index p.vert).getD m [] := h
        rw [presize_getD] at h'
        exact hkeep sid (hg.index m sid h')
      · obtain ⟨s, hs, _⟩ := hA.u.diff e.1 e.2 (get_mem_updates hA.u.sorted he)
        show (get st3.slots e.1).isSome
        rw [hs]; rfl
  · intro a
    show Moved _ _ _ (st3.grp a) (msgsOf bm a)
    rw [hmo]
    exact hA.b.moved a
  · intro a ha
    exact hA.k.grp a ha
  · show st3.slots.length ≤ _
    rw [sl3, len2]; exact len1
  · exact hA.b.count
  · exact hA.b.collected
  · show (allMsgs b.msgs).length = (allMsgs bm).length + _ + _
    rw [hall]; exact hA.b.total
  · show (bm.map (·.1)).Sublist _
    have : st3.buf.msgs.map (·.1) = b.msgs.map (·.1) := hA.b.keys
    rw [← this]
    exact List.filter_sublist.map _
  · show st3.slots.length < n → ∀ a, _ → msgsOf bm a ≠ [] → st3.grp a ≠ []
    intro hlt
    apply hsettled
    rw [sl3, len2] at hlt
    have := free1 hlt
    rw [this] at d2
    exact (List.append_eq_nil_iff.1 d2.symm).2
  · show ∀ sid s, get st3.slots sid = some s → s.count < p.vert → (∀ a ∈ s.accounts, _ → msgsOf bm a = []) ∧ ∀ a, _ → msgsOf bm a ≠ [] → st3.grp a ≠ []
    intro sid s hs hlt
    have hc := (hclosed sid s hs).2 hlt
    obtain ⟨s', h1, _, h3, h4⟩ := hc
    have hs2 := hs
    rw [sl3] at hs2
    rw [hs2] at h1; cases h1
    refine ⟨?_, hsettled (h3 hlt)⟩
    intro a ha hnb
    rw [hmo]
    have hsa := slotAt_of hs2
    have hd := (h4 (by rw [hsa]; exact hlt) a (by rw [hsa]; exact ha)).steps s3
    rcases hd with h | h
    · rcases h with h | h
      · exact absurd (hA.k.sup a h) hnb
      · exact absurd (Or.inr h) hnb
    · exact h

/-- `fill_message_group` terminates without a panic and does all of `Filled`. -/
theorem fill_correct {p : Params} (hv : 0 < p.vert) (n : Nat) {b : Buffer} {g : Group} (skipped : List Acc) (hb : BufOk b) (hg : GroupOk p.vert g) :
    ∃ r, fill p n b g skipped = some r ∧ Filled p n b g skipped r := by
  obtain ⟨r, h1, h2, _⟩ := fill_run hv n skipped hb hg
  exact ⟨r, h1, h2⟩

end Tycho.MsgBuffer
