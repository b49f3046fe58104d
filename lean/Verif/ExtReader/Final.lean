import Verif.ExtReader.Restart
/-! The refill after a restart. -/
namespace Tycho.ExtReader
variable {B : Type}

theorem refill_done (e : Env B) (f : Collect B) (Q : St B) (h : offsetReached Q = true) (n : Nat) : refill e f n Q = Q := by
  cases n with
  | zero => rfl
  | succ n => rw [refill, if_pos h]

theorem fin_ne {s : St B} (h : s.ranges ≠ []) : (finalize s).ranges ≠ [] := by
  intro h1
  have := (fin_off s).2.2.2
  rw [h1] at this
  exact h (by simpa using this.symm)

/-- The refill of a restarted node ends in a state that matches the end of the run. -/
theorem refill_end {c : Cfg B} {f : Collect B} (hf : c.Fair f) {g F : G B} (hs : Seg c f g F) (hr : Reach c.ours c.timeout g.h)
    (hc : Clean c.ops g.h.st) (Y : List Anchor) (hY : Sorted (F.h.anchors ++ Y))
    (hfresh : ∀ y ∈ Y, expiredAt c.timeout F.h.st.ct y.ct = false) (lim : Nat) (np : Bool) (block ct : Nat) (hb : F.h.st.block < block) :
    ∃ m Q, (∀ n, m ≤ n → refill (c.env lim np) f n (restart (c.env lim np) (F.h.anchors ++ Y) block ct (finalize F.h.st)) = Q) ∧
      Sim c (F.h.anchors ++ Y) (finalize F.h.st).ranges F.h Q := by
  have hne : g.h.st.ranges ≠ [] := by
    obtain ⟨r, h1, _⟩ := hc
    rw [h1]; simp
  have hfa := seg_facts hs hr hne
  have hiF := inv_reach hfa.reach
  have hA : FutA c.timeout (F.h.anchors ++ Y) F.h := by
    have := futOf_append F.h.anchors Y F.h rfl
    exact ⟨by rw [this], by rw [this]; exact hfresh, hY⟩
  obtain ⟨z, hz, hzp⟩ := fin_last hfa.reach hfa.ne
  have hfut := seg_fut hs hr hne
  have hAg := seg_futA hs hA hr
  have hi := inv_reach hr
  obtain ⟨f1, f2, f3, f4⟩ := fin_off F.h.st
  generalize hP0 : restart (c.env lim np) (F.h.anchors ++ Y) block ct (finalize F.h.st) = P0
  have hproc0 : (finalize F.h.st).procTo = g.h.st.procTo := by rw [f2, hfa.procTo]
  have p1 : P0.off = 0 := by rw [← hP0]; rfl
  have p2 : P0.procTo = g.h.st.procTo := by rw [← hP0]; exact hproc0
  have p3 : P0.cache = reload c.ours (g.h.st.procTo 0) (F.h.anchors ++ Y) := by rw [← hproc0, ← hP0]; rfl
  have p4 : P0.ranges = (finalize F.h.st).ranges.map (restoreRange c.ops (g.h.st.procTo 0)) := by rw [← hproc0, ← hP0]; rfl
  have p5 : P0.block = block := by rw [← hP0]; rfl
  have p6 : P0.allFully = false := by rw [← hP0]; rfl
  have hblock : ∀ x ∈ (finalize F.h.st).ranges, x.seqno < block := by
    intro x hx
    have h1 : simKey x ∈ F.h.st.ranges.map simKey := by rw [← f4]; exact List.mem_map_of_mem hx
    obtain ⟨q, q1, q2⟩ := List.mem_map.1 h1
    simp only [simKey, Prod.mk.injEq] at q2
    have := hiF.seq q q1
    omega
  have hlastP : P0.ranges.getLast? = some (restoreRange c.ops (g.h.st.procTo 0) z) := by
    rw [p4, List.getLast?_map, hz]; rfl
  have hoff := hfa.off
  have hskip : ∀ x ∈ (finalize F.h.st).ranges, g.h.st.off ≤ x.skip := by
    obtain ⟨r, c1, _, _, _, c5, _⟩ := hc
    obtain ⟨l, r2, L, x, ext, hE⟩ := hfut
    have hs := hE.hs
    rw [c1] at hs
    have hl : l = [] := by
      have := congrArg List.length hs
      rw [List.length_append] at this
      apply List.eq_nil_of_length_eq_zero
      simp only [List.length_cons, List.length_nil] at this; omega
    subst hl
    have hr2 : r = r2 := by simpa using hs
    subst hr2
    have hL : L = [] := List.eq_nil_of_length_eq_zero hE.len
    subst hL
    intro y hy
    rw [hE.hF] at hy
    rcases List.mem_cons.1 hy with h1 | h1
    · rw [h1, hE.same.2.2.2, c5]; exact Nat.le_refl _
    · exact (hE.tail y h1).1
  -- to the start of the run
  have key : ∃ m P, (∀ n, refill (c.env lim np) f (m + n) P0 = refill (c.env lim np) f n P) ∧
      Sim c (F.h.anchors ++ Y) (finalize F.h.st).ranges g.h P := by
    cases ho : g.h.st.off with
    | zero =>
      refine ⟨0, P0, fun n => by rw [Nat.zero_add], ?_⟩
      exact sim_base hi hAg hfut hc P0 (by rw [p1, ho]) p2 p3 (by rw [p5]; exact hblock) p4 (by rw [p6]; intro h1; cases h1)
    | succ k =>
      rw [ho] at hoff hskip
      have hne0 : P0.ranges ≠ [] := by
        intro h1; rw [h1] at hlastP; cases hlastP
      have hsk0 : ∀ q ∈ P0.ranges, k + 1 ≤ q.skip := by
        intro q hq
        rw [p4] at hq
        obtain ⟨x, x1, x2⟩ := List.mem_map.1 hq
        rw [← x2]; exact hskip x x1
      obtain ⟨b, b1, b2⟩ := idle_to (c.env lim np) f P0 p1 (by rw [p6]; intro h1; cases h1) (k + 1) hsk0 hne0 _ hlastP
        (by change k + 1 ≤ z.proc; omega) k (by omega)
      have hor : offsetReached ({ P0 with off := k, allFully := b } : St B) = false := by
        unfold offsetReached
        simp only [hlastP]
        exact decide_eq_false (by change ¬ z.proc ≤ k; omega)
      obtain ⟨b', k1, k2⟩ := idle_step (c.env lim np) f { P0 with off := k, allFully := b } b2 hsk0 hor
      refine ⟨k + 1, (group (c.env lim np) .refill true f { P0 with off := k, allFully := b }).st, fun n => ?_, ?_⟩
      · rw [show k + 1 + n = k + (n + 1) from by omega, b1, refill, hor]
        rfl
      · rw [k1]
        split
        · rename_i hcol
          exact sim_dropped hi hAg hfut hc hf.countEmpty { P0 with off := k + 1, allFully := b' } (by simp only [ho]) p2 p3
            (by simp only [p5]; exact hblock) p4 z hz (by omega) hcol
        · exact sim_base hi hAg hfut hc _ (by simp only [ho]) p2 p3 (by simp only [p5]; exact hblock) p4 k2
  obtain ⟨m, P, m1, m2⟩ := key
  obtain ⟨m', Q, n1, n2⟩ := refill_seg hf hs hr hne hA lim np z hz hzp m2
  have hor : offsetReached Q = true := by
    rw [offsetReached_iff n2.al z hz, n2.off, hzp]
    exact decide_eq_true (Nat.le_refl _)
  refine ⟨m + m', Q, fun n hn => ?_, n2⟩
  rw [show n = m + (m' + (n - m - m')) from by omega, m1, n1, refill_done _ _ _ hor]

/-- What it means that the state matches the end of the run. -/
theorem sim_end {c : Cfg B} {Y : List Anchor} {h : H B} {Q : St B} (hi : Inv c.ours c.timeout h) (hne : h.st.ranges ≠ [])
    (hs : Sim c (h.anchors ++ Y) (finalize h.st).ranges h Q) :
    ∃ k, k ≤ 1 ∧ Q.ranges.map stat = ((finalize h.st).ranges.drop k).map stat ∧
      Q.ranges.map Range.buf = (h.st.ranges.drop k).map Range.buf ∧ (∀ q ∈ h.st.ranges.take k, q.buf = c.ops.empty) ∧
      (∀ q ∈ Q.ranges, q.fully = true) ∧ Q.off = h.st.off ∧ Q.procTo = h.st.procTo ∧
      ∃ J, Q.cache = J ++ (h.st.cache ++ Y.filter (hasOurs c.ours)) ∧
        ∀ a ∈ J, a.id < h.st.pos.a ∨ (a.id = h.st.pos.a ∧ expiredAt c.timeout h.st.ct a.ct = true) := by
  obtain ⟨f1, f2, f3, f4⟩ := fin_off h.st
  have hlen : (finalize h.st).ranges.length = h.st.ranges.length := by
    have := congrArg List.length f4
    simpa using this
  obtain ⟨pre, rs', preF, Xs, ext, Ps, h1, h2, h3, h4, h5, h6⟩ := hs.al
  have hext : ext = [] := by
    have := hlen
    rw [h1, h2] at this
    simp only [List.length_append, h6.length, h4.length.1] at this
    apply List.eq_nil_of_length_eq_zero; omega
  subst hext
  rw [List.map_nil, List.append_nil] at h3
  rw [List.append_nil] at h2
  have hk : preF.length ≤ 1 := by cases h6 <;> simp
  refine ⟨preF.length, hk, ?_, ?_, ?_, ?_, hs.off, hs.procTo, ?_⟩
  · rw [h3, h2, List.drop_left, h4.stat]
  · rw [h3, h1, ← h6.length, List.drop_left, h4.bufs]
  · rw [h1, ← h6.length, List.take_left]
    cases h6 with
    | none => simp
    | one r x k1 _ => intro q hq; rw [List.mem_singleton.1 hq]; exact k1
  · rw [h3]
    apply mem_stat_fully' h4
    · have hst : (finalize h.st).ranges.map (fun r => (r.to, r.cur)) = h.st.ranges.map (fun r => (r.to, r.cur)) := by
        unfold finalize
        split
        · rfl
        · rename_i r hl
          split
          · obtain ⟨l, hl⟩ := List.getLast?_eq_some_iff.1 hl
            simp only [hl, List.dropLast_concat, List.map_append]
            rfl
          · rfl
      rw [h1, h2, List.map_append, List.map_append] at hst
      have := (List.append_inj hst (by simp [h6.length])).2
      have h7 := congrArg (List.map Prod.fst) this
      simpa [List.map_map, Function.comp_def] using h7
    · intro q hq
      exact hi.toEq q (by rw [h1]; exact List.mem_append_right _ hq)
  · obtain ⟨J, j1, j2⟩ := hs.cache
    refine ⟨J, ?_, fun a ha => ?_⟩
    · rw [j1, futOf_append h.anchors Y h rfl]
    · obtain ⟨r, r1, r2⟩ := j2 a ha
      have hp : h.st.pos = r.cur := by simp [St.pos, r1]
      rw [hp]
      exact r2.imp id (fun h7 => ⟨h7.1, expired_mono h7.2 (hi.ctLe r (List.mem_of_getLast? r1))⟩)
where
  mem_stat_fully' {l Lx Lp : List (Range B)} (h : A3 l Lx Lp) (hp : Lx.map Range.to = l.map Range.to) (ht : ∀ q ∈ l, q.cur = q.to) :
      ∀ q ∈ Lp, q.fully = true := by
    induction h with
    | nil => intro q hq; cases hq
    | @cons r x p rs xs ps hm h ih =>
      simp only [List.map_cons, List.cons.injEq] at hp
      intro q hq
      rcases List.mem_cons.1 hq with h1 | h1
      · rw [h1, hm.fully, hp.1, ht r List.mem_cons_self]
        simp
      · exact ih hp.2 (fun x hx => ht x (List.mem_cons_of_mem _ hx)) q h1

/-- After a group that leaves nothing to collect the state is clean. -/
theorem clean_group {ours : Nat → Bool} {timeout : Nat} {h : H B} (hi : Inv ours timeout h) (e : Env B) (he : e.ours = ours)
    (ht : e.timeout = timeout) (hz : ∀ b, e.ops.count b = 0 → b = e.ops.empty) (reading : Bool) (f : Collect B)
    (hne : (group e .continue_ reading f h.st).st.ranges ≠ [])
    (hall : allCollected e.ops (group e .continue_ reading f h.st).st.off (group e .continue_ reading f h.st).st.ranges = true) :
    Clean e.ops (group e .continue_ reading f h.st).st := by
  generalize hs2 : (if !reading then (⟨h.st, [], false⟩ : Res B) else readAll e .continue_ h.st).st = s2
  have hg : (group e .continue_ reading f h.st).st = collectStep e f s2 := by rw [← hs2]; simp [group]
  have hi2 : ∃ log, Inv ours timeout ⟨s2, h.anchors, log⟩ := by
    rw [← hs2]
    cases reading with
    | false => exact ⟨h.log, hi⟩
    | true => exact ⟨_, (inv_readAll hi e he ht).1⟩
  obtain ⟨log, hi2⟩ := hi2
  rw [hg] at hne hall ⊢
  have hk : ∀ q ∈ putBufs (s2.off + 1) s2.ranges (f (s2.off + 1) (seen (s2.off + 1) s2.ranges)), q.proc ≤ s2.off ∧ q.cur = q.to := by
    intro q hq
    obtain ⟨q', q1, q2⟩ := mem_noBuf (putBufs_noBuf _ _ _) hq
    rw [nb_proc q2, nb_cur q2, nb_to q2]
    exact ⟨(hi2.skip q' q1).2, hi2.toEq q' q1⟩
  unfold collectStep at hne hall ⊢
  simp only at hne hall ⊢
  generalize putBufs (s2.off + 1) s2.ranges (f (s2.off + 1) (seen (s2.off + 1) s2.ranges)) = rs at hne hall hk ⊢
  by_cases hc : allCollected e.ops (s2.off + 1) rs = true
  · rw [if_pos hc] at hne hall ⊢
    unfold finishCollected at hne ⊢
    cases hl : rs.getLast? with
    | none => rw [hl] at hne; exact absurd (List.getLast?_eq_none_iff.1 hl) hne
    | some r =>
      have hrm := List.mem_of_getLast? hl
      have hr := List.all_eq_true.1 hc r hrm
      simp only [Bool.and_eq_true, decide_eq_true_eq] at hr
      have := (hk r hrm).1
      simp only
      rw [if_pos (by omega)]
      exact ⟨_, rfl, rfl, rfl, hz _ hr.1, rfl, rfl⟩
  · rw [if_neg hc] at hall
    exact absurd hall hc

theorem clean_drop {o : Ops B} {s : St B} (h : Clean o s) : Clean o (dropOffset s) := by
  obtain ⟨r, c1, c2, c3, c4, c5, c6⟩ := h
  have hd : dropOffset s = { s with off := 0, ranges := [{ r with proc := 0, skip := 0 }] } := by
    unfold dropOffset
    rw [c1]; rfl
  rw [hd]
  exact ⟨_, rfl, c2, c3, c4, rfl, rfl⟩

end Tycho.ExtReader
