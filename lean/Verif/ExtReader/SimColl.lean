import Verif.ExtReader.SimGroup
/-! The collection in the refill does what the collection of the run did. -/
namespace Tycho.ExtReader
variable {B : Type}

/-- Nothing is collected from an empty buffer, and it takes no part in the collection. -/
structure Cfg.Fair (c : Cfg B) (f : Collect B) : Prop where
  skipEmpty : ∀ off s ct l, f off ((s, ct, c.ops.empty) :: l) = c.ops.empty :: f off l
  countEmpty : c.ops.count c.ops.empty = 0

theorem A3.seen {a b c : List (Range B)} (h : A3 a b c) :
    c.map (fun r => (r.seqno, r.ct, r.buf)) = a.map (fun r => (r.seqno, r.ct, r.buf)) := by
  induction h with
  | nil => rfl
  | cons hm _ ih => rw [List.map_cons, List.map_cons, ih, hm.seqno, hm.ct, hm.buf]

theorem A3.bufs {a b c : List (Range B)} (h : A3 a b c) : c.map Range.buf = a.map Range.buf := by
  induction h with
  | nil => rfl
  | cons hm _ ih => rw [List.map_cons, List.map_cons, ih, hm.buf]

theorem putBufs_last (off : Nat) (rs : List (Range B)) (bs : List B) {r : Range B} (h : rs.getLast? = some r) :
    ∃ q, (putBufs off rs bs).getLast? = some q ∧ q.cur = r.cur ∧ q.ct = r.ct := by
  obtain ⟨q, h1, h2⟩ := getLast_noBuf (putBufs_noBuf off rs bs).symm h
  exact ⟨q, h1, (nb_cur h2).symm, (nb_ct h2).symm⟩

/-- Not everything is collected in the run: some buffer is not empty. -/
theorem not_collected {o : Ops B} {off : Nat} {rs : List (Range B)} (h : allCollected o off rs = false) (hk : ∀ q ∈ rs, q.skip ≤ off) :
    ∃ q ∈ rs, o.count q.buf ≠ 0 := by
  simp only [allCollected, List.all_eq_false] at h
  obtain ⟨q, h1, h2⟩ := h
  refine ⟨q, h1, fun h3 => h2 ?_⟩
  simp [h3, hk q h1]

theorem allCollected_false {o : Ops B} {off : Nat} {rs : List (Range B)} {q : Range B} (h : q ∈ rs) (hq : o.count q.buf ≠ 0) :
    allCollected o off rs = false := by
  simp only [allCollected, List.all_eq_false]
  exact ⟨q, h, by simp [hq]⟩

theorem putBufs_skip {off : Nat} {rs : List (Range B)} {bs : List B} {n : Nat} (h : ∀ q ∈ rs, q.skip ≤ n) :
    ∀ q ∈ putBufs off rs bs, q.skip ≤ n := by
  intro q hq
  obtain ⟨q', h1, h2⟩ := mem_noBuf (putBufs_noBuf off rs bs) hq
  rw [nb_skip h2]; exact h q' h1

theorem sim_collect {c : Cfg B} {f : Collect B} (hf : c.Fair f) {all : List Anchor} {FR : List (Range B)} {h : H B} {P : St B}
    (hk : ∀ q ∈ h.st.ranges, q.skip ≤ h.st.off ∧ q.proc ≤ h.st.off) (hs : Sim c all FR h P) (lim : Nat) (np : Bool) {rd : Bool}
    (hF : FutS c.timeout h.st rd h.st.off FR) (log : List Item)
    (hn : allCollected c.ops (h.st.off + 1) (putBufs (h.st.off + 1) h.st.ranges (f (h.st.off + 1) (seen (h.st.off + 1) h.st.ranges))) = false) :
    Sim c all FR ⟨{ h.st with off := h.st.off + 1, ranges := putBufs (h.st.off + 1) h.st.ranges (f (h.st.off + 1) (seen (h.st.off + 1) h.st.ranges)) },
      h.anchors, log⟩ (collectStep (c.env lim np) f P) := by
  obtain ⟨l, r, L, x, ext, hE, hstr⟩ := hF
  have hsr : h.st.ranges = l ++ [r] := hE.hs
  have hseen : seen (h.st.off + 1) h.st.ranges = h.st.ranges.map (fun r => (r.seqno, r.ct, r.buf)) :=
    seen_all _ _ (fun q hq => by have := hk q hq; omega)
  have hsk := putBufs_skip (off := h.st.off + 1) (bs := f (h.st.off + 1) (seen (h.st.off + 1) h.st.ranges))
    (fun q hq => Nat.le_succ_of_le (hk q hq).1)
  obtain ⟨w, hw, hwc⟩ := not_collected hn hsk
  have hal := hs.al
  rw [hsr] at hal
  rcases hal.last hE.hF hE.len with ⟨h1, h2, h3, h4, h5, h6⟩ | ⟨pre, l', preF, Lx, Lp, p, h1, h2, h3, h4, h5, h6⟩
  · exfalso
    rw [hseen, hsr, h1] at hw
    simp only [List.nil_append, List.map_cons, List.map_nil, h3, hf.skipEmpty] at hw
    rw [putBufs] at hw
    have hw' : w.buf = c.ops.empty := by
      split at hw
      · rcases List.mem_cons.1 hw with h7 | h7
        · rw [h7]
        · revert h7; cases f (h.st.off + 1) [] <;> simp [putBufs]
      · rw [putBufs] at hw
        · rw [List.mem_singleton.1 hw]; exact h3
        · simp
    rw [hw', hf.countEmpty] at hwc
    exact hwc rfl
  · have hA : A3 (l' ++ [r]) (Lx ++ [x]) (Lp ++ [p]) := h4.append (A3.cons h5 A3.nil)
    have hE' : ∀ q ∈ ext.map (restoreRange c.ops (P.procTo 0)), h.st.off + 1 ≤ q.skip := fun q hq => tail_skip hE hstr _ _ q hq
    have hmem' : ∀ q ∈ l' ++ [r], q ∈ h.st.ranges := by
      intro q hq; rw [hsr, h1, List.append_assoc]; exact List.mem_append_right _ hq
    have hpstat : Lp.map stat = l'.map stat := by
      rw [h4.stat]
      apply map_stat_tail (o := c.ops) _ h6
      rw [← h1, ← h2]; exact hE.pre
    have hpk : ∀ q ∈ Lp, q.proc < h.st.off + 1 ∧ q.skip < h.st.off + 1 := by
      intro q hq
      have : stat q ∈ l'.map stat := by rw [← hpstat]; exact List.mem_map_of_mem hq
      obtain ⟨q', hq', he⟩ := List.mem_map.1 this
      simp only [stat, Prod.mk.injEq] at he
      have := hk q' (hmem' q' (List.mem_append_left _ hq'))
      omega
    have hps : p.skip < h.st.off + 1 := by
      have := hk r (hmem' r (by simp))
      rw [h5.skip]; omega
    have hseenP : seen (h.st.off + 1) P.ranges = (l' ++ [r]).map (fun r => (r.seqno, r.ct, r.buf)) := by
      rw [h3, seen_last _ p _ hps hE' Lp hpk, hA.seen]
    generalize hbs : f (h.st.off + 1) ((l' ++ [r]).map (fun r => (r.seqno, r.ct, r.buf))) = bs
    -- the ranges of the run
    have hrun : ∃ pre', putBufs (h.st.off + 1) h.st.ranges (f (h.st.off + 1) (seen (h.st.off + 1) h.st.ranges)) =
        pre' ++ putBufs (h.st.off + 1) (l' ++ [r]) bs ∧ Pre c.ops pre' preF := by
      rw [hseen, hsr, h1]
      cases h6 with
      | none => exact ⟨[], by simp only [List.nil_append]; rw [hbs], Pre.none⟩
      | one r0 x0 k1 k2 =>
        refine ⟨[r0], ?_, Pre.one r0 x0 k1 k2⟩
        simp only [List.cons_append, List.nil_append, List.map_cons, k1, hf.skipEmpty, hbs]
        rw [putBufs, if_pos]
        · congr 1
          obtain ⟨_, _, _, _, _, _, _, _, _⟩ := r0
          simp only at k1; subst k1; rfl
        · have := hk r0 (by rw [hsr, h1]; simp)
          omega
    obtain ⟨pre', hrun, hpre'⟩ := hrun
    obtain ⟨ps', k1, k2⟩ := A3.putBufs hE' hA (fun q hq => by have := hk q (hmem' q hq); omega) bs
    have hPr : putBufs (P.off + 1) P.ranges (f (P.off + 1) (seen (P.off + 1) P.ranges)) = ps' ++ ext.map (restoreRange c.ops (P.procTo 0)) := by
      rw [hs.off, hseenP, hbs, ← k1, h3]; simp
    have hPne : ps' ≠ [] := by
      intro hn0
      subst hn0
      have := k2.length
      simp at this
    -- something is left
    have hw2 : ∃ q ∈ ps', c.ops.count q.buf ≠ 0 := by
      rw [hrun] at hw
      rcases List.mem_append.1 hw with h7 | h7
      · exfalso
        cases hpre' with
        | none => cases h7
        | one r0 x0 k3 k4 =>
          rw [List.mem_singleton.1 h7, k3, hf.countEmpty] at hwc
          exact hwc rfl
      · have : w.buf ∈ ps'.map Range.buf := by rw [k2.bufs]; exact List.mem_map_of_mem h7
        obtain ⟨q, hq, hqe⟩ := List.mem_map.1 this
        exact ⟨q, hq, by rw [hqe]; exact hwc⟩
    obtain ⟨q, hq, hqc⟩ := hw2
    have hcs : collectStep (c.env lim np) f P = { P with off := P.off + 1, ranges := ps' ++ ext.map (restoreRange c.ops (P.procTo 0)) } := by
      unfold collectStep
      simp only [hPr]
      rw [if_neg]
      have h7 := allCollected_false (o := c.ops) (off := P.off + 1) (List.mem_append_left (ext.map (restoreRange c.ops (P.procTo 0))) hq) hqc
      change ¬ allCollected c.ops _ _ = true
      rw [h7]
      simp
    rw [hcs]
    refine ⟨?_, by simp only [hs.off], hs.procTo, ?_, hs.block, ?_⟩
    · simp only [hrun]
      refine ⟨pre', _, preF, Lx ++ [x], ext, ps', rfl, by rw [hE.hF, h2]; simp, rfl, k2, by simp [hPne], hpre'⟩
    · obtain ⟨J, j1, j2⟩ := hs.cache
      refine ⟨J, j1, fun a ha => ?_⟩
      obtain ⟨r1, r2, r3⟩ := j2 a ha
      obtain ⟨q, q1, q2, q3⟩ := putBufs_last (h.st.off + 1) h.st.ranges (f (h.st.off + 1) (seen (h.st.off + 1) h.st.ranges)) r2
      exact ⟨q, q1, by rw [q2, q3]; exact r3⟩
    · intro ha y hy
      have ha' := hs.allF ha
      have hnb : (ps' ++ ext.map (restoreRange c.ops (P.procTo 0))).map noBuf = P.ranges.map noBuf := by
        rw [← hPr]; exact putBufs_noBuf _ _ _
      obtain ⟨y', y1, y2⟩ := mem_noBuf hnb hy
      rw [nb_fully y2]; exact ha' y' y1

/-- A group of the run, and the next group of the refill. -/
theorem sim_group {c : Cfg B} {f : Collect B} (hf : c.Fair f) {all : List Anchor} {FR : List (Range B)} {h : H B} {P : St B}
    (hi : Inv c.ours c.timeout h) (haf : AF h.st) (hne : h.st.ranges ≠ []) (hs : Sim c all FR h P) (hA : FutA c.timeout all h)
    (lim lim' : Nat) (np np' reading : Bool)
    (hn : allCollected c.ops (group (c.env lim np) .continue_ reading f h.st).st.off
        (group (c.env lim np) .continue_ reading f h.st).st.ranges = false)
    (hF : Fut c.timeout (group (c.env lim np) .continue_ reading f h.st).st reading
      (group (c.env lim np) .continue_ reading f h.st).st.off FR) (z : Range B) (hz : FR.getLast? = some z) (hzp : h.st.off < z.proc)
    (log : List Item) :
    offsetReached P = false ∧ Sim c all FR ⟨(group (c.env lim np) .continue_ reading f h.st).st, h.anchors, log⟩
      (group (c.env lim' np') .refill true f P).st := by
  have hor : offsetReached P = false := by
    rw [offsetReached_iff hs.al z hz, hs.off]
    exact decide_eq_false (by omega)
  refine ⟨hor, ?_⟩
  obtain ⟨s2, h1, _, h2, hnc, h3⟩ := group_parts hi lim np reading hn
  rw [h2] at hF ⊢
  have hF2 := fut_collect _ hF
  have key : (∀ q ∈ s2.ranges, q.skip ≤ s2.off ∧ q.proc ≤ s2.off) ∧ Sim c all FR ⟨s2, h.anchors, log⟩ (readAll (c.env lim' np') .refill P).st := by
    rw [h1] at hF2
    rcases h3 with ⟨b, h3, h4⟩ | ⟨hr, l, r, b, h4, h5, h6⟩ | ⟨hr, h4, b, h5⟩
    · subst h3
      refine ⟨hi.skip, ?_⟩
      have hx := sim_none hi hs lim' np' b hF2 (by
        cases reading with
        | false => exact Or.inl rfl
        | true =>
          right
          rcases h4 rfl with h5 | h5
          · exact haf h5
          · exact h5)
      exact ⟨hx.al, hx.off, hx.procTo, hx.cache, hx.block, hx.allF⟩
    · subst h6
      refine ⟨?_, sim_read hi hs hA lim lim' np np' b reading l r h4 h5 hF2 log⟩
      exact (inv_readLast hi (c.env lim np) rfl rfl l r h4 h5 b).1.skip
    · obtain ⟨hn2, _, _⟩ := inv_newRange hi c.ops h4
      have hF3 := fut_read hn2 (c.env lim np) rfl rfl h.st.ranges (nextRange c.ops h.st) rfl rfl b reading (h5 ▸ hF2)
      have hend : h.st.pos = endOf h.st.ranges := by
        rcases List.eq_nil_or_concat h.st.ranges with h6 | ⟨l, r, h6⟩
        · exact absurd h6 hne
        · rw [List.concat_eq_append] at h6
          rw [pos_append _ _ _ h6, hi.toEq r (by rw [h6]; simp)]
          simp [endOf, h6]
      have hs' := sim_append hi hs hne hF3.fut hend
      subst h5
      refine ⟨(inv_readLast hn2 (c.env lim np) rfl rfl h.st.ranges (nextRange c.ops h.st) rfl rfl b).1.skip, ?_⟩
      have hA' : FutA c.timeout all ⟨{ h.st with ranges := h.st.ranges ++ [nextRange c.ops h.st] }, h.anchors, h.log⟩ := ⟨hA.eq, hA.fresh, hA.sorted⟩
      exact sim_read hn2 hs' hA' lim lim' np np' b reading h.st.ranges (nextRange c.ops h.st) rfl rfl hF2 log
  obtain ⟨hk, hs2⟩ := key
  have hor2 : offsetReached (readAll (c.env lim' np') .refill P).st = false := by
    rw [offsetReached_iff hs2.al z hz, hs2.off]
    exact decide_eq_false (by simp only [h1]; omega)
  have hg : (group (c.env lim' np') .refill true f P).st = collectStep (c.env lim' np') f (readAll (c.env lim' np') .refill P).st := by
    simp [group, hor, hor2]
  rw [hg]
  exact sim_collect hf hk hs2 lim' np' hF2 log hnc

end Tycho.ExtReader
