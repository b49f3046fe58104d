import Verif.ExtReader.Sim
/-! A group of the refill does what the group of the run did. -/
namespace Tycho.ExtReader
variable {B : Type}

theorem tail_skip {timeout : Nat} {s : St B} {rd : Bool} {o : Nat} {FR l L ext : List (Range B)} {r x : Range B}
    (_hE : Plan timeout s rd o FR l r L x ext) (hstr : ∀ y ∈ ext, o < y.skip) (ops : Ops B) (key : Key) :
    ∀ q ∈ ext.map (restoreRange ops key), o < q.skip := by
  intro q hq
  obtain ⟨y, hy, rfl⟩ := List.mem_map.1 hq
  exact hstr y hy

theorem Plan.len {timeout : Nat} {s : St B} {rd : Bool} {o : Nat} {FR l L ext : List (Range B)} {r x : Range B}
    (hE : Plan timeout s rd o FR l r L x ext) : L.length = l.length := by
  have := congrArg List.length hE.pre
  simpa using this

theorem map_stat_tail {preF Lx pre l' : List (Range B)} {o : Ops B} (h : (preF ++ Lx).map stat = (pre ++ l').map stat) (hp : Pre o pre preF) :
    Lx.map stat = l'.map stat := by
  rw [List.map_append, List.map_append] at h
  exact (List.append_inj h (by simp [hp.length])).2

/-- Nothing is read in the run, and nothing in the refill. -/
theorem sim_none {c : Cfg B} {all : List Anchor} {FR : List (Range B)} {h : H B} {P : St B} (hi : Inv c.ours c.timeout h)
    (hs : Sim c all FR h P) (lim : Nat) (np b : Bool) {rd : Bool} (hF : FutS c.timeout { h.st with allFully := b } rd h.st.off FR)
    (hcl : rd = false ∨ ∀ q ∈ h.st.ranges, q.fully = true) :
    Sim c all FR ⟨{ h.st with allFully := b }, h.anchors, h.log⟩ (readAll (c.env lim np) .refill P).st := by
  obtain ⟨l, r, L, x, ext, hE, hstr⟩ := hF
  have hsr : h.st.ranges = l ++ [r] := hE.hs
  have hto : ∀ q ∈ l, q.cur = q.to := fun q hq => hi.toEq q (by rw [hsr]; exact List.mem_append_left _ hq)
  have hrto : r.cur = r.to := hi.toEq r (by rw [hsr]; simp)
  have hxr : x.to = r.cur := by
    rw [hrto]
    apply hE.closed
    rcases hcl with h1 | h1
    · exact Or.inr h1
    · exact Or.inl (h1 r (by rw [hsr]; simp))
  have hnone : ∀ q ∈ P.ranges, q.fully = true ∨ P.off < q.skip := by
    have hal := hs.al
    rw [hsr] at hal
    rw [hs.off]
    rcases hal.last hE.hF hE.len with ⟨_, _, _, _, h1, _⟩ | ⟨pre, l', preF, Lx, Lp, p, h1, h2, h3, h4, h5, h6⟩
    · rw [h1]
      intro q hq
      exact Or.inr (tail_skip hE hstr _ _ q hq)
    · have hfull : ∀ q ∈ Lp, q.fully = true := by
        apply mem_stat_fully h4
        · apply map_stat_tail (o := c.ops) _ h6
          rw [← h1, ← h2]; exact hE.pre
        · intro q hq; exact hto q (by rw [h1]; exact List.mem_append_right _ hq)
      rw [h3]
      intro q hq
      rcases List.mem_append.1 hq with h7 | h7
      · exact Or.inl (hfull q h7)
      · rcases List.mem_cons.1 h7 with h8 | h8
        · left; rw [h8, h5.fully, hxr]; simp
        · exact Or.inr (tail_skip hE hstr _ _ q h8)
  obtain ⟨b', h1, h2⟩ := refill_none (c.env lim np) P hs.allF hnone
  rw [h1]
  exact ⟨hs.al, hs.off, hs.procTo, hs.cache, hs.block, h2⟩

theorem readLoop_to {e : Env B} {procTo : Nat → Key} {was p2 : Key} {ct : Nat} {C : List Anchor} {s : Rd B} (hto : s.to = p2)
    (hspec : ∃ T, LoopSpec e .toPrev was p2 ct C s (readLoop e .toPrev procTo was p2 ct C s) T)
    (hle : (readLoop e .toPrev procTo was p2 ct C s).rd.cur ≤ p2) : (readLoop e .toPrev procTo was p2 ct C s).rd.to = p2 := by
  obtain ⟨T, hT⟩ := hspec
  rcases hT.to with h1 | h1
  · rw [h1, hto]
  · rw [h1, hto]
    unfold maxKey
    rw [if_neg]
    intro h2
    exact Key.lt_irrefl' _ (Key.lt_of_lt_of_le h2 hle)

/-- The last range is read in the run. -/
theorem sim_read {c : Cfg B} {all : List Anchor} {FR : List (Range B)} {h : H B} {P : St B} (hi : Inv c.ours c.timeout h)
    (hs : Sim c all FR h P) (hA : FutA c.timeout all h) (lim lim' : Nat) (np np' b rd : Bool) (l : List (Range B)) (r : Range B)
    (hr : h.st.ranges = l ++ [r]) (hf : r.fully = false) (hF : FutS c.timeout (h.st.readLast (c.env lim np) l r b) rd h.st.off FR) :
    ∀ log, Sim c all FR ⟨h.st.readLast (c.env lim np) l r b, h.anchors, log⟩ (readAll (c.env lim' np') .refill P).st := by
  intro log
  obtain ⟨T, hT⟩ := readFacts hi (c.env lim np) rfl rfl l r hr hf
  obtain ⟨l2, r2, L, x, ext, hE, hstr⟩ := hF
  generalize hr' : settle h.st.last h.st.block (r.after (readRange (c.env lim np) .toTheEnd h.st.procTo h.st.cache r)) = r' at hT
  have h1 := hE.hs
  simp only [St.readLast, hr'] at h1
  obtain ⟨rfl, h2⟩ := List.append_inj' h1 rfl
  have h3 : r' = r2 := by simpa using h2
  subst h3
  clear h1 h2
  have hst2 : ∀ lg, (⟨h.st.readLast (c.env lim np) l r b, h.anchors, lg⟩ : H B).st.ranges = l ++ [r'] := by intro lg; simp only [St.readLast, hr']
  have hfut2 : ∀ lg, futOf all (⟨h.st.readLast (c.env lim np) l r b, h.anchors, lg⟩ : H B) = futOf all h := fun _ => rfl
  have hmem : r ∈ h.st.ranges := by rw [hr]; simp
  have hgl : h.st.ranges.getLast? = some r := by rw [hr]; simp
  have hpos : h.st.pos = r.cur := pos_append _ _ _ hr
  have hrto := hi.toEq r hmem
  have hto : ∀ q ∈ l, q.cur = q.to := fun q hq => hi.toEq q (by rw [hr]; exact List.mem_append_left _ hq)
  have hx' : r'.cur ≤ x.to := hT.toEq ▸ hE.to
  have hah : ∀ a ∈ h.st.cache, r.cur.a ≤ a.id := fun a ha => hpos ▸ hi.ahead a ha
  have hoff : ∀ a ∈ h.st.cache, a.id = r.cur.a → r.cur.o < a.exts.length := fun a ha => hpos ▸ hi.off a ha
  have hle : r.cur ≤ r'.cur := Key.le_trans hT.spec.le hT.le
  obtain ⟨J, hJ1, hJ2⟩ := hs.cache
  have hJ3 : ∀ a ∈ J, a.id < r.cur.a ∨ (a.id = r.cur.a ∧ expiredAt c.timeout r.ct a.ct = true) := by
    intro a ha
    obtain ⟨q, q1, q2⟩ := hJ2 a ha
    rw [hgl] at q1; cases q1; exact q2
  obtain ⟨s1, s2, s3, s4, s5⟩ := hT.stat4
  have hal := hs.al
  rw [hr] at hal
  -- what to do when the position does not move
  have hstill : x.to = r.cur → (∀ q ∈ P.ranges, q.fully = true ∨ P.off < q.skip) →
      (r'.cur = r.cur → r'.buf = r.buf → Aligned c.ops (P.procTo 0) (l ++ [r']) FR P.ranges) →
      Sim c all FR ⟨h.st.readLast (c.env lim np) l r b, h.anchors, log⟩ (readAll (c.env lim' np') .refill P).st := by
    intro hx hnone hal'
    obtain ⟨k1, k2, Q, k3, k4⟩ := read_still hT (hx ▸ hx') hah hoff
    obtain ⟨b', m1, m2⟩ := refill_none (c.env lim' np') P hs.allF hnone
    rw [m1]
    refine ⟨?_, hs.off, hs.procTo, ?_, hs.block, m2⟩
    · rw [hst2]; exact hal' k1 k2
    · refine ⟨J ++ Q, ?_, ?_⟩
      · have k5 : ∀ (C o X : List Anchor), C = Q ++ o → J ++ (C ++ X) = (J ++ Q) ++ (o ++ X) := by
          intro C o X hC; rw [hC]; simp
        rw [hJ1]
        exact k5 _ _ _ k3
      · intro a ha
        refine ⟨r', by rw [hst2]; simp, ?_⟩
        rw [k1, s3]
        rcases List.mem_append.1 ha with h4 | h4
        · exact hJ3 a h4
        · exact Or.inr (k4 a h4)
  rcases hal.last hE.hF hE.len with ⟨h1, h2, h3, h4, h5, h6⟩ | ⟨pre, l', preF, Lx, Lp, p, h1, h2, h3, h4, h5, h6⟩
  · -- the range that the refill dropped
    refine hstill h4 ?_ ?_
    · rw [h5, hs.off]
      intro q hq
      exact Or.inr (tail_skip hE hstr _ _ q hq)
    · intro k1 k2
      refine ⟨[r'], [], [x], [], ext, [], by rw [h1]; rfl, ?_, by rw [h5]; rfl, A3.nil, h5 ▸ h6, ?_⟩
      · rw [hE.hF, h2]; rfl
      · exact Pre.one r' x (by rw [k2]; exact h3) (by rw [k1]; exact h4)
  · have hstat := h5.st
    simp only [stat, Prod.mk.injEq] at hstat
    obtain ⟨u1, u2, u3, u4, u5, u6⟩ := hstat
    have hfull : ∀ q ∈ Lp, q.fully = true := by
      apply mem_stat_fully h4
      · apply map_stat_tail (o := c.ops) _ h6
        rw [← h1, ← h2]; exact hE.pre
      · intro q hq; exact hto q (by rw [h1]; exact List.mem_append_right _ hq)
    cases hpf : p.fully with
    | true =>
      have hx : r.cur = x.to := by
        have := h5.fully
        rw [hpf] at this
        simpa using this.symm
      refine hstill hx.symm ?_ ?_
      · rw [h3, hs.off]
        intro q hq
        rcases List.mem_append.1 hq with h7 | h7
        · exact Or.inl (hfull q h7)
        · rcases List.mem_cons.1 h7 with h8 | h8
          · left; rw [h8]; exact hpf
          · exact Or.inr (tail_skip hE hstr _ _ q h8)
      · intro k1 k2
        refine ⟨pre, l' ++ [r'], preF, Lx ++ [x], ext, Lp ++ [p], by rw [h1]; simp, by rw [hE.hF, h2]; simp, by rw [h3]; simp,
          h4.append (A3.cons ⟨h5.st, by rw [s1]; exact h5.seqno, by rw [s3]; exact h5.ct, by rw [s4]; exact h5.skip, by rw [k2]; exact h5.buf,
            by rw [k1]; exact h5.fully, by rw [k1]; exact h5.cur⟩ A3.nil), by rw [h3]; simp, h6⟩
    | false =>
      have hpcur := h5.cur hpf
      have hnx : ¬ r.cur = x.to := by
        have := h5.fully
        rw [hpf] at this
        simpa using this.symm
      have hxm : x ∈ FR := by rw [hE.hF]; simp
      have hskipP : p.skip ≤ P.off := by rw [h5.skip, hs.off]; exact (hi.skip r hmem).1
      have hseqP : p.seqno ≠ P.block := by
        have := hs.block x hxm
        rw [u1]; omega
      obtain ⟨b', m1, m2⟩ := refill_one (c.env lim' np') P Lp p (ext.map (restoreRange c.ops (P.procTo 0))) h3 hs.allF hfull hpf hseqP hskipP
        (by rw [hs.off]; exact fun q hq => Or.inr (tail_skip hE hstr _ _ q hq))
      -- both reads
      rw [readRange_env c lim' lim np' np] at m1 m2
      generalize ho2 : readRange (c.env lim np) .toPrev P.procTo P.cache p = o2 at m1 m2
      generalize ho : readRange (c.env lim np) .toTheEnd h.st.procTo h.st.cache r = o at hT
      have hdef : readRange (c.env lim np) .toPrev P.procTo P.cache p =
          readLoop (c.env lim np) .toPrev h.st.procTo r.cur x.to r.ct (J ++ (h.st.cache ++ (futOf all h).filter (hasOurs c.ours)))
            ⟨r.cur, x.to, r.buf, false, c.ops.full r.buf, []⟩ := by
        unfold readRange
        rw [hJ1, hs.procTo, hpcur, u3, h5.ct, h5.buf]; rfl
      have hwx : r.cur ≤ x.to := Key.le_trans hle hx'
      obtain ⟨t, t1, t2, t3⟩ := readLoop_junk (c.env lim np) h.st.procTo r.cur x.to r.ct (h.st.cache ++ (futOf all h).filter (hasOurs c.ours)) J
        ⟨r.cur, x.to, r.buf, false, c.ops.full r.buf, []⟩ hJ3 rfl hwx
      rw [ho2, t3] at hdef
      have hX : ∀ y ∈ (futOf all h).filter (hasOurs c.ours), y.exts ≠ [] ∧ expiredAt (c.env lim np).timeout r.ct y.ct = false := by
        intro y hy
        obtain ⟨y1, y2⟩ := List.mem_filter.1 hy
        refine ⟨fun hn => by simp [hasOurs, hn] at y2, ?_⟩
        have y3 := hA.fresh y y1
        cases hc : expiredAt (c.env lim np).timeout r.ct y.ct with
        | false => rfl
        | true =>
          have := expired_mono hc (hi.ctLe r hmem)
          change expiredAt c.timeout h.st.ct y.ct = true at this
          rw [y3] at this; cases this
      have hXid : ∀ a ∈ h.anchors, ∀ y ∈ futOf all h, a.id < y.id := by
        have h7 := hA.sorted
        rw [hA.eq] at h7
        exact (List.pairwise_append.1 h7).2.2
      have hlk := readLoop_lock (c.env lim np) h.st.procTo r.cur r.to x.to r.ct ((futOf all h).filter (hasOurs c.ours))
        (fun par => hpos ▸ hi.proc par) hX h.st.cache ⟨r.cur, r.to, r.buf, false, c.ops.full r.buf, []⟩ t hi.cache_sorted hoff hi.cache_ne rfl
        (Key.le_refl _) (Or.inl rfl) ⟨t1.cur, t1.buf, t1.filled, t1.put⟩
      have hoe : readLoop (c.env lim np) .toTheEnd h.st.procTo r.cur r.to r.ct h.st.cache ⟨r.cur, r.to, r.buf, false, c.ops.full r.buf, []⟩ = o := ho
      rw [hoe, ← hdef] at hlk
      have hoc : o.fully = true → x.to = r'.cur := by
        intro h7
        rw [hT.toEq]
        exact hE.closed (Or.inl (by rw [hT.fully]; exact h7))
      obtain ⟨g1, g2, g3, g4⟩ := hlk (Key.le_trans hT.le hx') (by
        intro h7 y hy
        have hyf := (List.mem_filter.1 hy).1
        cases hlast : h.st.last with
        | none =>
          exfalso
          have hanc : h.anchors = [] := by
            have := hi.last
            rw [hlast] at this
            cases hg : h.anchors.getLast? with
            | none => exact List.getLast?_eq_none_iff.1 hg
            | some z => rw [hg] at this; cases this
          have h8 := hT.atNone hlast
          rcases hT.spec.curIn with h9 | ⟨a, ha, _⟩
          · exact hnx (by rw [hoc h7, h8, h9])
          · have := (hi.cache_sub ha).1
            rw [hanc] at this; cases this
        | some pr =>
          obtain ⟨id, n⟩ := pr
          have h8 := hT.atEnd h7 id n hlast
          have h9 := hi.last
          rw [hlast] at h9
          cases hg : h.anchors.getLast? with
          | none => rw [hg] at h9; cases h9
          | some z =>
            rw [hg] at h9
            simp at h9
            rw [hoc h7, h8, h9.1]
            exact hXid z (List.mem_of_getLast? hg) y hyf)
      -- the same end
      have hsrt : Sorted (h.st.cache ++ (futOf all h).filter (hasOurs c.ours)) := by
        obtain ⟨Pp, p1, _⟩ := hi.popped
        have h7 : Sorted (all.filter (hasOurs c.ours)) := List.Pairwise.filter _ hA.sorted
        rw [hA.eq, List.filter_append, p1, List.append_assoc] at h7
        exact (List.pairwise_append.1 h7).2.1
      have hspec2 := readLoop_spec (c.env lim np) .toPrev h.st.procTo r.cur x.to r.ct (fun par => hpos ▸ hi.proc par) (fun _ => hwx)
        (h.st.cache ++ (futOf all h).filter (hasOurs c.ours)) t hsrt
        (by
          intro a ha hid
          rcases List.mem_append.1 ha with h7 | h7
          · exact hoff a h7 hid
          · have hne := (hX a h7).1
            have hlen := List.length_pos_iff.2 hne
            have hpi := hi.posIn
            rw [hpos] at hpi
            rcases hpi with h8 | ⟨z, hz, h8, _⟩
            · rw [h8]; exact hlen
            · have := hXid z hz a (List.mem_filter.1 h7).1
              omega)
        (by
          intro a ha
          rcases List.mem_append.1 ha with h7 | h7
          · exact hi.cache_ne a h7
          · exact (hX a h7).1)
        (by rw [← t1.filled, ← t1.buf]; rfl) (by rw [← t1.cur]; exact Key.le_refl _) (Or.inl t1.cur.symm)
      have hto2 : o2.rd.to = x.to := by
        have h7 := readLoop_to (e := c.env lim np) (procTo := h.st.procTo) (was := r.cur) (p2 := x.to) (ct := r.ct)
          (C := h.st.cache ++ (futOf all h).filter (hasOurs c.ours)) (s := t) (by rw [t2]) hspec2
        rw [← hdef] at h7
        apply h7
        rw [← g1.cur]; exact Key.le_trans hT.le hx'
      have hful : o2.fully = decide (r'.cur = x.to) := by
        by_cases h7 : r'.cur = x.to
        · rw [decide_eq_true h7]
          apply g3
          cases h8 : o.fully with
          | true => exact Or.inl rfl
          | false => right; rw [← hT.atCur h8]; exact h7
        · rw [decide_eq_false h7]
          cases h8 : o2.fully with
          | false => rfl
          | true =>
            exfalso
            apply h7
            rcases g4 h8 with h9 | h9 | ⟨a, rest, h9, h10, h11, h12⟩
            · exact (hoc h9).symm
            · exact Key.le_antisymm' hx' (h9 ▸ hT.le)
            · have hof : o.fully = false := by
                cases h13 : o.fully with
                | false => rfl
                | true => have := hT.spec.atEnd rfl h13; rw [h9] at this; cases this
              rcases hE.next with h13 | h13
              · exact h13.symm
              · rcases h13 a (by simp only [St.readLast, ho, h9]; rfl) with h14 | h14 | h14
                · rw [s3] at h14
                  rw [show expiredAt c.timeout r.ct a.ct = false from h10] at h14; cases h14
                · rw [hT.atCur hof] at h14; omega
                · exact absurd h14 h12
      rw [m1]
      refine ⟨?_, hs.off, hs.procTo, ?_, hs.block, m2⟩
      · rw [hst2]
        refine ⟨pre, l' ++ [r'], preF, Lx ++ [x], ext, Lp ++ [p.after o2], by rw [h1]; simp, by rw [hE.hF, h2]; simp, by simp,
          h4.append (A3.cons ?_ A3.nil), by simp, h6⟩
        refine ⟨?_, by rw [s1]; exact h5.seqno, by rw [s3]; exact h5.ct, by rw [s4]; exact h5.skip, ?_, hful, ?_⟩
        · simp only [stat, Range.after, Prod.mk.injEq]
          exact ⟨u1, u2, hto2, u4, u5, u6⟩
        · rw [hT.buf]; exact g1.buf.symm
        · intro h7
          have h7' : o2.fully = false := h7
          have hof : o.fully = false := by
            cases h13 : o.fully with
            | false => rfl
            | true => rw [g3 (Or.inl h13)] at h7'; cases h7'
          rw [hT.atCur hof]; exact g1.cur.symm
      · refine ⟨[], ?_, by simp⟩
        simp only [List.nil_append, g2, St.readLast, ho]; rfl

end Tycho.ExtReader
