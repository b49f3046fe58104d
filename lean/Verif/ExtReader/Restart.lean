import Verif.ExtReader.SimRun
/-! From a restart to the state that the run started from. -/
namespace Tycho.ExtReader
variable {B : Type}

/-- No range has a processed offset above that of the last one. -/
def PM (s : St B) : Prop := ∀ r, s.ranges.getLast? = some r → ∀ q ∈ s.ranges, q.proc ≤ r.proc

theorem pm_single {s : St B} {r : Range B} (h : s.ranges = [r]) : PM s := by
  intro x hx q hq
  rw [h] at hx hq
  simp only [List.getLast?_singleton, Option.some.injEq] at hx
  rw [List.mem_singleton.1 hq, hx]
  exact Nat.le_refl _

theorem pm_concat {s : St B} {l : List (Range B)} {r : Range B} (h : s.ranges = l ++ [r]) (hl : ∀ q ∈ l, q.proc ≤ r.proc) : PM s := by
  intro x hx q hq
  rw [h] at hx hq
  simp only [getLast_append_one, Option.some.injEq] at hx
  subst hx
  rcases List.mem_append.1 hq with h1 | h1
  · exact hl q h1
  · rw [List.mem_singleton.1 h1]; exact Nat.le_refl _

theorem pm_noBuf {s s' : St B} (h : PM s) (hr : s'.ranges.map noBuf = s.ranges.map noBuf) : PM s' := by
  intro x hx q hq
  obtain ⟨x', h1, h2⟩ := getLast_noBuf hr hx
  obtain ⟨q', h3, h4⟩ := mem_noBuf hr hq
  rw [nb_proc h2, nb_proc h4]
  exact h x' h1 q' h3

theorem pm_collect {s : St B} (h : PM s) (e : Env B) (f : Collect B) : PM (collectStep e f s) := by
  have h1 : PM { s with off := s.off + 1, ranges := putBufs (s.off + 1) s.ranges (f (s.off + 1) (seen (s.off + 1) s.ranges)) } :=
    pm_noBuf h (putBufs_noBuf _ _ _)
  unfold collectStep
  simp only
  split
  · unfold finishCollected
    split
    · exact h1
    · exact pm_single rfl
  · exact h1

theorem pm_finalize {ours : Nat → Bool} {timeout : Nat} {h : H B} (hi : Inv ours timeout h) (hp : PM h.st) : PM (finalize h.st) := by
  unfold finalize
  split
  · exact hp
  · rename_i r hl
    split
    · apply pm_concat rfl
      intro q hq
      exact (hi.skip q (List.dropLast_subset _ hq)).2
    · exact hp

theorem pm_reach {ours : Nat → Bool} {timeout : Nat} {h : H B} (hr : Reach ours timeout h) : PM h.st := by
  induction hr with
  | start block ct => intro r hr; simp [start] at hr
  | @step h h' hr hs ih =>
    have hi := inv_reach hr
    cases hs with
    | imp a _ => exact ih
    | group e reading f he ht =>
      have hg : (group e .continue_ reading f h.st).st =
          collectStep e f (if !reading then (⟨h.st, [], false⟩ : Res B) else readAll e .continue_ h.st).st := by simp [group]
      simp only
      rw [hg]
      apply pm_collect
      cases reading with
      | false => exact ih
      | true =>
        simp only [Bool.not_true, Bool.false_eq_true, if_false]
        rcases readAll_cases hi e with ⟨b, h1, h2⟩ | ⟨l, r, b, h1, h2, h3, h4⟩ | ⟨b, h1, h2, h3, h4⟩
        · rw [h1]; exact ih
        · rw [h3]
          obtain ⟨T, hT⟩ := readFacts hi e he ht l r h1 h2
          apply pm_concat rfl
          intro q hq
          rw [hT.stat4.2.2.2.2]
          exact ih r (by rw [h1]; simp) q (by rw [h1]; exact List.mem_append_left _ hq)
        · rw [h2]
          obtain ⟨hn, _, _⟩ := inv_newRange hi e.ops h1
          obtain ⟨T, hT⟩ := readFacts hn e he ht h.st.ranges (nextRange e.ops h.st) rfl rfl
          apply pm_concat rfl
          intro q hq
          have := hT.stat4.2.2.2.2
          simp only at this ⊢
          rw [this]
          exact (hi.skip q hq).2
    | refill e f he ht => rw [refill_noop hi]; exact ih
    | reset => exact ih
    | drop hlen =>
      unfold dropOffset
      split
      · exact ih
      · rename_i r hl
        obtain ⟨l, h1⟩ := List.getLast?_eq_some_iff.1 hl
        have : l = [] := by
          rw [h1] at hlen
          simpa using hlen
        subst this
        apply pm_single (r := { r with proc := 0, skip := 0 })
        simp [h1]
    | block b ct _ _ =>
      have h1 := pm_finalize hi ih
      intro x hx q hq
      simp only [newBlock, List.getLast?_map] at hx
      simp only [newBlock, List.mem_map] at hq
      obtain ⟨q', q1, q2⟩ := hq
      cases hg : (finalize h.st).ranges.getLast? with
      | none => rw [hg] at hx; cases hx
      | some x' =>
        rw [hg] at hx
        simp only [Option.map_some, Option.some.injEq] at hx
        rw [← hx, ← q2]
        exact h1 x' hg q' q1

/-- At the end of a block the processed offset of the last range is the current one. -/
theorem fin_last {ours : Nat → Bool} {timeout : Nat} {h : H B} (hr : Reach ours timeout h) (hne : h.st.ranges ≠ []) :
    ∃ z, (finalize h.st).ranges.getLast? = some z ∧ z.proc = h.st.off := by
  have hi := inv_reach hr
  have hp := pm_reach hr
  unfold finalize
  cases hl : h.st.ranges.getLast? with
  | none => exact absurd (List.getLast?_eq_none_iff.1 hl) hne
  | some r =>
    simp only
    split
    · exact ⟨_, getLast_append_one _ _, rfl⟩
    · rename_i hc
      refine ⟨r, hl, ?_⟩
      have h1 := (hi.skip r (List.mem_of_getLast? hl)).2
      simp only [List.all_eq_true, decide_eq_true_eq] at hc
      by_cases h2 : r.proc = h.st.off
      · exact h2
      · exfalso
        apply hc
        intro q hq
        have := hp r hl q hq
        omega

/-- The state when all read messages have just been collected. -/
def Clean (o : Ops B) (s : St B) : Prop :=
  ∃ r, s.ranges = [r] ∧ r.lo = r.cur ∧ s.procTo = (fun _ => r.cur) ∧ r.buf = o.empty ∧ r.skip = s.off ∧ r.proc = s.off

/-- One group of a refill before the skip offsets. -/
theorem idle_step (e : Env B) (f : Collect B) (P : St B) (hall : P.allFully = true → ∀ q ∈ P.ranges, q.fully = true)
    (hk : ∀ q ∈ P.ranges, P.off + 1 ≤ q.skip) (hor : offsetReached P = false) :
    ∃ b, (group e .refill true f P).st = (if allCollected e.ops (P.off + 1) P.ranges then finishCollected { P with off := P.off + 1, allFully := b }
      else { P with off := P.off + 1, allFully := b }) ∧ (b = true → ∀ q ∈ P.ranges, q.fully = true) := by
  obtain ⟨b, h1, h2⟩ := refill_none e P hall (fun q hq => Or.inr (by have := hk q hq; omega))
  refine ⟨b, ?_, h2⟩
  have hor2 : offsetReached (readAll e .refill P).st = false := by rw [h1]; exact hor
  have hg : (group e .refill true f P).st = collectStep e f (readAll e .refill P).st := by
    simp [group, hor, hor2]
  rw [hg, h1]
  unfold collectStep
  simp only
  rw [putBufs_none (P.off + 1) P.ranges _ hk]

theorem idle_to (e : Env B) (f : Collect B) (P : St B) (h0 : P.off = 0) (hall : P.allFully = true → ∀ q ∈ P.ranges, q.fully = true)
    (o0 : Nat) (hk : ∀ q ∈ P.ranges, o0 ≤ q.skip) (hne : P.ranges ≠ []) (z : Range B) (hz : P.ranges.getLast? = some z) (hzp : o0 ≤ z.proc) :
    ∀ k, k < o0 → ∃ b, (∀ n, refill e f (k + n) P = refill e f n { P with off := k, allFully := b }) ∧
      (b = true → ∀ q ∈ P.ranges, q.fully = true) := by
  intro k
  induction k with
  | zero =>
    intro _
    refine ⟨P.allFully, fun n => ?_, hall⟩
    rw [Nat.zero_add]
    congr 1
    obtain ⟨_, _, _, _, _, _, _, _⟩ := P
    simp only at h0; subst h0; rfl
  | succ k ih =>
    intro hlt
    obtain ⟨b, h1, h2⟩ := ih (by omega)
    have hor : offsetReached ({ P with off := k, allFully := b } : St B) = false := by
      unfold offsetReached
      simp only [hz]
      exact decide_eq_false (by omega)
    obtain ⟨b', k1, k2⟩ := idle_step e f { P with off := k, allFully := b } h2 (fun q hq => by have := hk q hq; simp only; omega) hor
    refine ⟨b', fun n => ?_, k2⟩
    rw [show k + 1 + n = k + (n + 1) from by omega, h1, refill, hor]
    simp only [Bool.false_eq_true, if_false]
    rw [k1, if_neg]
    intro hc
    have := List.all_eq_true.1 hc z (List.mem_of_getLast? hz)
    simp only [Bool.and_eq_true, decide_eq_true_eq] at this
    have := hk z (List.mem_of_getLast? hz)
    omega

theorem reload_cache {c : Cfg B} {all : List Anchor} {h : H B} (hi : Inv c.ours c.timeout h) (hA : FutA c.timeout all h) (r : Range B)
    (hr : h.st.ranges = [r]) :
    ∃ J, reload c.ours r.cur all = J ++ (h.st.cache ++ (futOf all h).filter (hasOurs c.ours)) ∧
      ∀ a ∈ J, ∃ r', h.st.ranges.getLast? = some r' ∧ (a.id < r'.cur.a ∨ (a.id = r'.cur.a ∧ expiredAt c.timeout r'.ct a.ct = true)) := by
  have hpos : h.st.pos = r.cur := by simp [St.pos, hr]
  have hgl : h.st.ranges.getLast? = some r := by rw [hr]; rfl
  obtain ⟨Pp, p1, p2⟩ := hi.popped
  generalize hpred : (fun a : Anchor => decide (r.cur.a ≤ a.id) && !(decide (a.id = r.cur.a) && decide (a.exts.length = r.cur.o))) = pred
  have hre : reload c.ours r.cur all = (all.filter (hasOurs c.ours)).filter pred := by
    unfold reload
    rw [List.filter_filter, ← hpred]
    congr 1
    funext a
    simp only [hasOurs]
    generalize a.exts.any (fun m => c.ours m.dst) = x
    cases x <;> simp
  have hc : h.st.cache.filter pred = h.st.cache := by
    rw [List.filter_eq_self]
    intro a ha
    have h1 := hi.ahead a ha
    have h2 := hi.off a ha
    rw [hpos] at h1 h2
    rw [← hpred]
    simp only [Bool.and_eq_true, Bool.not_eq_true', decide_eq_true_eq, Bool.and_eq_false_iff, decide_eq_false_iff_not]
    refine ⟨h1, ?_⟩
    by_cases h3 : a.id = r.cur.a
    · right; have := h2 h3; omega
    · exact Or.inl h3
  have hfu : ((futOf all h).filter (hasOurs c.ours)).filter pred = (futOf all h).filter (hasOurs c.ours) := by
    rw [List.filter_eq_self]
    intro a ha
    obtain ⟨a1, a2⟩ := List.mem_filter.1 ha
    have hlen : a.exts.length ≠ 0 := by
      intro h0
      have : a.exts = [] := List.eq_nil_of_length_eq_zero h0
      simp [hasOurs, this] at a2
    have hlt : ∀ b ∈ h.anchors, b.id < a.id := by
      have h7 := hA.sorted
      rw [hA.eq] at h7
      intro b hb
      exact (List.pairwise_append.1 h7).2.2 b hb a a1
    rw [← hpred]
    simp only [Bool.and_eq_true, Bool.not_eq_true', decide_eq_true_eq, Bool.and_eq_false_iff, decide_eq_false_iff_not]
    rcases hi.posIn with h1 | ⟨b, hb, h1, _⟩
    · rw [hpos] at h1
      rw [h1]
      exact ⟨Nat.zero_le _, Or.inr hlen⟩
    · rw [hpos] at h1
      have := hlt b hb
      exact ⟨by omega, Or.inl (by omega)⟩
  refine ⟨Pp.filter pred, ?_, ?_⟩
  · rw [hre]
    conv => lhs; rw [hA.eq]
    rw [List.filter_append, p1, List.filter_append, List.filter_append, hc, hfu, List.append_assoc]
  · intro a ha
    obtain ⟨a1, a2⟩ := List.mem_filter.1 ha
    refine ⟨r, hgl, ?_⟩
    obtain ⟨r', q1, q2⟩ := p2 a a1
    rw [hgl] at q1
    cases q1
    rw [← hpred] at a2
    simp only [Bool.and_eq_true, Bool.not_eq_true', decide_eq_true_eq, Bool.and_eq_false_iff, decide_eq_false_iff_not] at a2
    rcases q2 with h1 | ⟨h1, h2 | h2⟩
    · exact Or.inl h1
    · exfalso
      have ham : a ∈ h.anchors := by
        have : a ∈ h.anchors.filter (hasOurs c.ours) := by rw [p1]; exact List.mem_append_left _ a1
        exact (List.mem_filter.1 this).1
      have hne : a.exts.length ≠ r.cur.o := a2.2.resolve_left (fun h => h h1)
      have hho : hasOurs c.ours a = true := by
        have : a ∈ h.anchors.filter (hasOurs c.ours) := by rw [p1]; exact List.mem_append_left _ a1
        exact (List.mem_filter.1 this).2
      rcases hi.posIn with h3 | ⟨b, hb, h3, h4⟩
      · rw [hpos] at h3
        rw [h3] at h2
        have h0 : a.exts = [] := List.eq_nil_of_length_eq_zero (Nat.le_zero.1 h2)
        simp [hasOurs, h0] at hho
      · rw [hpos] at h3 h4
        have := sorted_eq_of_id hi.sorted ham hb (h1.trans h3)
        subst this
        omega
    · exact Or.inr ⟨h1, h2⟩

/-- The state of the restarted node once the offset of the start of the run is reached. -/
theorem sim_base {c : Cfg B} {all : List Anchor} {FR : List (Range B)} {h : H B} (hi : Inv c.ours c.timeout h) (hA : FutA c.timeout all h)
    {rd : Bool} (hF : Fut c.timeout h.st rd h.st.off FR) (hc : Clean c.ops h.st) (P : St B) (hoff : P.off = h.st.off)
    (hproc : P.procTo = h.st.procTo) (hcache : P.cache = reload c.ours (h.st.procTo 0) all)
    (hblock : ∀ x ∈ FR, x.seqno < P.block) (hr : P.ranges = FR.map (restoreRange c.ops (h.st.procTo 0)))
    (hall : P.allFully = true → ∀ q ∈ P.ranges, q.fully = true) : Sim c all FR h P := by
  obtain ⟨r, c1, c2, c3, c4, c5, c6⟩ := hc
  have hkey : h.st.procTo 0 = r.cur := by rw [c3]
  obtain ⟨l, r2, L, x, ext, hE⟩ := hF
  have hs := hE.hs
  rw [c1] at hs
  have hl : l = [] := by
    have := congrArg List.length hs
    rw [List.length_append] at this
    apply List.eq_nil_of_length_eq_zero
    simp only [List.length_cons, List.length_nil] at this; omega
  subst hl
  have hr2 : r = r2 := by simpa using hs
  subst hr2
  have hL : L = [] := List.eq_nil_of_length_eq_zero hE.len
  subst hL
  have hFR : FR = x :: ext := hE.hF
  obtain ⟨e1, e2, e3, e4⟩ := hE.same
  have hrto := hi.toEq r (by rw [c1]; simp)
  have hxlo : x.lo = r.cur := by rw [e2, c2]
  have hcur : (restoreRange c.ops r.cur x).cur = r.cur := by
    have hle : r.cur ≤ x.to := hrto ▸ hE.to
    rw [restore_cur c.ops r.cur x (by rw [hxlo]; exact Key.le_refl _) (by rw [hxlo]; exact hle), hxlo]
  refine ⟨?_, hoff, hproc, ?_, hblock, hall⟩
  · refine ⟨[], [r], [], [x], ext, [restoreRange c.ops r.cur x], by rw [c1]; rfl, by rw [hFR]; rfl, ?_, A3.cons ?_ A3.nil, ?_, Pre.none⟩
    · rw [hr, hproc, hkey, hFR]; rfl
    · refine ⟨rfl, e1, e3, e4, c4.symm, ?_, fun _ => hcur⟩
      change decide ((restoreRange c.ops r.cur x).cur = x.to) = _
      rw [hcur]
    · rw [hr, hFR]; simp
  · rw [hcache, hkey]
    exact reload_cache hi hA r c1

/-- The same, when the refill drops the first range there. -/
theorem sim_dropped {c : Cfg B} {all : List Anchor} {FR : List (Range B)} {h : H B} (hi : Inv c.ours c.timeout h) (hA : FutA c.timeout all h)
    {rd : Bool} (hF : Fut c.timeout h.st rd h.st.off FR) (hc : Clean c.ops h.st) (hce : c.ops.count c.ops.empty = 0) (P : St B) (hoff : P.off = h.st.off)
    (hproc : P.procTo = h.st.procTo) (hcache : P.cache = reload c.ours (h.st.procTo 0) all)
    (hblock : ∀ x ∈ FR, x.seqno < P.block) (hr : P.ranges = FR.map (restoreRange c.ops (h.st.procTo 0)))
    (z : Range B) (hz : FR.getLast? = some z) (hzp : h.st.off ≤ z.proc)
    (hcol : allCollected c.ops P.off P.ranges = true) : Sim c all FR h (finishCollected P) := by
  have hc0 := hc
  obtain ⟨r, c1, c2, c3, c4, c5, c6⟩ := hc
  have hkey : h.st.procTo 0 = r.cur := by rw [c3]
  have hF0 := hF
  obtain ⟨l, r2, L, x, ext, hE⟩ := hF
  have hs := hE.hs
  rw [c1] at hs
  have hl : l = [] := by
    have := congrArg List.length hs
    rw [List.length_append] at this
    apply List.eq_nil_of_length_eq_zero
    simp only [List.length_cons, List.length_nil] at this; omega
  subst hl
  have hr2 : r = r2 := by simpa using hs
  subst hr2
  have hL : L = [] := List.eq_nil_of_length_eq_zero hE.len
  subst hL
  have hFR : FR = x :: ext := hE.hF
  obtain ⟨e1, e2, e3, e4⟩ := hE.same
  have hrto := hi.toEq r (by rw [c1]; simp)
  have hxlo : x.lo = r.cur := by rw [e2, c2]
  have hle : r.cur ≤ x.to := hrto ▸ hE.to
  have hcur : (restoreRange c.ops r.cur x).cur = r.cur := by
    rw [restore_cur c.ops r.cur x (by rw [hxlo]; exact Key.le_refl _) (by rw [hxlo]; exact hle), hxlo]
  have hsk : ∀ y ∈ FR, y.skip ≤ h.st.off := by
    intro y hy
    have := List.all_eq_true.1 hcol (restoreRange c.ops (h.st.procTo 0) y) (by rw [hr]; exact List.mem_map_of_mem hy)
    simp only [Bool.and_eq_true, decide_eq_true_eq] at this
    rw [← hoff]; exact this.2
  -- what the last range becomes
  have hfin : ∀ w : Range B, P.ranges.getLast? = some w → w.lo = w.cur → w.cur = r.cur → h.st.off ≤ w.proc → w.seqno < P.block →
      finishCollected P = { P with ranges := [w], allFully := false } := by
    intro w w1 w2 w3 w4 w5
    unfold finishCollected
    rw [w1]
    simp only
    rw [if_neg (by omega), if_pos w5]
    obtain ⟨pc, pl, pr, pp, po, pb, pct, pa⟩ := P
    obtain ⟨ws, wlo, wto, wcur, wct, wsk, wpr, wbuf, wf⟩ := w
    simp only at w2 w3 hproc ⊢
    subst w2
    rw [w3] at *
    rw [hproc, c3]
  cases hext : ext with
  | nil =>
    rw [hext] at hFR
    have hxz : x = z := by rw [hFR] at hz; simpa using hz
    have hPr : P.ranges = [restoreRange c.ops r.cur x] := by rw [hr, hFR, hkey]; rfl
    have := hfin (restoreRange c.ops r.cur x) (by rw [hPr]; rfl) (by rw [hcur]; exact hxlo) hcur (by change _ ≤ x.proc; rw [hxz]; exact hzp)
      (hblock x (by rw [hFR]; simp))
    rw [this]
    exact sim_base hi hA hF0 hc0 _ hoff hproc hcache hblock (by simp only; rw [← hPr]; exact hr) (by intro h1; cases h1)
  | cons y t =>
    have ht : t = [] := by
      cases t with
      | nil => rfl
      | cons w t =>
        exfalso
        have h1 := hE.tl w (by rw [hext]; simp)
        have h2 := hsk w (by rw [hFR, hext]; simp)
        omega
    subst ht
    rw [hext] at hFR
    have hyz : y = z := by rw [hFR] at hz; simpa using hz
    obtain ⟨y1, y2⟩ := hE.head y (by rw [hext]; rfl)
    obtain ⟨_, y3, _⟩ := hE.tail y (by rw [hext]; simp)
    have hxto : x.to = r.cur := by
      rcases y2 with h1 | h1
      · have := hsk y (by rw [hFR]; simp)
        omega
      · rw [h1, hrto]
    have hylo : y.lo = r.cur := by rw [y1, hxto]
    have hycur : (restoreRange c.ops r.cur y).cur = r.cur := by
      rw [restore_cur c.ops r.cur y (by rw [hylo]; exact Key.le_refl _) y3, hylo]
    have hPr : P.ranges = [restoreRange c.ops r.cur x, restoreRange c.ops r.cur y] := by rw [hr, hFR, hkey]; rfl
    have := hfin (restoreRange c.ops r.cur y) (by rw [hPr]; rfl) (by rw [hycur]; exact hylo) hycur (by change _ ≤ y.proc; rw [hyz]; exact hzp)
      (hblock y (by rw [hFR]; simp))
    rw [this]
    refine ⟨?_, hoff, hproc, ?_, hblock, by intro h1; cases h1⟩
    · refine ⟨[r], [], [x], [], [y], [], by rw [c1]; rfl, by rw [hFR]; rfl, ?_, A3.nil, by simp, Pre.one r x c4 hxto⟩
      simp only [hproc, hkey]; rfl
    · simp only
      rw [hcache, hkey]
      exact reload_cache hi hA r c1

end Tycho.ExtReader
