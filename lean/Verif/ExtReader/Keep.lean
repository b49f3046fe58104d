import Verif.ExtReader.Run
/-! The other steps keep the invariant. -/
namespace Tycho.ExtReader
variable {B : Type}

/-- A range without its buffers. -/
def noBuf (r : Range B) : Range Unit := ⟨r.seqno, r.lo, r.to, r.cur, r.ct, r.skip, r.proc, (), r.fully⟩

theorem nb_seqno {r q : Range B} (h : noBuf r = noBuf q) : r.seqno = q.seqno := congrArg (Range.seqno (B := Unit)) h
theorem nb_to {r q : Range B} (h : noBuf r = noBuf q) : r.to = q.to := congrArg (Range.to (B := Unit)) h
theorem nb_cur {r q : Range B} (h : noBuf r = noBuf q) : r.cur = q.cur := congrArg (Range.cur (B := Unit)) h
theorem nb_ct {r q : Range B} (h : noBuf r = noBuf q) : r.ct = q.ct := congrArg (Range.ct (B := Unit)) h
theorem nb_skip {r q : Range B} (h : noBuf r = noBuf q) : r.skip = q.skip := congrArg (Range.skip (B := Unit)) h
theorem nb_proc {r q : Range B} (h : noBuf r = noBuf q) : r.proc = q.proc := congrArg (Range.proc (B := Unit)) h
theorem nb_fully {r q : Range B} (h : noBuf r = noBuf q) : r.fully = q.fully := congrArg (Range.fully (B := Unit)) h

theorem putBufs_noBuf (off : Nat) : ∀ (rs : List (Range B)) (bs : List B), (putBufs off rs bs).map noBuf = rs.map noBuf
  | [], [] => rfl
  | [], _ :: _ => rfl
  | _ :: _, [] => rfl
  | r :: rs, b :: bs => by
    simp only [putBufs]
    split
    · rw [List.map_cons, List.map_cons, putBufs_noBuf off rs bs]; rfl
    · rw [List.map_cons, List.map_cons, putBufs_noBuf off rs (b :: bs)]

theorem mem_noBuf {l l' : List (Range B)} (h : l'.map noBuf = l.map noBuf) {r : Range B} (hr : r ∈ l') : ∃ q ∈ l, noBuf r = noBuf q := by
  have : noBuf r ∈ l.map noBuf := h ▸ List.mem_map_of_mem hr
  obtain ⟨q, hq, h1⟩ := List.mem_map.1 this
  exact ⟨q, hq, h1.symm⟩

theorem getLast_noBuf {l l' : List (Range B)} (h : l'.map noBuf = l.map noBuf) {r : Range B} (hr : l'.getLast? = some r) :
    ∃ q, l.getLast? = some q ∧ noBuf r = noBuf q := by
  have h1 : (l.map noBuf).getLast? = some (noBuf r) := by rw [← h, List.getLast?_map, hr]; rfl
  rw [List.getLast?_map] at h1
  cases hl : l.getLast? with
  | none => rw [hl] at h1; cases h1
  | some q =>
    rw [hl] at h1
    simp at h1
    exact ⟨q, rfl, h1.symm⟩

theorem pos_noBuf {s s' : St B} (h : s'.ranges.map noBuf = s.ranges.map noBuf) : s'.pos = s.pos := by
  unfold St.pos
  cases hl : s'.ranges.getLast? with
  | none =>
    have : s'.ranges = [] := List.getLast?_eq_none_iff.1 hl
    rw [this] at h
    have h2 : s.ranges = [] := by simpa using h.symm
    rw [h2]; rfl
  | some r =>
    obtain ⟨q, h1, h2⟩ := getLast_noBuf h hl
    rw [h1]
    simp only
    exact nb_cur h2

/-- The invariant does not look at buffers, and offsets may grow. -/
theorem Inv.congr {ours : Nat → Bool} {timeout : Nat} {h : H B} (hi : Inv ours timeout h) (rs : List (Range B)) (off : Nat) (b : Bool)
    (hrs : rs.map noBuf = h.st.ranges.map noBuf) (hoff : h.st.off ≤ off) :
    Inv ours timeout ⟨{ h.st with ranges := rs, off := off, allFully := b }, h.anchors, h.log⟩ := by
  have hpos : (⟨{ h.st with ranges := rs, off := off, allFully := b }, h.anchors, h.log⟩ : H B).st.pos = h.st.pos :=
    pos_noBuf (s := h.st) (s' := { h.st with ranges := rs, off := off, allFully := b }) hrs
  have hm := fun r (hr : r ∈ rs) => mem_noBuf hrs hr
  refine ⟨hi.sorted, hi.last, ?_, ?_, ?_, ?_, ?_, ?_, ?_, ?_, ?_, ?_, ?_, ?_, hi.logSorted, ?_, hi.logIn, ?_⟩
  · obtain ⟨P, p1, p2⟩ := hi.popped
    refine ⟨P, p1, fun a ha => ?_⟩
    obtain ⟨r, r1, r2⟩ := p2 a ha
    obtain ⟨q, q1, q2⟩ := getLast_noBuf hrs.symm r1
    refine ⟨q, q1, ?_⟩
    rw [← (nb_ct q2), ← (nb_cur q2)]
    exact r2
  · rw [hpos]; exact hi.off
  · rw [hpos]; exact hi.ahead
  · rw [hpos]; exact hi.posIn
  · intro r hr
    obtain ⟨q, q1, q2⟩ := hm r hr
    have := hi.toEq q q1
    rw [(nb_cur q2), (nb_to q2)]; exact this
  · intro r hr
    have h1 : rs.dropLast.map noBuf = h.st.ranges.dropLast.map noBuf := by
      rw [List.map_dropLast, List.map_dropLast, hrs]
    obtain ⟨q, q1, q2⟩ := mem_noBuf h1 hr
    rw [(nb_fully q2)]; exact hi.pre q q1
  · intro r hr hf
    obtain ⟨q, q1, q2⟩ := getLast_noBuf hrs hr
    rw [(nb_fully q2)] at hf
    rw [(nb_seqno q2)]; exact hi.lastF q q1 hf
  · intro r hr
    obtain ⟨q, q1, q2⟩ := hm r hr
    rw [(nb_seqno q2)]; exact hi.seq q q1
  · intro r hr
    obtain ⟨q, q1, q2⟩ := hm r hr
    have := hi.skip q q1
    rw [(nb_skip q2), (nb_proc q2)]
    simp only; omega
  · intro r hr
    obtain ⟨q, q1, q2⟩ := hm r hr
    rw [(nb_ct q2)]; exact hi.ctLe q q1
  · intro r hr hs
    obtain ⟨q, q1, q2⟩ := hm r hr
    rw [(nb_seqno q2)] at hs
    rw [(nb_ct q2)]; exact hi.ctEq q q1 hs
  · rw [hpos]; exact hi.proc
  · rw [hpos]; exact hi.logLe
  · rw [hpos]; exact hi.complete

theorem inv_finish {ours : Nat → Bool} {timeout : Nat} {h : H B} (hi : Inv ours timeout h) :
    Inv ours timeout ⟨finishCollected h.st, h.anchors, h.log⟩ := by
  unfold finishCollected
  cases hl : h.st.ranges.getLast? with
  | none => exact hi
  | some r =>
    have hm := List.mem_of_getLast? hl
    have hpos : h.st.pos = r.cur := by simp [St.pos, hl]
    simp only
    generalize hr' : ({ (if r.proc < h.st.off then { r with proc := h.st.off, skip := h.st.off } else r) with lo := r.cur } : Range B) = r'
    have hf : r'.cur = r.cur ∧ r'.to = r.to ∧ r'.seqno = r.seqno ∧ r'.ct = r.ct ∧ r'.fully = r.fully ∧ r'.skip ≤ h.st.off ∧ r'.proc ≤ h.st.off := by
      have := hi.skip r hm
      rw [← hr']; split
      · simp
      · simp; exact this
    obtain ⟨f1, f2, f3, f4, f5, f6, f7⟩ := hf
    refine ⟨hi.sorted, hi.last, ?_, ?_, ?_, ?_, ?_, ?_, ?_, ?_, ?_, ?_, ?_, ?_, hi.logSorted, ?_, hi.logIn, ?_⟩
    · obtain ⟨P, p1, p2⟩ := hi.popped
      refine ⟨P, p1, fun a ha => ⟨r', rfl, ?_⟩⟩
      obtain ⟨q, q1, q2⟩ := p2 a ha
      rw [hl] at q1; cases q1
      rw [f4, f1]; exact q2
    · intro a ha; change a.id = r'.cur.a → r'.cur.o < _; rw [f1, ← hpos]; exact hi.off a ha
    · intro a ha; change r'.cur.a ≤ _; rw [f1, ← hpos]; exact hi.ahead a ha
    · change r'.cur = _ ∨ ∃ a ∈ h.anchors, r'.cur.a = _ ∧ r'.cur.o ≤ _; rw [f1, ← hpos]; exact hi.posIn
    · intro q hq; rw [List.mem_singleton.1 hq, f1, f2]; exact hi.toEq r hm
    · intro q hq; cases hq
    · intro q hq hqf
      have : r' = q := by simpa using hq
      rw [← this, f3]; rw [← this, f5] at hqf; exact hi.lastF r hl hqf
    · intro q hq; rw [List.mem_singleton.1 hq, f3]; exact hi.seq r hm
    · intro q hq; rw [List.mem_singleton.1 hq]; exact ⟨f6, f7⟩
    · intro q hq; rw [List.mem_singleton.1 hq, f4]; exact hi.ctLe r hm
    · intro q hq hs; rw [List.mem_singleton.1 hq, f4]; rw [List.mem_singleton.1 hq, f3] at hs; exact hi.ctEq r hm hs
    · intro par; change r.cur ≤ r'.cur; rw [f1]; exact Key.le_refl _
    · intro i hi'; change _ ≤ r'.cur; rw [f1, ← hpos]; exact hi.logLe i hi'
    · intro i hi' ho; change _ ∨ _ ∨ (_ ∧ r'.cur < _); rw [f1, ← hpos]; exact hi.complete i hi' ho

theorem inv_collect {ours : Nat → Bool} {timeout : Nat} {h : H B} (hi : Inv ours timeout h) (e : Env B) (f : Collect B) :
    Inv ours timeout ⟨collectStep e f h.st, h.anchors, h.log⟩ := by
  unfold collectStep
  have h1 := hi.congr (putBufs (h.st.off + 1) h.st.ranges (f (h.st.off + 1) (seen (h.st.off + 1) h.st.ranges))) (h.st.off + 1)
    h.st.allFully (putBufs_noBuf _ _ _) (by omega)
  simp only
  split
  · exact inv_finish h1
  · exact h1

theorem inv_drop {ours : Nat → Bool} {timeout : Nat} {h : H B} (hi : Inv ours timeout h) (hlen : h.st.ranges.length ≤ 1) :
    Inv ours timeout ⟨dropOffset h.st, h.anchors, h.log⟩ := by
  unfold dropOffset
  cases hl : h.st.ranges.getLast? with
  | none => exact hi
  | some r =>
    have hm := List.mem_of_getLast? hl
    have hpos : h.st.pos = r.cur := by simp [St.pos, hl]
    have hd : h.st.ranges.dropLast = [] := by
      apply List.eq_nil_of_length_eq_zero; rw [List.length_dropLast]; omega
    simp only [hd, List.nil_append]
    refine ⟨hi.sorted, hi.last, ?_, ?_, ?_, ?_, ?_, ?_, ?_, ?_, ?_, ?_, ?_, ?_, hi.logSorted, ?_, hi.logIn, ?_⟩
    · obtain ⟨P, p1, p2⟩ := hi.popped
      refine ⟨P, p1, fun a ha => ⟨_, rfl, ?_⟩⟩
      obtain ⟨q, q1, q2⟩ := p2 a ha
      rw [hl] at q1; cases q1
      exact q2
    · intro a ha; change a.id = r.cur.a → r.cur.o < _; rw [← hpos]; exact hi.off a ha
    · intro a ha; change r.cur.a ≤ _; rw [← hpos]; exact hi.ahead a ha
    · change r.cur = _ ∨ ∃ a ∈ h.anchors, r.cur.a = _ ∧ r.cur.o ≤ _; rw [← hpos]; exact hi.posIn
    · intro q hq; rw [List.mem_singleton.1 hq]; exact hi.toEq r hm
    · intro q hq; cases hq
    · intro q hq hqf
      simp at hq
      rw [← hq] at hqf ⊢
      exact hi.lastF r hl hqf
    · intro q hq; rw [List.mem_singleton.1 hq]; exact hi.seq r hm
    · intro q hq; rw [List.mem_singleton.1 hq]; exact ⟨Nat.le_refl _, Nat.le_refl _⟩
    · intro q hq; rw [List.mem_singleton.1 hq]; exact hi.ctLe r hm
    · intro q hq hs; rw [List.mem_singleton.1 hq] at hs ⊢; exact hi.ctEq r hm hs
    · intro par; change _ ≤ r.cur; rw [← hpos]; exact hi.proc par
    · intro i hi'; change _ ≤ r.cur; rw [← hpos]; exact hi.logLe i hi'
    · intro i hi' ho; change _ ∨ _ ∨ (_ ∧ r.cur < _); rw [← hpos]; exact hi.complete i hi' ho

theorem inv_finalize {ours : Nat → Bool} {timeout : Nat} {h : H B} (hi : Inv ours timeout h) :
    Inv ours timeout ⟨finalize h.st, h.anchors, h.log⟩ := by
  unfold finalize
  cases hl : h.st.ranges.getLast? with
  | none => exact hi
  | some r =>
    have hm := List.mem_of_getLast? hl
    obtain ⟨l, hr⟩ := List.getLast?_eq_some_iff.1 hl
    have hpos : h.st.pos = r.cur := by simp [St.pos, hl]
    simp only
    split
    · have hdl : h.st.ranges.dropLast = l := by rw [hr, List.dropLast_concat]
      rw [hdl]
      generalize hr' : ({ r with proc := h.st.off } : Range B) = r'
      have hc : r'.cur = r.cur := by rw [← hr']
      have hpos' : (⟨{ h.st with ranges := l ++ [r'] }, h.anchors, h.log⟩ : H B).st.pos = h.st.pos := by
        rw [pos_append _ l r' rfl, hpos, hc]
      have hmem : ∀ q ∈ l ++ [r'], q ∈ h.st.ranges ∨ q = r' := by
        intro q hq
        rcases List.mem_append.1 hq with h1 | h1
        · exact Or.inl (by rw [hr]; exact List.mem_append_left _ h1)
        · exact Or.inr (List.mem_singleton.1 h1)
      refine ⟨hi.sorted, hi.last, ?_, ?_, ?_, ?_, ?_, ?_, ?_, ?_, ?_, ?_, ?_, ?_, hi.logSorted, ?_, hi.logIn, ?_⟩
      · obtain ⟨P, p1, p2⟩ := hi.popped
        refine ⟨P, p1, fun a ha => ⟨r', by simp, ?_⟩⟩
        obtain ⟨q, q1, q2⟩ := p2 a ha
        rw [hl] at q1; cases q1
        rw [← hr']; exact q2
      · rw [hpos']; exact hi.off
      · rw [hpos']; exact hi.ahead
      · rw [hpos']; exact hi.posIn
      · intro q hq
        rcases hmem q hq with h1 | h1
        · exact hi.toEq q h1
        · rw [h1, ← hr']; exact hi.toEq r hm
      · intro q hq; simp only [List.dropLast_concat] at hq; exact hi.pre q (by rw [hdl]; exact hq)
      · intro q hq hqf
        simp only [getLast_append_one, Option.some.injEq] at hq
        rw [← hq, ← hr'] at hqf ⊢
        exact hi.lastF r hl hqf
      · intro q hq
        rcases hmem q hq with h1 | h1
        · exact hi.seq q h1
        · rw [h1, ← hr']; exact hi.seq r hm
      · intro q hq
        rcases hmem q hq with h1 | h1
        · exact hi.skip q h1
        · rw [h1, ← hr']; exact ⟨(hi.skip r hm).1, Nat.le_refl _⟩
      · intro q hq
        rcases hmem q hq with h1 | h1
        · exact hi.ctLe q h1
        · rw [h1, ← hr']; exact hi.ctLe r hm
      · intro q hq hs
        rcases hmem q hq with h1 | h1
        · exact hi.ctEq q h1 hs
        · rw [h1, ← hr'] at hs ⊢; exact hi.ctEq r hm hs
      · rw [hpos']; exact hi.proc
      · rw [hpos']; exact hi.logLe
      · rw [hpos']; exact hi.complete
    · exact hi

theorem inv_newBlock {ours : Nat → Bool} {timeout : Nat} {h : H B} (hi : Inv ours timeout h) (b ct : Nat) (hb : h.st.block < b)
    (hc : h.st.ct ≤ ct) : Inv ours timeout ⟨newBlock b ct h.st, h.anchors, h.log⟩ := by
  have hpos : (newBlock b ct h.st).pos = h.st.pos := by
    unfold St.pos newBlock
    simp only [List.getLast?_map]
    cases h.st.ranges.getLast? <;> rfl
  have hmem : ∀ q ∈ (newBlock b ct h.st).ranges, ∃ r ∈ h.st.ranges, q = { r with fully := decide (r.cur = r.to) } := by
    intro q hq
    obtain ⟨r, h1, h2⟩ := List.mem_map.1 hq
    exact ⟨r, h1, h2.symm⟩
  have hfull : ∀ q ∈ (newBlock b ct h.st).ranges, q.fully = true := by
    intro q hq
    obtain ⟨r, h1, rfl⟩ := hmem q hq
    simpa using hi.toEq r h1
  refine ⟨hi.sorted, hi.last, ?_, ?_, ?_, ?_, ?_, ?_, ?_, ?_, ?_, ?_, ?_, ?_, hi.logSorted, ?_, hi.logIn, ?_⟩
  · obtain ⟨P, p1, p2⟩ := hi.popped
    refine ⟨P, p1, fun a ha => ?_⟩
    obtain ⟨q, q1, q2⟩ := p2 a ha
    refine ⟨{ q with fully := decide (q.cur = q.to) }, ?_, q2⟩
    simp [newBlock, List.getLast?_map, q1]
  · simp only [hpos]; exact hi.off
  · simp only [hpos]; exact hi.ahead
  · simp only [hpos]; exact hi.posIn
  · intro q hq; obtain ⟨r, h1, rfl⟩ := hmem q hq; exact hi.toEq r h1
  · intro q hq; exact hfull q (List.dropLast_subset _ hq)
  · intro q hq hf
    rw [hfull q (List.mem_of_getLast? hq)] at hf; cases hf
  · intro q hq; obtain ⟨r, h1, rfl⟩ := hmem q hq
    have := hi.seq r h1
    simp only [newBlock]; omega
  · intro q hq; obtain ⟨r, h1, rfl⟩ := hmem q hq; exact hi.skip r h1
  · intro q hq; obtain ⟨r, h1, rfl⟩ := hmem q hq; exact Nat.le_trans (hi.ctLe r h1) hc
  · intro q hq hs; obtain ⟨r, h1, rfl⟩ := hmem q hq
    have := hi.seq r h1
    simp only [newBlock] at hs; omega
  · simp only [hpos]; exact hi.proc
  · simp only [hpos]; exact hi.logLe
  · simp only [hpos]
    intro i hi1 ho
    rcases hi.complete i hi1 ho with h1 | h1 | h1
    · exact Or.inl h1
    · exact Or.inr (Or.inl (expired_mono h1 hc))
    · exact Or.inr (Or.inr h1)

theorem inv_imp {ours : Nat → Bool} {timeout : Nat} {h : H B} (hi : Inv ours timeout h) (a : Anchor) (ha : ∀ c ∈ h.anchors, c.id < a.id) :
    Inv ours timeout ⟨importAnchor ours a h.st, h.anchors ++ [a], h.log⟩ := by
  have hpos : (importAnchor ours a h.st).pos = h.st.pos := rfl
  have hcache : (importAnchor ours a h.st).cache = h.st.cache ++ (if hasOurs ours a then [a] else []) := by
    simp only [importAnchor, hasOurs]; split <;> simp_all
  have hsub : ∀ c ∈ (importAnchor ours a h.st).cache, c ∈ h.st.cache ∨ (c = a ∧ hasOurs ours a = true) := by
    intro c hc
    rw [hcache] at hc
    rcases List.mem_append.1 hc with h1 | h1
    · exact Or.inl h1
    · split at h1
      · exact Or.inr ⟨List.mem_singleton.1 h1, by assumption⟩
      · cases h1
  have hlt : ∀ k, 0 < k → h.st.pos < ⟨a.id, k⟩ := by
    intro k hk
    rcases hi.posIn with h1 | ⟨c, hc, h1, _⟩
    · rw [h1, Key.lt_def]; simp only; omega
    · rw [Key.lt_def, h1]; exact Or.inl (ha c hc)
  refine ⟨?_, ?_, ?_, ?_, ?_, ?_, hi.toEq, hi.pre, hi.lastF, hi.seq, hi.skip, hi.ctLe, hi.ctEq, hi.proc, hi.logSorted, hi.logLe, ?_, ?_⟩
  · exact List.pairwise_append.2 ⟨hi.sorted, List.pairwise_singleton _ _, fun c hc d hd => by rw [List.mem_singleton.1 hd]; exact ha c hc⟩
  · simp [importAnchor]
  · obtain ⟨P, p1, p2⟩ := hi.popped
    refine ⟨P, ?_, p2⟩
    simp only [hcache]
    rw [List.filter_append, p1, List.append_assoc]
    congr 2
    by_cases h1 : hasOurs ours a = true <;> simp [h1]
  · intro c hc hid
    rw [hpos] at hid ⊢
    rcases hsub c hc with h1 | ⟨rfl, h2⟩
    · exact hi.off c h1 hid
    · have hne : c.exts ≠ [] := by intro h3; simp [hasOurs, h3] at h2
      have := List.length_pos_iff.2 hne
      have h3 := hlt 1 (by omega)
      rw [Key.lt_def] at h3
      simp only at h3; omega
  · intro c hc
    rw [hpos]
    rcases hsub c hc with h1 | ⟨rfl, h2⟩
    · exact hi.ahead c h1
    · have h3 := hlt 1 (by omega)
      rw [Key.lt_def] at h3
      simp only at h3; omega
  · rw [hpos]
    rcases hi.posIn with h1 | ⟨c, hc, h1⟩
    · exact Or.inl h1
    · exact Or.inr ⟨c, List.mem_append_left _ hc, h1⟩
  · intro i hi1
    obtain ⟨h1, h2⟩ := hi.logIn i hi1
    exact ⟨by rw [stream_append]; exact List.mem_append_left _ h1, h2⟩
  · intro i hi1 ho
    simp only [hpos, hcache]
    rw [stream_append] at hi1 ⊢
    rcases List.mem_append.1 hi1 with h1 | h1
    · rcases hi.complete i h1 ho with h2 | h2 | ⟨h2, h3⟩
      · exact Or.inl h2
      · exact Or.inr (Or.inl h2)
      · exact Or.inr (Or.inr ⟨List.mem_append_left _ h2, h3⟩)
    · have h2 : i ∈ a.items := by simpa [stream] using h1
      rw [if_pos (mem_stream_hasOurs h2 ho)]
      refine Or.inr (Or.inr ⟨List.mem_append_right _ h1, ?_⟩)
      obtain ⟨h3, h4, h5⟩ := items_key h2
      have := hlt i.key.o (by omega)
      rw [← h3] at this
      exact this

theorem inv_group {ours : Nat → Bool} {timeout : Nat} {h : H B} (hi : Inv ours timeout h) (e : Env B) (he : e.ours = ours)
    (ht : e.timeout = timeout) (reading : Bool) (f : Collect B) :
    let r := group e .continue_ reading f h.st
    Inv ours timeout ⟨r.st, h.anchors, h.log ++ r.put.map (·.2)⟩ ∧ r.stuck = false ∧
      (∀ p ∈ r.put, expiredAt timeout h.st.ct p.2.ct = false ∧ p.1 = e.router p.2.msg.dst) := by
  intro r
  have hr : r = { (if !reading then (⟨h.st, [], false⟩ : Res B) else readAll e .continue_ h.st) with
      st := collectStep e f (if !reading then (⟨h.st, [], false⟩ : Res B) else readAll e .continue_ h.st).st } := by
    simp [r, group]
  rw [hr]
  cases reading with
  | false =>
    simp only [Bool.not_false, if_true]
    exact ⟨by simpa using inv_collect hi e f, by simp, by simp⟩
  | true =>
    simp only [Bool.not_true, Bool.false_eq_true, if_false]
    obtain ⟨h1, h2, h3, _⟩ := inv_readAll hi e he ht
    exact ⟨inv_collect h1 e f, h2, h3⟩

theorem refill_noop {ours : Nat → Bool} {timeout : Nat} {h : H B} (hi : Inv ours timeout h) (e : Env B) (f : Collect B) :
    group e .refill true f h.st = ⟨h.st, [], false⟩ := by
  have h1 : offsetReached h.st = true := by
    unfold offsetReached
    cases hl : h.st.ranges.getLast? with
    | none => rfl
    | some r => simpa using (hi.skip r (List.mem_of_getLast? hl)).2
  simp [group, h1]

theorem inv_start {ours : Nat → Bool} {timeout : Nat} (block ct : Nat) : Inv ours timeout (start block ct : H B) := by
  refine ⟨List.Pairwise.nil, rfl, ⟨[], rfl, by simp⟩, by simp [start], by simp [start], Or.inl rfl, by simp [start], by simp [start], ?_, by simp [start],
    by simp [start], by simp [start], by simp [start], ?_, List.Pairwise.nil, by simp [start], by simp [start], ?_⟩
  · intro r hr; simp [start] at hr
  · intro par; exact Key.le_refl _
  · intro i hi; simp [start, stream] at hi

theorem inv_step {ours : Nat → Bool} {timeout : Nat} {h h' : H B} (hi : Inv ours timeout h) (hs : Step ours timeout h h') :
    Inv ours timeout h' := by
  cases hs with
  | imp a ha => exact inv_imp hi a ha
  | group e reading f he ht => exact (inv_group hi e he ht reading f).1
  | refill e f he ht => rw [refill_noop hi]; simpa using hi
  | reset => exact hi.setAll false
  | drop hlen => exact inv_drop hi hlen
  | block b ct hb hc =>
    have h1 := inv_finalize hi
    refine inv_newBlock h1 b ct ?_ ?_
    · have : (finalize h.st).block = h.st.block := by unfold finalize; split; · rfl
                                                      split <;> rfl
      simp only [this]; exact hb
    · have : (finalize h.st).ct = h.st.ct := by unfold finalize; split; · rfl
                                                split <;> rfl
      simp only [this]; exact hc

theorem inv_reach {ours : Nat → Bool} {timeout : Nat} {h : H B} (hr : Reach ours timeout h) : Inv ours timeout h := by
  induction hr with
  | start block ct => exact inv_start block ct
  | step _ hs ih => exact inv_step ih hs

end Tycho.ExtReader
