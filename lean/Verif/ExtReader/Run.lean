import Verif.ExtReader.Hist
/-! The invariant is kept by every step. -/
namespace Tycho.ExtReader
variable {B : Type}

theorem pass_pre (e : Env B) (gm : GMode) (procTo : Nat → Key) (last : Option (Nat × Nat)) (off block : Nat) (rest : List (Range B))
    (cache : List Anchor) (all : Bool) : ∀ (l : List (Range B)), (∀ r ∈ l, r.fully = true) →
    pass e gm procTo last off block (l ++ rest) cache all =
      { pass e gm procTo last off block rest cache all with ranges := l ++ (pass e gm procTo last off block rest cache all).ranges }
  | [], _ => rfl
  | r :: l, h => by
    have ih := pass_pre e gm procTo last off block rest cache all l (fun q hq => h q (List.mem_cons_of_mem _ hq))
    rw [List.cons_append, pass, if_pos (h r List.mem_cons_self), ih]
    rfl

theorem pass_one (e : Env B) (procTo : Nat → Key) (last : Option (Nat × Nat)) (off block : Nat) (r : Range B) (cache : List Anchor)
    (hf : r.fully = false) (hs : r.seqno = block) (hk : r.skip ≤ off) :
    let o := readRange e .toTheEnd procTo cache r
    ∃ br, pass e .continue_ procTo last off block [r] cache true =
      ⟨[settle last block (r.after o)], o.cache, o.rd.put, o.fully, br, o.stuck⟩ := by
  intro o
  have hm : modeOf .continue_ r.seqno block = .toTheEnd := by simp [modeOf, hs]
  simp only [pass, hf, Bool.false_eq_true, if_false]
  rw [if_neg (by simp; omega), hm]
  change ∃ br, (if e.ops.canFill o.rd.buf || (e.ops.isFull o.rd.buf && !o.fully) then _ else _) = _
  split
  · exact ⟨true, by simp [o]⟩
  · exact ⟨false, by simp [o]⟩

theorem Passed.monoCt {timeout ct ct' : Nat} {p : Key} {a : Anchor} (h : Passed timeout ct p a) (hc : ct ≤ ct') : Passed timeout ct' p a := by
  rcases h with h | ⟨h1, h2 | h2⟩
  · exact Or.inl h
  · exact Or.inr ⟨h1, Or.inl h2⟩
  · exact Or.inr ⟨h1, Or.inr (expired_mono h2 hc)⟩

/-- A new range keeps the invariant. -/
theorem inv_newRange {ours : Nat → Bool} {timeout : Nat} {h : H B} (hi : Inv ours timeout h) (o : Ops B)
    (hs : lastSeqno h.st.ranges < h.st.block) :
    Inv ours timeout ⟨{ h.st with ranges := h.st.ranges ++ [nextRange o h.st] }, h.anchors, h.log⟩ ∧ h.st.pos = endOf h.st.ranges ∧
      ∀ r ∈ h.st.ranges, r.fully = true := by
  have hpos : h.st.pos = endOf h.st.ranges := by
    unfold St.pos endOf
    cases hg : h.st.ranges.getLast? with
    | none => rfl
    | some r => exact hi.toEq r (List.mem_of_getLast? hg)
  have hpos' : (⟨{ h.st with ranges := h.st.ranges ++ [nextRange o h.st] }, h.anchors, h.log⟩ : H B).st.pos = h.st.pos := by
    rw [pos_append _ h.st.ranges (nextRange o h.st) rfl, hpos]; rfl
  have hall : ∀ r ∈ h.st.ranges, r.fully = true := by
    intro r hr
    rcases List.eq_nil_or_concat h.st.ranges with h1 | ⟨l, x, h1⟩
    · rw [h1] at hr; cases hr
    · rw [List.concat_eq_append] at h1
      have hl : h.st.ranges.getLast? = some x := by rw [h1]; simp
      rw [h1] at hr
      rcases List.mem_append.1 hr with h2 | h2
      · exact hi.pre r (by rw [h1, List.dropLast_concat]; exact h2)
      · rw [List.mem_singleton.1 h2]
        cases hx : x.fully with
        | true => rfl
        | false =>
          have := hi.lastF x hl hx
          simp only [lastSeqno, hl] at hs
          omega
  refine ⟨⟨hi.sorted, hi.last, ?_, ?_, ?_, ?_, ?_, ?_, ?_, ?_, ?_, ?_, ?_, ?_, hi.logSorted, ?_, hi.logIn, ?_⟩, hpos, hall⟩
  · obtain ⟨P, p1, p2⟩ := hi.popped
    refine ⟨P, p1, fun a ha => ⟨nextRange o h.st, by simp, ?_⟩⟩
    obtain ⟨r, r1, r2⟩ := p2 a ha
    have h1 := (r2.monoCt (hi.ctLe r (List.mem_of_getLast? r1)))
    have h2 : r.cur = (nextRange o h.st).cur := by
      have : h.st.pos = r.cur := by simp [St.pos, r1]
      rw [← this, hpos]; rfl
    rw [← h2]; exact h1
  · rw [hpos']; exact hi.off
  · rw [hpos']; exact hi.ahead
  · rw [hpos']; exact hi.posIn
  · intro q hq
    rcases List.mem_append.1 hq with h1 | h1
    · exact hi.toEq q h1
    · rw [List.mem_singleton.1 h1]; rfl
  · intro q hq
    simp only [List.dropLast_concat] at hq
    exact hall q hq
  · intro q hq _
    simp only [getLast_append_one, Option.some.injEq] at hq
    rw [← hq]; rfl
  · intro q hq
    rcases List.mem_append.1 hq with h1 | h1
    · exact hi.seq q h1
    · rw [List.mem_singleton.1 h1]; exact Nat.le_refl _
  · intro q hq
    rcases List.mem_append.1 hq with h1 | h1
    · exact hi.skip q h1
    · rw [List.mem_singleton.1 h1]; exact ⟨Nat.le_refl _, Nat.le_refl _⟩
  · intro q hq
    rcases List.mem_append.1 hq with h1 | h1
    · exact hi.ctLe q h1
    · rw [List.mem_singleton.1 h1]; exact Nat.le_refl _
  · intro q hq hqs
    rcases List.mem_append.1 hq with h1 | h1
    · exact hi.ctEq q h1 hqs
    · rw [List.mem_singleton.1 h1]; rfl
  · rw [hpos']; exact hi.proc
  · rw [hpos']; exact hi.logLe
  · rw [hpos']; exact hi.complete

theorem Inv.setAll {ours : Nat → Bool} {timeout : Nat} {h : H B} (hi : Inv ours timeout h) (b : Bool) :
    Inv ours timeout ⟨{ h.st with allFully := b }, h.anchors, h.log⟩ := { hi with }

/-- What a reading pass in the mode of a running collator does. -/
theorem inv_readAll {ours : Nat → Bool} {timeout : Nat} {h : H B} (hi : Inv ours timeout h) (e : Env B) (he : e.ours = ours)
    (ht : e.timeout = timeout) :
    let r := readAll e .continue_ h.st
    Inv ours timeout ⟨r.st, h.anchors, h.log ++ r.put.map (·.2)⟩ ∧ r.stuck = false ∧
      (∀ p ∈ r.put, expiredAt timeout h.st.ct p.2.ct = false ∧ p.1 = e.router p.2.msg.dst) ∧
      (h.st.allFully = false → h.st.ranges.length < e.limit → e.newParams = false → lastSeqno h.st.ranges < h.st.block →
        r.st.cache = [] ∨ ∃ q, r.st.ranges.getLast? = some q ∧ e.ops.full q.buf = true) := by
  intro r
  have hrd : r = readAll e .continue_ h.st := rfl
  clear_value r
  unfold readAll at hrd
  by_cases ha : h.st.allFully = true
  · have hr : r = ⟨h.st, [], false⟩ := by rw [hrd, if_pos ha]
    rw [hr]
    refine ⟨by simpa using hi, rfl, by simp, ?_⟩
    intro h1; rw [ha] at h1; cases h1
  · rw [if_neg ha] at hrd
    -- the last range is open
    by_cases hopen : ∃ x, h.st.ranges.getLast? = some x ∧ x.fully = false
    · obtain ⟨x, hx, hxf⟩ := hopen
      obtain ⟨l, hl⟩ := List.getLast?_eq_some_iff.1 hx
      have hxm := List.mem_of_getLast? hx
      have hpre : ∀ q ∈ l, q.fully = true := fun q hq => hi.pre q (by rw [hl, List.dropLast_concat]; exact hq)
      have hseq := hi.lastF x hx hxf
      obtain ⟨br, hbr⟩ := pass_one e h.st.procTo h.st.last h.st.off h.st.block x h.st.cache hxf hseq (hi.skip x hxm).1
      have hpass := pass_pre e .continue_ h.st.procTo h.st.last h.st.off h.st.block [x] h.st.cache true l hpre
      rw [hbr] at hpass
      simp only at hpass
      have hls : lastSeqno h.st.ranges = h.st.block := by simp [lastSeqno, hx, hseq]
      have hread := fun b => inv_readLast hi e he ht l x hl hxf b
      simp only at hread
      have hr : ∃ b, r = ⟨{ h.st with ranges := l ++ [settle h.st.last h.st.block (x.after (readRange e .toTheEnd h.st.procTo h.st.cache x))], cache := (readRange e .toTheEnd h.st.procTo h.st.cache x).cache, allFully := b }, (readRange e .toTheEnd h.st.procTo h.st.cache x).rd.put, (readRange e .toTheEnd h.st.procTo h.st.cache x).stuck⟩ := by
        rw [hrd]
        simp only [hls]
        rw [hl, hpass]
        simp only
        split
        · exact ⟨h.st.allFully, rfl⟩
        · rw [if_neg (by omega)]
          exact ⟨true, rfl⟩
      obtain ⟨b, hr⟩ := hr
      rw [hr]
      obtain ⟨h1, h2, h3, _⟩ := hread b
      refine ⟨h1, h2, h3, ?_⟩
      intro _ _ _ h4; omega
    · have hall : ∀ q ∈ h.st.ranges, q.fully = true := by
        intro q hq
        rcases List.eq_nil_or_concat h.st.ranges with h1 | ⟨l, x, h1⟩
        · rw [h1] at hq; cases hq
        · rw [List.concat_eq_append] at h1
          have hl : h.st.ranges.getLast? = some x := by rw [h1]; simp
          rw [h1] at hq
          rcases List.mem_append.1 hq with h2 | h2
          · exact hi.pre q (by rw [h1, List.dropLast_concat]; exact h2)
          · rw [List.mem_singleton.1 h2]
            cases hx : x.fully with
            | true => rfl
            | false => exact absurd ⟨x, hl, hx⟩ hopen
      have hpass := pass_pre e .continue_ h.st.procTo h.st.last h.st.off h.st.block [] h.st.cache true h.st.ranges hall
      simp only [List.append_nil, pass] at hpass
      by_cases hc : lastSeqno h.st.ranges < h.st.block ∧ h.st.ranges.length < e.limit ∧ True ∧ (!e.newParams) = true
      · obtain ⟨hn, _, _⟩ := inv_newRange hi e.ops hc.1
        obtain ⟨br, hbr⟩ := pass_one e h.st.procTo h.st.last h.st.off h.st.block (nextRange e.ops h.st) h.st.cache rfl rfl (Nat.le_refl _)
        have hread := fun b => inv_readLast hn e he ht h.st.ranges (nextRange e.ops h.st) rfl rfl b
        simp only at hread
        have hr : ∃ b, r = ⟨{ h.st with ranges := h.st.ranges ++ [settle h.st.last h.st.block ((nextRange e.ops h.st).after (readRange e .toTheEnd h.st.procTo h.st.cache (nextRange e.ops h.st)))], cache := (readRange e .toTheEnd h.st.procTo h.st.cache (nextRange e.ops h.st)).cache, allFully := b }, (readRange e .toTheEnd h.st.procTo h.st.cache (nextRange e.ops h.st)).rd.put, (readRange e .toTheEnd h.st.procTo h.st.cache (nextRange e.ops h.st)).stuck⟩ := by
          rw [hrd]; simp only [hpass]
          rw [if_neg (by simp), if_pos hc]
          change ∃ b, (⟨{ h.st with ranges := h.st.ranges ++ (pass e .continue_ h.st.procTo h.st.last h.st.off h.st.block [nextRange e.ops h.st] h.st.cache true).ranges, cache := _, allFully := _ }, [] ++ (pass e .continue_ h.st.procTo h.st.last h.st.off h.st.block [nextRange e.ops h.st] h.st.cache true).put, false || _⟩ : Res B) = _
          rw [hbr]
          exact ⟨_, rfl⟩
        obtain ⟨b, hr⟩ := hr
        rw [hr]
        obtain ⟨h1, h2, h3, h4, h5, _⟩ := hread b
        refine ⟨h1, h2, h3, ?_⟩
        intro _ _ _ _
        cases hff : (readRange e .toTheEnd h.st.procTo h.st.cache (nextRange e.ops h.st)).fully with
        | true => exact Or.inl (h5 hff)
        | false =>
          refine Or.inr ⟨_, getLast_append_one _ _, ?_⟩
          have := h4 hff
          unfold settle
          rw [if_neg (by simp [Range.after, hff])]
          exact this
      · have hr : r = ⟨{ h.st with allFully := true }, [], false⟩ := by
          rw [hrd]; simp only [hpass]
          rw [if_neg (by simp), if_neg hc]
        rw [hr]
        refine ⟨by simpa using hi.setAll true, rfl, by simp, ?_⟩
        intro _ h1 h2 h3
        exact absurd ⟨h3, h1, trivial, by simp [h2]⟩ hc

end Tycho.ExtReader
