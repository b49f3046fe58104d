import Verif.ExtReader.Final
/-! C96, C97: external messages are read once each; a restarted collator gets its buffers back. -/
namespace Tycho.ExtReader
variable {B : Type}

/-- **C96.** In any history of a collator: the messages put into buffers are in strictly ascending order of their position (anchor,
number in the anchor), so none is read twice; each is a message of an imported anchor, for this shard; and each message of an imported
anchor for this shard was put into a buffer, or is expired, or is still in the cache ahead of the reading position. -/
theorem ext_once {ours : Nat → Bool} {timeout : Nat} {h : H B} (hr : Reach ours timeout h) :
    h.log.Pairwise (fun i j => i.key < j.key) ∧
      (∀ i ∈ h.log, (∃ a ∈ h.anchors, i ∈ a.items) ∧ ours i.msg.dst = true) ∧
      ∀ a ∈ h.anchors, ∀ i ∈ a.items, ours i.msg.dst = true →
        i ∈ h.log ∨ timeout < h.st.ct - i.ct ∨ (a ∈ h.st.cache ∧ h.st.pos < i.key) := by
  have hi := inv_reach hr
  refine ⟨hi.logSorted, fun i hl => ⟨?_, (hi.logIn i hl).2⟩, ?_⟩
  · exact mem_stream.1 (hi.logIn i hl).1
  · intro a ha i hia ho
    rcases hi.complete i (mem_stream.2 ⟨a, ha, hia⟩) ho with h1 | h1 | ⟨h1, h2⟩
    · exact Or.inl h1
    · simp only [expiredAt, decide_eq_true_eq] at h1; exact Or.inr (Or.inl h1)
    · right; right
      obtain ⟨a', ha', hia'⟩ := mem_stream.1 h1
      have : a = a' := by
        apply sorted_eq_of_id hi.sorted ha (hi.cache_sub ha').1
        rw [← (items_key hia).1, ← (items_key hia').1]
      rw [this]; exact ⟨ha', h2⟩

/-- What a position means: the `k`-th message of an anchor is at position `k + 1`. -/
theorem items_get (a : Anchor) : a.items = a.exts.mapIdx (fun k m => ⟨⟨a.id, k + 1⟩, m, a.ct⟩) := by
  have key : ∀ (ms : List Ext) (off : Nat), itemsFrom a.id a.ct ms off = ms.mapIdx (fun k m => ⟨⟨a.id, off + k + 1⟩, m, a.ct⟩) := by
    intro ms
    induction ms with
    | nil => intro off; rfl
    | cons m ms ih =>
      intro off
      rw [itemsFrom, List.mapIdx_cons, ih]
      simp only [Nat.add_zero]
      congr 2
      funext k m
      rw [show off + 1 + k = off + (k + 1) from by omega]
  have := key a.exts 0
  unfold Anchor.items
  simpa using this

/-- **C96.** Every group ends; what it puts into buffers was not expired for the block and is in the partition that the router names. -/
theorem ext_group {ours : Nat → Bool} {timeout : Nat} {h : H B} (hr : Reach ours timeout h) (e : Env B) (he : e.ours = ours)
    (ht : e.timeout = timeout) (reading : Bool) (f : Collect B) :
    (group e .continue_ reading f h.st).stuck = false ∧
      ∀ p ∈ (group e .continue_ reading f h.st).put, h.st.ct - p.2.ct ≤ timeout ∧ p.1 = e.router p.2.msg.dst := by
  obtain ⟨_, h1, h2⟩ := inv_group (inv_reach hr) e he ht reading f
  refine ⟨h1, fun p hp => ?_⟩
  obtain ⟨h3, h4⟩ := h2 p hp
  simp only [expiredAt, decide_eq_false_iff_not] at h3
  exact ⟨by omega, h4⟩

/-- **C96.** Reading stops only at the limits: if a range can be created for the block, then afterwards nothing is left in the cache
or the buffers of the last range are full. -/
theorem ext_eager {ours : Nat → Bool} {timeout : Nat} {h : H B} (hr : Reach ours timeout h) (e : Env B) (he : e.ours = ours)
    (ht : e.timeout = timeout) (h1 : h.st.allFully = false) (h2 : h.st.ranges.length < e.limit) (h3 : e.newParams = false)
    (h4 : lastSeqno h.st.ranges < h.st.block) :
    (readAll e .continue_ h.st).st.cache = [] ∨ ∃ q, (readAll e .continue_ h.st).st.ranges.getLast? = some q ∧ e.ops.full q.buf = true :=
  (inv_readAll (inv_reach hr) e he ht).2.2.2 h1 h2 h3 h4

/-- **C96.** What is read is what is added to the buffers: those of the last range, or of a new one, get the messages in order; no
other buffer changes. -/
theorem ext_adds {ours : Nat → Bool} {timeout : Nat} {h : H B} (hr : Reach ours timeout h) (e : Env B) (he : e.ours = ours)
    (ht : e.timeout = timeout) :
    ((readAll e .continue_ h.st).put = [] ∧ (readAll e .continue_ h.st).st.ranges.map Range.buf = h.st.ranges.map Range.buf) ∨
      (∃ l x, h.st.ranges = l ++ [x] ∧ (readAll e .continue_ h.st).st.ranges.map Range.buf =
        l.map Range.buf ++ [addAll e x.buf ((readAll e .continue_ h.st).put.map (·.2))]) ∨
      (readAll e .continue_ h.st).st.ranges.map Range.buf =
        h.st.ranges.map Range.buf ++ [addAll e e.ops.empty ((readAll e .continue_ h.st).put.map (·.2))] := by
  have hi := inv_reach hr
  generalize hrd : readAll e .continue_ h.st = r
  unfold readAll at hrd
  by_cases ha : h.st.allFully = true
  · rw [if_pos ha] at hrd
    left; rw [← hrd]; exact ⟨rfl, rfl⟩
  · rw [if_neg ha] at hrd
    by_cases hopen : ∃ x, h.st.ranges.getLast? = some x ∧ x.fully = false
    · obtain ⟨x, hx, hxf⟩ := hopen
      obtain ⟨l, hl⟩ := List.getLast?_eq_some_iff.1 hx
      have hxm := List.mem_of_getLast? hx
      have hpre : ∀ q ∈ l, q.fully = true := fun q hq => hi.pre q (by rw [hl, List.dropLast_concat]; exact hq)
      have hseq := hi.lastF x hx hxf
      obtain ⟨br, hbr⟩ := pass_one e h.st.procTo h.st.last h.st.off h.st.block x h.st.cache hxf hseq (hi.skip x hxm).1
      have hpass := pass_pre e .continue_ h.st.procTo h.st.last h.st.off h.st.block [x] h.st.cache true l hpre
      rw [hbr] at hpass
      simp only at hpass
      have hls : lastSeqno h.st.ranges = h.st.block := by simp [lastSeqno, hx, hseq]
      obtain ⟨T, hT⟩ := readFacts hi e he ht l x hl hxf
      have hadd := (inv_readLast hi e he ht l x hl hxf true).2.2.2.2.2
      right; left
      refine ⟨l, x, hl, ?_⟩
      rw [← hrd]
      simp only [hls]
      rw [hl, hpass]
      simp only
      split
      · simp only [List.map_append, List.map_cons, List.map_nil, hT.buf, hadd]
      · rw [if_neg (by omega)]
        simp only [List.map_append, List.map_cons, List.map_nil, hT.buf, hadd]
    · have hall : ∀ q ∈ h.st.ranges, q.fully = true := hi.allFullyRanges (by
        intro x hx
        cases hf : x.fully with
        | true => rfl
        | false => exact absurd ⟨x, hx, hf⟩ hopen)
      have hpass := pass_pre e .continue_ h.st.procTo h.st.last h.st.off h.st.block [] h.st.cache true h.st.ranges hall
      simp only [List.append_nil, pass] at hpass
      by_cases hc : lastSeqno h.st.ranges < h.st.block ∧ h.st.ranges.length < e.limit ∧ True ∧ (!e.newParams) = true
      · obtain ⟨br, hbr⟩ := pass_one e h.st.procTo h.st.last h.st.off h.st.block (nextRange e.ops h.st) h.st.cache rfl rfl (Nat.le_refl _)
        obtain ⟨hn, _, _⟩ := inv_newRange hi e.ops hc.1
        obtain ⟨T, hT⟩ := readFacts hn e he ht h.st.ranges (nextRange e.ops h.st) rfl rfl
        have hadd := (inv_readLast hn e he ht h.st.ranges (nextRange e.ops h.st) rfl rfl true).2.2.2.2.2
        right; right
        rw [← hrd]; simp only [hpass]
        rw [if_neg (by simp), if_pos hc]
        have hnr : ∀ cc, nextRange e.ops { h.st with cache := cc } = nextRange e.ops h.st := fun _ => rfl
        simp only [hnr, hbr]
        have hb1 := hT.buf
        simp only at hb1 hadd
        simp only [List.map_append, List.map_cons, List.map_nil, List.nil_append, hb1, hadd]
        rfl
      · left
        rw [← hrd]; simp only [hpass]
        rw [if_neg (by simp), if_neg hc]
        exact ⟨rfl, rfl⟩

/-- **C97.** When all read messages have been collected, the stored state is one empty range at the reading position, and the processed
positions of all partitions are that position. -/
theorem ext_collected {ours : Nat → Bool} {timeout : Nat} {h : H B} (hr : Reach ours timeout h) (e : Env B) (he : e.ours = ours)
    (ht : e.timeout = timeout) (hz : ∀ b, e.ops.count b = 0 → b = e.ops.empty) (reading : Bool) (f : Collect B)
    (hne : (group e .continue_ reading f h.st).st.ranges ≠ [])
    (hall : allCollected e.ops (group e .continue_ reading f h.st).st.off (group e .continue_ reading f h.st).st.ranges = true) :
    Clean e.ops (group e .continue_ reading f h.st).st ∧ Clean e.ops (dropOffset (group e .continue_ reading f h.st).st) :=
  ⟨clean_group (inv_reach hr) e he ht hz reading f hne hall, clean_drop (clean_group (inv_reach hr) e he ht hz reading f hne hall)⟩

/-- **C97.** A collator whose read messages were all collected at some point runs on: anchors are imported, groups are taken, blocks
end, and after no group all read messages are collected. At the end of a block it stops and restarts from the stored ranges, offsets
and positions, with empty buffers and with the anchors loaded again (and maybe further ones, `Y`). Then the refill ends after finitely
many groups, and the restarted collator has the same ranges with the same buffers, offset and processed positions as the collator had,
up to a leading range with empty buffers; all its ranges are fully read; and what it can read next is what the collator could read
next, behind anchors that are passed or expired. -/
theorem ext_refill {c : Cfg B} {f : Collect B} (hf : c.Fair f) {g F : G B} (hs : Seg c f g F) (hr : Reach c.ours c.timeout g.h)
    (hc : Clean c.ops g.h.st) (Y : List Anchor) (hY : Sorted (F.h.anchors ++ Y))
    (hfresh : ∀ y ∈ Y, expiredAt c.timeout F.h.st.ct y.ct = false) (limit : Nat) (np : Bool) (block ct : Nat) (hb : F.h.st.block < block) :
    ∃ m R k, (∀ n, m ≤ n → refill (c.env limit np) f n (restart (c.env limit np) (F.h.anchors ++ Y) block ct (finalize F.h.st)) = R) ∧
      k ≤ 1 ∧ R.ranges.map stat = ((finalize F.h.st).ranges.drop k).map stat ∧
      R.ranges.map Range.buf = (F.h.st.ranges.drop k).map Range.buf ∧ (∀ q ∈ F.h.st.ranges.take k, q.buf = c.ops.empty) ∧
      (∀ q ∈ R.ranges, q.fully = true) ∧ R.off = F.h.st.off ∧ R.procTo = F.h.st.procTo ∧
      ∃ J, R.cache = J ++ (F.h.st.cache ++ Y.filter (hasOurs c.ours)) ∧
        ∀ a ∈ J, a.id < F.h.st.pos.a ∨ (a.id = F.h.st.pos.a ∧ expiredAt c.timeout F.h.st.ct a.ct = true) := by
  have hne : g.h.st.ranges ≠ [] := by
    obtain ⟨r, h1, _⟩ := hc
    rw [h1]; simp
  have hfa := seg_facts hs hr hne
  obtain ⟨m, Q, h1, h2⟩ := refill_end hf hs hr hc Y hY hfresh limit np block ct hb
  obtain ⟨k, h3⟩ := sim_end (inv_reach hfa.reach) hfa.ne h2
  exact ⟨m, Q, k, h1, h3⟩

end Tycho.ExtReader
