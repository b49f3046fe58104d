import Verif.ExtReader.Read
/-! Histories of a running collator: imports of anchors, groups, blocks. -/
namespace Tycho.ExtReader
variable {B : Type}

/-- A state with all anchors imported so far and all messages that were put into buffers. -/
structure H (B : Type) where
  st : St B
  anchors : List Anchor
  log : List Item

/-- A collator that starts with an empty state. -/
def start (block ct : Nat) : H B := ⟨⟨[], none, [], fun _ => ⟨0, 0⟩, 0, block, ct, false⟩, [], []⟩

/-- What happens while a collator runs. `ours` and `timeout` are fixed; the fill checks, limits, routing and what is collected are
arbitrary in each group. -/
inductive Step (ours : Nat → Bool) (timeout : Nat) : H B → H B → Prop
  | imp (h : H B) (a : Anchor) : (∀ c ∈ h.anchors, c.id < a.id) →
      Step ours timeout h ⟨importAnchor ours a h.st, h.anchors ++ [a], h.log⟩
  | group (h : H B) (e : Env B) (reading : Bool) (f : Collect B) : e.ours = ours → e.timeout = timeout →
      Step ours timeout h ⟨(group e .continue_ reading f h.st).st, h.anchors, h.log ++ (group e .continue_ reading f h.st).put.map (·.2)⟩
  | refill (h : H B) (e : Env B) (f : Collect B) : e.ours = ours → e.timeout = timeout →
      Step ours timeout h ⟨(group e .refill true f h.st).st, h.anchors, h.log ++ (group e .refill true f h.st).put.map (·.2)⟩
  | reset (h : H B) : Step ours timeout h ⟨{ h.st with allFully := false }, h.anchors, h.log⟩
  | drop (h : H B) : h.st.ranges.length ≤ 1 → Step ours timeout h ⟨dropOffset h.st, h.anchors, h.log⟩
  | block (h : H B) (b ct : Nat) : h.st.block < b → h.st.ct ≤ ct →
      Step ours timeout h ⟨newBlock b ct (finalize h.st), h.anchors, h.log⟩

/-- The states that a collator can be in. -/
inductive Reach (ours : Nat → Bool) (timeout : Nat) : H B → Prop
  | start (block ct : Nat) : Reach ours timeout (start block ct)
  | step {h h' : H B} : Reach ours timeout h → Step ours timeout h h' → Reach ours timeout h'

/-- Up to where messages were read. -/
def St.pos (s : St B) : Key := match s.ranges.getLast? with
  | some r => r.cur
  | none => ⟨0, 0⟩

def hasOurs (ours : Nat → Bool) (a : Anchor) : Bool := a.exts.any (fun m => ours m.dst)

structure Inv (ours : Nat → Bool) (timeout : Nat) (h : H B) : Prop where
  sorted : Sorted h.anchors
  last : h.st.last = h.anchors.getLast?.map (fun a => (a.id, a.exts.length))
  popped : ∃ P, h.anchors.filter (hasOurs ours) = P ++ h.st.cache ∧
    ∀ a ∈ P, ∃ r, h.st.ranges.getLast? = some r ∧ Passed timeout r.ct r.cur a
  off : ∀ a ∈ h.st.cache, a.id = h.st.pos.a → h.st.pos.o < a.exts.length
  ahead : ∀ a ∈ h.st.cache, h.st.pos.a ≤ a.id
  posIn : h.st.pos = ⟨0, 0⟩ ∨ ∃ a ∈ h.anchors, h.st.pos.a = a.id ∧ h.st.pos.o ≤ a.exts.length
  toEq : ∀ r ∈ h.st.ranges, r.cur = r.to
  pre : ∀ r ∈ h.st.ranges.dropLast, r.fully = true
  lastF : ∀ r, h.st.ranges.getLast? = some r → r.fully = false → r.seqno = h.st.block
  seq : ∀ r ∈ h.st.ranges, r.seqno ≤ h.st.block
  skip : ∀ r ∈ h.st.ranges, r.skip ≤ h.st.off ∧ r.proc ≤ h.st.off
  ctLe : ∀ r ∈ h.st.ranges, r.ct ≤ h.st.ct
  ctEq : ∀ r ∈ h.st.ranges, r.seqno = h.st.block → r.ct = h.st.ct
  proc : ∀ par, h.st.procTo par ≤ h.st.pos
  logSorted : h.log.Pairwise (fun i j => i.key < j.key)
  logLe : ∀ i ∈ h.log, i.key ≤ h.st.pos
  logIn : ∀ i ∈ h.log, i ∈ stream h.anchors ∧ ours i.msg.dst = true
  complete : ∀ i ∈ stream h.anchors, ours i.msg.dst = true →
    i ∈ h.log ∨ expiredAt timeout h.st.ct i.ct = true ∨ (i ∈ stream h.st.cache ∧ h.st.pos < i.key)

theorem items_sorted {aid act : Nat} : ∀ (ms : List Ext) (off : Nat), (itemsFrom aid act ms off).Pairwise (fun i j => i.key < j.key)
  | [], _ => List.Pairwise.nil
  | m :: ms, off => by
    refine List.Pairwise.cons ?_ (items_sorted ms (off + 1))
    intro i hi
    obtain ⟨h1, h2, _, _⟩ := itemsFrom_key hi
    rw [Key.lt_def]; simp only; omega

theorem stream_sorted : ∀ {l : List Anchor}, Sorted l → (stream l).Pairwise (fun i j => i.key < j.key)
  | [], _ => List.Pairwise.nil
  | a :: l, h => by
    rw [stream_cons, List.pairwise_append]
    refine ⟨items_sorted _ _, stream_sorted (List.pairwise_cons.1 h).2, ?_⟩
    intro i hi j hj
    obtain ⟨c, hc, hjc⟩ := mem_stream.1 hj
    have := (List.pairwise_cons.1 h).1 c hc
    obtain ⟨h1, _⟩ := items_key hi
    obtain ⟨h2, _⟩ := items_key hjc
    rw [Key.lt_def]; omega

theorem sorted_eq_of_id {l : List Anchor} (h : Sorted l) {a b : Anchor} (ha : a ∈ l) (hb : b ∈ l) (hid : a.id = b.id) : a = b := by
  induction l with
  | nil => cases ha
  | cons c l ih =>
    have h1 := (List.pairwise_cons.1 h).1
    rcases List.mem_cons.1 ha with ha | ha <;> rcases List.mem_cons.1 hb with hb | hb
    · rw [ha, hb]
    · have := h1 b hb; subst ha; omega
    · have := h1 a ha; subst hb; omega
    · exact ih (List.pairwise_cons.1 h).2 ha hb

/-- No anchor is behind the last one. -/
theorem id_le_last {l : List Anchor} (h : Sorted l) {a b : Anchor} (hb : l.getLast? = some b) (ha : a ∈ l) : a = b ∨ a.id < b.id := by
  obtain ⟨ys, rfl⟩ := List.getLast?_eq_some_iff.1 hb
  rcases List.mem_append.1 ha with h1 | h1
  · exact Or.inr ((List.pairwise_append.1 h).2.2 a h1 b (by simp))
  · exact Or.inl (by simpa using h1)

theorem Inv.cache_sub {ours : Nat → Bool} {timeout : Nat} {h : H B} (hi : Inv ours timeout h) {a : Anchor} (ha : a ∈ h.st.cache) :
    a ∈ h.anchors ∧ hasOurs ours a = true := by
  obtain ⟨P, h1, _⟩ := hi.popped
  have : a ∈ h.anchors.filter (hasOurs ours) := by rw [h1]; exact List.mem_append_right _ ha
  exact List.mem_filter.1 this

theorem Inv.cache_sorted {ours : Nat → Bool} {timeout : Nat} {h : H B} (hi : Inv ours timeout h) : Sorted h.st.cache := by
  obtain ⟨P, h1, _⟩ := hi.popped
  have h2 : Sorted (h.anchors.filter (hasOurs ours)) := List.Pairwise.filter _ hi.sorted
  rw [h1] at h2
  exact (List.pairwise_append.1 h2).2.1

theorem Inv.cache_ne {ours : Nat → Bool} {timeout : Nat} {h : H B} (hi : Inv ours timeout h) : ∀ a ∈ h.st.cache, a.exts ≠ [] := by
  intro a ha hc
  have := (hi.cache_sub ha).2
  simp [hasOurs, hc] at this

theorem mem_stream_hasOurs {ours : Nat → Bool} {a : Anchor} {i : Item} (hi : i ∈ a.items) (ho : ours i.msg.dst = true) :
    hasOurs ours a = true := by
  have key : ∀ (ms : List Ext) (off : Nat), i ∈ itemsFrom a.id a.ct ms off → i.msg ∈ ms := by
    intro ms
    induction ms with
    | nil => intro off h; cases h
    | cons m ms ih =>
      intro off h
      rcases List.mem_cons.1 h with h | h
      · rw [h]; simp
      · exact List.mem_cons_of_mem _ (ih _ h)
  have := key _ _ hi
  simp only [hasOurs, List.any_eq_true]
  exact ⟨_, this, ho⟩

theorem expired_mono {timeout ct ct' act : Nat} (h : expiredAt timeout ct act = true) (hc : ct ≤ ct') : expiredAt timeout ct' act = true := by
  simp only [expiredAt, decide_eq_true_eq] at *; omega

theorem getLast_append_one {α : Type} (l : List α) (x : α) : (l ++ [x]).getLast? = some x := by simp

theorem pos_append (s : St B) (l : List (Range B)) (r : Range B) (h : s.ranges = l ++ [r]) : s.pos = r.cur := by
  simp [St.pos, h]

/-- A read of the last range of the block keeps the invariant. -/
theorem inv_readLast {ours : Nat → Bool} {timeout : Nat} {h : H B} (hi : Inv ours timeout h) (e : Env B) (he : e.ours = ours)
    (ht : e.timeout = timeout) (l : List (Range B)) (r : Range B) (hr : h.st.ranges = l ++ [r]) (hf : r.fully = false) (b : Bool) :
    let o := readRange e .toTheEnd h.st.procTo h.st.cache r
    Inv ours timeout ⟨{ h.st with ranges := l ++ [settle h.st.last h.st.block (r.after o)], cache := o.cache, allFully := b }, h.anchors,
      h.log ++ o.rd.put.map (·.2)⟩ ∧ o.stuck = false ∧
      (∀ p ∈ o.rd.put, expiredAt timeout h.st.ct p.2.ct = false ∧ p.1 = e.router p.2.msg.dst) ∧ (o.fully = false → e.ops.full o.rd.buf = true) ∧
      (o.fully = true → o.cache = []) ∧ o.rd.buf = addAll e r.buf (o.rd.put.map (·.2)) := by
  intro o
  have hlast : h.st.ranges.getLast? = some r := by rw [hr]; simp
  have hmem : r ∈ h.st.ranges := by rw [hr]; simp
  have hpos : h.st.pos = r.cur := pos_append _ _ _ hr
  have hseq := hi.lastF r hlast hf
  have hct := hi.ctEq r hmem hseq
  have hto := hi.toEq r hmem
  obtain ⟨T, hT⟩ := readLoop_spec e .toTheEnd h.st.procTo r.cur r.to r.ct (fun par => hpos ▸ hi.proc par) (by simp) h.st.cache
    ⟨r.cur, r.to, r.buf, false, e.ops.full r.buf, []⟩ hi.cache_sorted (fun a ha => hpos ▸ hi.off a ha) hi.cache_ne rfl
    (Key.le_refl _) (Or.inl rfl)
  change LoopSpec e .toTheEnd r.cur r.to r.ct h.st.cache _ o T at hT
  have hput : o.rd.put.map (·.2) = T := by rw [hT.put, List.nil_append, tagged_snd]
  have hTmem : ∀ i ∈ T, i ∈ todo e.ours e.timeout r.ct r.cur h.st.cache := by
    intro i hi'; rw [hT.split]; exact List.mem_append_left _ hi'
  have hTstream : ∀ i ∈ T, i ∈ stream h.st.cache ∧ ours i.msg.dst = true ∧ r.cur < i.key ∧ expiredAt timeout h.st.ct i.ct = false := by
    intro i hi'
    obtain ⟨h1, h2⟩ := List.mem_filter.1 (hTmem i hi')
    simp only [Bool.and_eq_true, decide_eq_true_eq, Bool.not_eq_true'] at h2
    rw [he, ht, hct] at h2
    exact ⟨h1, h2.1.1, h2.1.2, h2.2⟩
  -- the position after the call
  have hrcurIn : r.cur = ⟨0, 0⟩ ∨ ∃ a ∈ h.anchors, r.cur.a = a.id ∧ r.cur.o ≤ a.exts.length := hpos ▸ hi.posIn
  have hcurIn : o.rd.cur = ⟨0, 0⟩ ∨ ∃ a ∈ h.anchors, o.rd.cur.a = a.id ∧ o.rd.cur.o ≤ a.exts.length := by
    rcases hT.curIn with h1 | ⟨a, ha, h1⟩
    · rw [h1]; exact hrcurIn
    · exact Or.inr ⟨a, (hi.cache_sub ha).1, h1⟩
  generalize hr' : settle h.st.last h.st.block (r.after o) = r'
  have hr'1 : r'.seqno = r.seqno ∧ r'.ct = r.ct ∧ r'.skip = r.skip ∧ r'.proc = r.proc ∧ r'.fully = o.fully := by
    rw [← hr']; unfold settle; split
    · split <;> simp [Range.after]
    · simp [Range.after]
  obtain ⟨s1, s2, s3, s4, s5⟩ := hr'1
  have hcur' : o.rd.cur ≤ r'.cur ∧ r'.cur = r'.to ∧ (r'.cur = ⟨0, 0⟩ ∨ ∃ a ∈ h.anchors, r'.cur.a = a.id ∧ r'.cur.o ≤ a.exts.length) ∧
      (o.cache ≠ [] → r'.cur = o.rd.cur) := by
    have hbase : o.rd.cur ≤ (r.after o).cur ∧ (r.after o).cur = (r.after o).to ∧ ((r.after o).cur = ⟨0, 0⟩ ∨
        ∃ a ∈ h.anchors, (r.after o).cur.a = a.id ∧ (r.after o).cur.o ≤ a.exts.length) ∧ (o.cache ≠ [] → (r.after o).cur = o.rd.cur) := by
      refine ⟨Key.le_refl _, ?_, hcurIn, fun _ => rfl⟩
      exact (hT.toEq hto.symm).symm
    rw [← hr']; unfold settle; split
    · rename_i hc
      cases hl : h.st.last with
      | none => exact hbase
      | some p =>
        obtain ⟨id, n⟩ := p
        rw [hi.last] at hl
        cases hg : h.anchors.getLast? with
        | none => rw [hg] at hl; cases hl
        | some z =>
          rw [hg] at hl
          simp at hl
          obtain ⟨rfl, rfl⟩ := hl
          have hz : z ∈ h.anchors := List.mem_of_getLast? hg
          refine ⟨?_, rfl, Or.inr ⟨z, hz, rfl, Nat.le_refl _⟩, ?_⟩
          · rcases hcurIn with h1 | ⟨a, ha, h1, h2⟩
            · rw [h1, Key.le_def]; simp only; omega
            · rw [Key.le_def, h1]; simp only
              rcases id_le_last hi.sorted hg ha with h3 | h3
              · rw [h3] at h2 ⊢; exact Or.inr ⟨rfl, h2⟩
              · exact Or.inl h3
          · intro hne
            exact absurd (hT.atEnd rfl (by simpa [Range.after] using hc.1)) hne
    · exact hbase
  obtain ⟨c1, c2, c3, c4⟩ := hcur'
  have hrcur : r.cur ≤ r'.cur := Key.le_trans hT.le c1
  refine ⟨⟨hi.sorted, hi.last, ?_, ?_, ?_, ?_, ?_, ?_, ?_, ?_, ?_, ?_, ?_, ?_, ?_, ?_, ?_, ?_⟩, hT.notStuck, ?_, ?_, ?_, ?_⟩
  · obtain ⟨P, p1, p2⟩ := hi.popped
    obtain ⟨Q, q1, q2⟩ := hT.popped
    refine ⟨P ++ Q, by simp only [List.append_assoc]; rw [← q1]; exact p1, ?_⟩
    intro a ha
    refine ⟨r', by simp, ?_⟩
    rcases List.mem_append.1 ha with h1 | h1
    · obtain ⟨x, hx1, hx2⟩ := p2 a h1
      rw [hlast] at hx1
      cases hx1
      rw [s2]; exact hx2.mono hrcur
    · have := q2 a h1
      rw [ht] at this
      rw [s2]; exact this.mono c1
  · intro a ha hid
    have hne : o.cache ≠ [] := List.ne_nil_of_mem ha
    have hp : (⟨{ h.st with ranges := l ++ [r'], cache := o.cache, allFully := b }, h.anchors, h.log ++ o.rd.put.map (·.2)⟩ : H B).st.pos = r'.cur :=
      pos_append _ l r' rfl
    have hid' : a.id = o.rd.cur.a := hid.trans (congrArg Key.a (hp.trans (c4 hne)))
    rw [hp, c4 hne]
    exact hT.off a ha hid'
  · intro a ha
    have hne : o.cache ≠ [] := List.ne_nil_of_mem ha
    have hp : (⟨{ h.st with ranges := l ++ [r'], cache := o.cache, allFully := b }, h.anchors, h.log ++ o.rd.put.map (·.2)⟩ : H B).st.pos = r'.cur :=
      pos_append _ l r' rfl
    rw [hp, c4 hne]
    exact hT.ahead a ha
  · rw [pos_append _ l r' rfl]; exact c3
  · intro q hq
    rcases List.mem_append.1 hq with h1 | h1
    · exact hi.toEq q (by rw [hr]; exact List.mem_append_left _ h1)
    · rw [List.mem_singleton.1 h1]; exact c2
  · intro q hq
    simp only [List.dropLast_concat] at hq
    exact hi.pre q (by rw [hr, List.dropLast_concat]; exact hq)
  · intro q hq _
    simp only [getLast_append_one, Option.some.injEq] at hq
    rw [← hq, s1]; exact hseq
  · intro q hq
    rcases List.mem_append.1 hq with h1 | h1
    · exact hi.seq q (by rw [hr]; exact List.mem_append_left _ h1)
    · rw [List.mem_singleton.1 h1, s1]; exact hi.seq r hmem
  · intro q hq
    rcases List.mem_append.1 hq with h1 | h1
    · exact hi.skip q (by rw [hr]; exact List.mem_append_left _ h1)
    · rw [List.mem_singleton.1 h1, s3, s4]; exact hi.skip r hmem
  · intro q hq
    rcases List.mem_append.1 hq with h1 | h1
    · exact hi.ctLe q (by rw [hr]; exact List.mem_append_left _ h1)
    · rw [List.mem_singleton.1 h1, s2]; exact hi.ctLe r hmem
  · intro q hq hs
    rcases List.mem_append.1 hq with h1 | h1
    · exact hi.ctEq q (by rw [hr]; exact List.mem_append_left _ h1) hs
    · rw [List.mem_singleton.1 h1, s2]; exact hct
  · intro par
    rw [pos_append _ l r' rfl]
    exact Key.le_trans (hpos ▸ hi.proc par) hrcur
  · simp only [hput]
    rw [List.pairwise_append]
    refine ⟨hi.logSorted, ?_, ?_⟩
    · have h1 : (todo e.ours e.timeout r.ct r.cur h.st.cache).Pairwise (fun i j => i.key < j.key) :=
        List.Pairwise.filter _ (stream_sorted hi.cache_sorted)
      rw [hT.split] at h1
      exact (List.pairwise_append.1 h1).1
    · intro i hi1 j hj
      exact Key.lt_of_le_of_lt (hpos ▸ hi.logLe i hi1) (hTstream j hj).2.2.1
  · intro i hi1
    rw [pos_append _ l r' rfl]
    simp only [hput] at hi1
    rcases List.mem_append.1 hi1 with h1 | h1
    · exact Key.le_trans (hpos ▸ hi.logLe i h1) hrcur
    · exact Key.le_trans (hT.below i h1) c1
  · intro i hi1
    simp only [hput] at hi1
    rcases List.mem_append.1 hi1 with h1 | h1
    · exact hi.logIn i h1
    · obtain ⟨h2, h3, _⟩ := hTstream i h1
      obtain ⟨a, ha, hia⟩ := mem_stream.1 h2
      exact ⟨mem_stream.2 ⟨a, (hi.cache_sub ha).1, hia⟩, h3⟩
  · intro i hi1 ho
    simp only [hput]
    rcases hi.complete i hi1 ho with h1 | h1 | ⟨h1, h2⟩
    · exact Or.inl (List.mem_append_left _ h1)
    · exact Or.inr (Or.inl h1)
    · by_cases hx : expiredAt timeout h.st.ct i.ct = true
      · exact Or.inr (Or.inl hx)
      · have hin : i ∈ todo e.ours e.timeout r.ct r.cur h.st.cache := by
          refine List.mem_filter.2 ⟨h1, ?_⟩
          rw [he, ht, hct, ho, decide_eq_true (hpos ▸ h2 : r.cur < i.key)]
          simpa using hx
        rw [hT.split] at hin
        rcases List.mem_append.1 hin with h3 | h3
        · exact Or.inl (List.mem_append_right _ h3)
        · obtain ⟨h4, h5⟩ := List.mem_filter.1 h3
          simp only [Bool.and_eq_true, decide_eq_true_eq] at h5
          refine Or.inr (Or.inr ⟨h4, ?_⟩)
          rw [pos_append _ l r' rfl]
          have hne : o.cache ≠ [] := by
            intro hc; rw [hc] at h4; cases h4
          rw [c4 hne]; exact h5.1.2
  · intro p hp
    rw [hT.put, List.nil_append] at hp
    obtain ⟨i, hi1, rfl⟩ := List.mem_map.1 hp
    exact ⟨(hTstream i hi1).2.2.2, rfl⟩
  · intro hff; rw [← hT.filled]; exact hT.stopped hff
  · exact hT.atEnd rfl
  · rw [hT.buf, hput]

end Tycho.ExtReader
