import Verif.ExtReader.Back
/-! One group of a refill. -/
namespace Tycho.ExtReader
variable {B : Type}

/-- The flag `all_ranges_fully_read` is right. -/
def AF (s : St B) : Prop := s.allFully = true → ∀ q ∈ s.ranges, q.fully = true

theorem af_congr {s : St B} (h : AF s) (rs : List (Range B)) (off : Nat) (hr : rs.map noBuf = s.ranges.map noBuf) :
    AF { s with ranges := rs, off := off } := by
  intro h1 q hq
  obtain ⟨q', h2, h3⟩ := mem_noBuf hr hq
  rw [nb_fully h3]; exact h h1 q' h2

theorem af_collect {s : St B} (h : AF s) (e : Env B) (f : Collect B) : AF (collectStep e f s) := by
  unfold collectStep
  have h1 := af_congr h (putBufs (s.off + 1) s.ranges (f (s.off + 1) (seen (s.off + 1) s.ranges))) (s.off + 1) (putBufs_noBuf _ _ _)
  simp only
  split
  · unfold finishCollected
    split
    · exact h1
    · rename_i r hl
      intro h2 q hq
      simp only at h2
      split at h2
      · cases h2
      · have := h1 h2 r (List.mem_of_getLast? hl)
        rw [List.mem_singleton.1 hq]
        simp only
        split <;> exact this
  · exact h1

theorem af_reach {ours : Nat → Bool} {timeout : Nat} {h : H B} (hr : Reach ours timeout h) : AF h.st := by
  induction hr with
  | start block ct => intro _ q hq; simp [start] at hq
  | @step h h' hr hs ih =>
    have hi := inv_reach hr
    cases hs with
    | imp a _ => exact ih
    | group e reading f he ht =>
      have hg : (group e .continue_ reading f h.st).st =
          collectStep e f (if !reading then (⟨h.st, [], false⟩ : Res B) else readAll e .continue_ h.st).st := by simp [group]
      simp only
      rw [hg]
      apply af_collect
      cases reading with
      | false => exact ih
      | true =>
        simp only [Bool.not_true, Bool.false_eq_true, if_false]
        rcases readAll_cases hi e with ⟨b, h1, h2⟩ | ⟨l, r, b, h1, h2, h3, h4⟩ | ⟨b, h1, h2, h3, h4⟩
        · rw [h1]
          intro _ q hq
          rcases h2 with h2 | h2
          · exact ih h2 q hq
          · exact h2 q hq
        · rw [h3]
          intro hb q hq
          obtain ⟨T, hT⟩ := readFacts hi e he ht l r h1 h2
          rcases List.mem_append.1 hq with h5 | h5
          · exact hi.pre q (by rw [h1, List.dropLast_concat]; exact h5)
          · rw [List.mem_singleton.1 h5, hT.fully]; exact h4 hb
        · rw [h2]
          intro hb q hq
          obtain ⟨hn, _, _⟩ := inv_newRange hi e.ops h1
          obtain ⟨T, hT⟩ := readFacts hn e he ht h.st.ranges (nextRange e.ops h.st) rfl rfl
          rcases List.mem_append.1 hq with h5 | h5
          · exact h4 q h5
          · rw [List.mem_singleton.1 h5, hT.fully]; exact h3 hb
    | refill e f he ht => rw [refill_noop hi]; exact ih
    | reset => intro h1; cases h1
    | drop hlen =>
      unfold dropOffset
      split
      · exact ih
      · rename_i r hl
        intro h1 q hq
        rcases List.mem_append.1 hq with h2 | h2
        · exact ih h1 q (List.dropLast_subset _ h2)
        · rw [List.mem_singleton.1 h2]; exact ih h1 r (List.mem_of_getLast? hl)
    | block b ct _ _ => intro h1; cases h1

/-- A range of the run, the same range at the end of the run, and in the refill. -/
structure M (r x p : Range B) : Prop where
  st : stat p = stat x
  seqno : p.seqno = r.seqno
  ct : p.ct = r.ct
  skip : p.skip = r.skip
  buf : p.buf = r.buf
  fully : p.fully = decide (r.cur = x.to)
  cur : p.fully = false → p.cur = r.cur

inductive A3 : List (Range B) → List (Range B) → List (Range B) → Prop
  | nil : A3 [] [] []
  | cons {r x p : Range B} {rs xs ps : List (Range B)} : M r x p → A3 rs xs ps → A3 (r :: rs) (x :: xs) (p :: ps)

theorem A3.append {a b c a' b' c' : List (Range B)} (h : A3 a b c) (h' : A3 a' b' c') : A3 (a ++ a') (b ++ b') (c ++ c') := by
  induction h with
  | nil => exact h'
  | cons hm _ ih => exact A3.cons hm ih

theorem A3.split {l : List (Range B)} {r : Range B} : ∀ {xs ps : List (Range B)}, A3 (l ++ [r]) xs ps →
    ∃ Lx x Lp p, xs = Lx ++ [x] ∧ ps = Lp ++ [p] ∧ A3 l Lx Lp ∧ M r x p := by
  induction l with
  | nil =>
    intro xs ps h
    cases h with
    | cons hm h' => cases h'; exact ⟨[], _, [], _, rfl, rfl, A3.nil, hm⟩
  | cons q l ih =>
    intro xs ps h
    cases h with
    | cons hm h' =>
      obtain ⟨Lx, x, Lp, p, h1, h2, h3, h4⟩ := ih h'
      exact ⟨_ :: Lx, x, _ :: Lp, p, by rw [h1]; rfl, by rw [h2]; rfl, A3.cons hm h3, h4⟩

theorem A3.length {a b c : List (Range B)} (h : A3 a b c) : a.length = b.length ∧ c.length = b.length := by
  induction h with
  | nil => exact ⟨rfl, rfl⟩
  | cons _ _ ih => simp only [List.length_cons]; omega

theorem A3.stat {a b c : List (Range B)} (h : A3 a b c) : c.map stat = b.map stat := by
  induction h with
  | nil => rfl
  | cons hm _ ih => rw [List.map_cons, List.map_cons, ih, hm.st]

/-- Only buffers, positions and fixed fields of the run matter. -/
theorem A3.congr {a a' b c : List (Range B)} (h : A3 a b c)
    (he : a'.map (fun r => (r.seqno, r.ct, r.skip, r.buf, r.cur)) = a.map (fun r => (r.seqno, r.ct, r.skip, r.buf, r.cur))) : A3 a' b c := by
  induction h generalizing a' with
  | nil => have : a' = [] := by simpa using he
           rw [this]; exact A3.nil
  | @cons r x p rs xs ps hm _ ih =>
    cases a' with
    | nil => simp at he
    | cons q a' =>
      simp only [List.map_cons, List.cons.injEq, Prod.mk.injEq] at he
      obtain ⟨⟨h1, h2, h3, h4, h5⟩, h6⟩ := he
      exact A3.cons ⟨hm.st, by rw [h1]; exact hm.seqno, by rw [h2]; exact hm.ct, by rw [h3]; exact hm.skip, by rw [h4]; exact hm.buf,
        by rw [h5]; exact hm.fully, by rw [h5]; exact hm.cur⟩ (ih h6)

theorem pass_skip (e : Env B) (procTo : Nat → Key) (last : Option (Nat × Nat)) (off block : Nat) (cache : List Anchor) :
    ∀ (Es : List (Range B)) (all : Bool), (∀ q ∈ Es, q.fully = true ∨ off < q.skip) →
    ∃ b, pass e .refill procTo last off block Es cache all = ⟨Es, cache, [], b, false, false⟩ ∧
      (b = true → all = true ∧ ∀ q ∈ Es, q.fully = true)
  | [], all, _ => ⟨all, rfl, fun h => ⟨h, by simp⟩⟩
  | q :: Es, all, h => by
    rw [pass]
    by_cases hf : q.fully = true
    · rw [if_pos hf]
      obtain ⟨b, h1, h2⟩ := pass_skip e procTo last off block cache Es all (fun x hx => h x (List.mem_cons_of_mem _ hx))
      refine ⟨b, by rw [h1], fun hb => ⟨(h2 hb).1, ?_⟩⟩
      intro x hx
      rcases List.mem_cons.1 hx with h3 | h3
      · rw [h3]; exact hf
      · exact (h2 hb).2 x h3
    · rw [if_neg hf, if_pos (Or.inr ((h q List.mem_cons_self).resolve_left hf))]
      obtain ⟨b, h1, h2⟩ := pass_skip e procTo last off block cache Es false (fun x hx => h x (List.mem_cons_of_mem _ hx))
      refine ⟨b, by rw [h1], fun hb => ?_⟩
      have := (h2 hb).1
      cases this

/-- A refill that has nothing to read. -/
theorem refill_none (e : Env B) (P : St B) (hall : P.allFully = true → ∀ q ∈ P.ranges, q.fully = true)
    (h : ∀ q ∈ P.ranges, q.fully = true ∨ P.off < q.skip) :
    ∃ b, (readAll e .refill P).st = { P with allFully := b } ∧ (b = true → ∀ q ∈ P.ranges, q.fully = true) := by
  unfold readAll
  by_cases ha : P.allFully = true
  · rw [if_pos ha]; exact ⟨P.allFully, rfl, hall⟩
  · rw [if_neg ha]
    obtain ⟨b, h1, h2⟩ := pass_skip e P.procTo P.last P.off P.block P.cache P.ranges true h
    simp only [h1]
    split
    · exact ⟨P.allFully, rfl, hall⟩
    · rename_i hb
      rw [if_neg (by simp)]
      refine ⟨true, rfl, fun _ => ?_⟩
      simp only [Bool.or_eq_true, Bool.not_eq_true', not_or, Bool.not_eq_false] at hb
      exact (h2 hb.2).2

/-- A refill that reads one range. -/
theorem refill_one (e : Env B) (P : St B) (Lp : List (Range B)) (p : Range B) (Es : List (Range B)) (hP : P.ranges = Lp ++ p :: Es)
    (hall : P.allFully = true → ∀ q ∈ P.ranges, q.fully = true) (hL : ∀ q ∈ Lp, q.fully = true) (hp : p.fully = false)
    (hs : p.seqno ≠ P.block) (hk : p.skip ≤ P.off) (hE : ∀ q ∈ Es, q.fully = true ∨ P.off < q.skip) :
    ∃ b, (readAll e .refill P).st = { P with
        ranges := Lp ++ (p.after (readRange e .toPrev P.procTo P.cache p)) :: Es
        cache := (readRange e .toPrev P.procTo P.cache p).cache
        allFully := b } ∧
      (b = true → ∀ q ∈ Lp ++ (p.after (readRange e .toPrev P.procTo P.cache p)) :: Es, q.fully = true) := by
  have hna : ¬ P.allFully = true := by
    intro h
    have := hall h p (by rw [hP]; simp)
    rw [hp] at this; cases this
  unfold readAll
  rw [if_neg hna]
  have hpre := pass_pre e .refill P.procTo P.last P.off P.block (p :: Es) P.cache true Lp hL
  have hone : ∃ b br put stuck, pass e .refill P.procTo P.last P.off P.block (p :: Es) P.cache true =
      ⟨(p.after (readRange e .toPrev P.procTo P.cache p)) :: Es, (readRange e .toPrev P.procTo P.cache p).cache, put, b, br, stuck⟩ ∧
      (b = true → br = false → (readRange e .toPrev P.procTo P.cache p).fully = true ∧ ∀ q ∈ Es, q.fully = true) := by
    rw [pass, if_neg (by rw [hp]; simp), if_neg (by simp [hs]; omega)]
    have hm : modeOf .refill p.seqno P.block = .toPrev := by simp [modeOf]
    rw [hm]
    generalize readRange e .toPrev P.procTo P.cache p = o
    have hset : settle P.last P.block (p.after o) = p.after o := by
      unfold settle
      rw [if_neg]
      intro h; exact hs h.2
    simp only [hset]
    split
    · exact ⟨_, true, _, _, rfl, fun _ h => by cases h⟩
    · obtain ⟨b, h1, h2⟩ := pass_skip e P.procTo P.last P.off P.block o.cache Es (true && o.fully) hE
      rw [h1]
      refine ⟨_, _, _, _, rfl, fun hb _ => ?_⟩
      have := h2 hb
      simpa using this
  obtain ⟨b, br, put, stuck, h1, h2⟩ := hone
  rw [h1] at hpre
  simp only [hP, hpre]
  split
  · refine ⟨P.allFully, rfl, fun h => absurd h hna⟩
  · rename_i hb
    simp only [Bool.or_eq_true, Bool.not_eq_true', not_or, Bool.not_eq_false, Bool.not_eq_true] at hb
    rw [if_neg (by simp)]
    refine ⟨true, rfl, fun _ => ?_⟩
    obtain ⟨h3, h4⟩ := h2 hb.2 hb.1
    intro q hq
    rcases List.mem_append.1 hq with h5 | h5
    · exact hL q h5
    · rcases List.mem_cons.1 h5 with h6 | h6
      · rw [h6]; exact h3
      · exact h4 q h6

/-- Anchors that are read already do not change a read. -/
theorem readLoop_junk (e : Env B) (procTo : Nat → Key) (was p2 : Key) (ct : Nat) (C : List Anchor) :
    ∀ (J : List Anchor) (s : Rd B), (∀ a ∈ J, a.id < was.a ∨ (a.id = was.a ∧ expiredAt e.timeout ct a.ct = true)) → s.cur = was → was ≤ s.to →
    ∃ s', Same s s' ∧ s'.to = s.to ∧ readLoop e .toPrev procTo was p2 ct (J ++ C) s = readLoop e .toPrev procTo was p2 ct C s'
  | [], s, _, _, _ => ⟨s, ⟨rfl, rfl, rfl, rfl⟩, rfl, rfl⟩
  | a :: J, s, h, hc, hto => by
    have hJ := fun x hx => h x (List.mem_cons_of_mem a hx)
    rw [List.cons_append, readLoop]
    rcases h a List.mem_cons_self with h1 | ⟨h1, h2⟩
    · rw [if_pos h1]
      exact readLoop_junk e procTo was p2 ct C J s hJ hc hto
    · rw [if_neg (by omega)]
      simp only [if_pos h1, h2, if_true]
      have hw : (⟨a.id, was.o⟩ : Key) = was := by rw [h1]
      have hmax : maxKey s.to was = s.to := by
        unfold maxKey
        rw [if_neg]
        intro hx
        exact Key.lt_irrefl' _ (Key.lt_of_lt_of_le hx hto)
      rw [hw, hmax]
      obtain ⟨s', k1, k2, k3⟩ := readLoop_junk e procTo was p2 ct C J { s with cur := was, to := s.to, reached := reachedAt p2 a.id was.o } hJ rfl hto
      exact ⟨s', ⟨by rw [hc]; exact k1.cur, k1.buf, k1.filled, k1.put⟩, k2, k3⟩

/-- The collection sees the ranges that are created. -/
theorem seen_all (off : Nat) : ∀ (rs : List (Range B)), (∀ r ∈ rs, r.proc < off ∧ r.skip < off) →
    seen off rs = rs.map (fun r => (r.seqno, r.ct, r.buf))
  | [], _ => rfl
  | r :: rs, h => by
    have h1 := h r List.mem_cons_self
    have ih := seen_all off rs (fun q hq => h q (List.mem_cons_of_mem _ hq))
    unfold seen at ih ⊢
    rw [looked, if_neg (by omega), List.filter_cons, if_pos (by simpa using h1.2), List.map_cons, List.map_cons, ih]

theorem looked_sub (off : Nat) : ∀ (rs : List (Range B)), ∀ r ∈ looked off rs, r ∈ rs
  | [], _, h => h
  | q :: rs, r, h => by
    rw [looked] at h
    split at h
    · rw [List.mem_singleton.1 h]; exact List.mem_cons_self
    · rcases List.mem_cons.1 h with h1 | h1
      · rw [h1]; exact List.mem_cons_self
      · exact List.mem_cons_of_mem _ (looked_sub off rs r h1)

theorem seen_none (off : Nat) (rs : List (Range B)) (h : ∀ r ∈ rs, off ≤ r.skip) : seen off rs = [] := by
  unfold seen
  rw [List.map_eq_nil_iff, List.filter_eq_nil_iff]
  intro r hr
  have := h r (looked_sub off rs r hr)
  simp; omega

theorem seen_last (off : Nat) (p : Range B) (Es : List (Range B)) (hp : p.skip < off) (hE : ∀ q ∈ Es, off ≤ q.skip) :
    ∀ (Lp : List (Range B)), (∀ q ∈ Lp, q.proc < off ∧ q.skip < off) →
    seen off (Lp ++ p :: Es) = (Lp ++ [p]).map (fun r => (r.seqno, r.ct, r.buf))
  | [], _ => by
    have hn := seen_none off Es hE
    unfold seen at hn ⊢
    rw [List.nil_append, looked]
    split
    · simp [hp]
    · rw [List.filter_cons, if_pos (by simpa using hp), List.map_cons, hn]; rfl
  | q :: Lp, h => by
    have h1 := h q List.mem_cons_self
    have ih := seen_last off p Es hp hE Lp (fun x hx => h x (List.mem_cons_of_mem _ hx))
    unfold seen at ih ⊢
    rw [List.cons_append, looked, if_neg (by omega), List.filter_cons, if_pos (by simpa using h1.2), List.map_cons, ih]
    rfl

theorem putBufs_none (off : Nat) : ∀ (rs : List (Range B)) (bs : List B), (∀ r ∈ rs, off ≤ r.skip) → putBufs off rs bs = rs
  | [], [], _ => rfl
  | [], _ :: _, _ => rfl
  | _ :: _, [], _ => rfl
  | r :: rs, b :: bs, h => by
    have := h r List.mem_cons_self
    rw [putBufs, if_neg (by omega), putBufs_none off rs (b :: bs) (fun q hq => h q (List.mem_cons_of_mem _ hq))]

/-- The collection treats both alike. -/
theorem A3.putBufs {off : Nat} {Es : List (Range B)} (hE : ∀ q ∈ Es, off ≤ q.skip) {rs xs ps : List (Range B)} (h : A3 rs xs ps)
    (hk : ∀ r ∈ rs, r.skip < off) (bs : List B) :
    ∃ ps', putBufs off (ps ++ Es) bs = ps' ++ Es ∧ A3 (putBufs off rs bs) xs ps' := by
  induction h generalizing bs with
  | nil =>
    refine ⟨[], ?_, ?_⟩
    · simp only [List.nil_append]; exact putBufs_none off Es bs hE
    · cases bs <;> exact A3.nil
  | @cons r x p rs xs ps hm h ih =>
    cases bs with
    | nil => exact ⟨p :: ps, rfl, A3.cons hm h⟩
    | cons b bs =>
      have h1 := hk r List.mem_cons_self
      obtain ⟨ps', k1, k2⟩ := ih (fun q hq => hk q (List.mem_cons_of_mem _ hq)) bs
      refine ⟨{ p with buf := b } :: ps', ?_, ?_⟩
      · rw [List.cons_append, Tycho.ExtReader.putBufs, if_pos (by rw [hm.skip]; exact h1), k1]; rfl
      · rw [Tycho.ExtReader.putBufs, if_pos h1]
        exact A3.cons ⟨hm.st, hm.seqno, hm.ct, hm.skip, rfl, hm.fully, hm.cur⟩ k2

end Tycho.ExtReader
