import Verif.ExtReader.Keep
/-! A read of new messages and a later read up to a known end go the same way. -/
namespace Tycho.ExtReader
variable {B : Type}

/-- The same variables, but for `to` and `reached`. -/
structure Same (s t : Rd B) : Prop where
  cur : s.cur = t.cur
  buf : s.buf = t.buf
  filled : s.filled = t.filled
  put : s.put = t.put

theorem import_filled (e : Env B) (mode : RMode) (procTo : Nat → Key) (prevTo : Key) (aid act off : Nat) (s : Rd B)
    (h : (s.filled || (decide (mode = .toPrev) && s.reached)) = true) :
    ∀ ms, importMsgs e mode procTo prevTo aid act ms off s = (off, s)
  | [] => rfl
  | m :: ms => by
    rw [importMsgs, if_pos h, import_filled e mode procTo prevTo aid act off s h ms]
    split <;> rfl

theorem import_le (e : Env B) (mode : RMode) (procTo : Nat → Key) (prevTo : Key) (aid act : Nat) :
    ∀ (ms : List Ext) (off : Nat) (s : Rd B), off ≤ (importMsgs e mode procTo prevTo aid act ms off s).1
  | [], _, _ => Nat.le_refl _
  | m :: ms, off, s => by
    rw [importMsgs]
    split
    · split
      · exact Nat.le_refl _
      · exact import_le e mode procTo prevTo aid act ms off s
    · have := import_le e mode procTo prevTo aid act ms (off + 1) (takeMsg e procTo prevTo ⟨aid, off + 1⟩ act m s)
      omega

theorem takeMsg_same {e : Env B} {procTo : Nat → Key} {p1 p2 key : Key} {act : Nat} {m : Ext} {s t : Rd B} (h : Same s t) :
    Same (takeMsg e procTo p1 key act m s) (takeMsg e procTo p2 key act m t) ∧
      (takeMsg e procTo p2 key act m t).reached = reachedAt p2 key.a key.o := by
  obtain ⟨h1, h2, h3, h4⟩ := h
  simp only [takeMsg, h2, h4]
  split
  · split
    · exact ⟨⟨rfl, rfl, rfl, rfl⟩, rfl⟩
    · exact ⟨⟨rfl, rfl, rfl, rfl⟩, rfl⟩
  · exact ⟨⟨rfl, rfl, h3, rfl⟩, rfl⟩

theorem import_lock (e : Env B) (procTo : Nat → Key) (p1 p2 : Key) (aid act : Nat) :
    ∀ (ms : List Ext) (off : Nat) (s t : Rd B), Same s t → t.reached = reachedAt p2 aid off →
      (aid < p2.a ∨ (aid = p2.a ∧ (importMsgs e .toTheEnd procTo p1 aid act ms off s).1 ≤ p2.o)) →
      (importMsgs e .toPrev procTo p2 aid act ms off t).1 = (importMsgs e .toTheEnd procTo p1 aid act ms off s).1 ∧
        Same (importMsgs e .toTheEnd procTo p1 aid act ms off s).2 (importMsgs e .toPrev procTo p2 aid act ms off t).2 ∧
        (importMsgs e .toPrev procTo p2 aid act ms off t).2.reached =
          reachedAt p2 aid (importMsgs e .toTheEnd procTo p1 aid act ms off s).1
  | [], _, _, _, h, hr, _ => ⟨rfl, h, hr⟩
  | m :: ms, off, s, t, h, hr, hb => by
    by_cases hf : s.filled = true
    · have hft : t.filled = true := by rw [← h.filled]; exact hf
      rw [import_filled _ _ _ _ _ _ _ s (by simp [hf]), import_filled _ _ _ _ _ _ _ t (by simp [hft])]
      exact ⟨rfl, h, hr⟩
    · have hE : importMsgs e .toTheEnd procTo p1 aid act (m :: ms) off s =
          importMsgs e .toTheEnd procTo p1 aid act ms (off + 1) (takeMsg e procTo p1 ⟨aid, off + 1⟩ act m s) := by
        rw [importMsgs, if_neg (by simpa using hf)]
      rw [hE] at hb ⊢
      have h1 := import_le e .toTheEnd procTo p1 aid act ms (off + 1) (takeMsg e procTo p1 ⟨aid, off + 1⟩ act m s)
      have hn : t.reached = false := by
        rw [hr]; unfold reachedAt
        simp only [Bool.or_eq_false_iff, Bool.and_eq_false_iff, decide_eq_false_iff_not]
        omega
      have hE2 : importMsgs e .toPrev procTo p2 aid act (m :: ms) off t =
          importMsgs e .toPrev procTo p2 aid act ms (off + 1) (takeMsg e procTo p2 ⟨aid, off + 1⟩ act m t) := by
        rw [importMsgs, if_neg (by rw [← h.filled]; simp [hf, hn])]
      rw [hE2]
      obtain ⟨h2, h3⟩ := takeMsg_same (e := e) (procTo := procTo) (p1 := p1) (p2 := p2) (key := ⟨aid, off + 1⟩) (act := act) (m := m) h
      exact import_lock e procTo p1 p2 aid act ms (off + 1) _ _ h2 h3 hb

/-- What an anchor that is not skipped does to the position. -/
theorem readLoop_moves (e : Env B) (procTo : Nat → Key) (was p1 : Key) (ct : Nat) (a : Anchor) (rest : List Anchor) (s : Rd B)
    (hproc : ∀ par, procTo par ≤ was) (hs : Sorted (a :: rest)) (hoff : ∀ c ∈ a :: rest, c.id = was.a → was.o < c.exts.length)
    (hne : ∀ c ∈ a :: rest, c.exts ≠ []) (hfl : s.filled = e.ops.full s.buf) (hnf : s.filled = false) (hw : was.a ≤ a.id) :
    a.id ≤ (readLoop e .toTheEnd procTo was p1 ct (a :: rest) s).rd.cur.a ∧
      (expiredAt e.timeout ct a.ct = false → (⟨a.id, 0⟩ : Key) < (readLoop e .toTheEnd procTo was p1 ct (a :: rest) s).rd.cur) := by
  have htail : ∀ t : Rd B, t.cur.a = a.id → was ≤ t.cur → t.filled = e.ops.full t.buf →
      a.id ≤ (readLoop e .toTheEnd procTo was p1 ct rest t).rd.cur.a ∧ t.cur ≤ (readLoop e .toTheEnd procTo was p1 ct rest t).rd.cur := by
    intro t ht hwt hft
    obtain ⟨T, hT⟩ := readLoop_spec e .toTheEnd procTo was p1 ct hproc (by simp) rest t (List.pairwise_cons.1 hs).2
      (fun c hc => hoff c (List.mem_cons_of_mem _ hc)) (fun c hc => hne c (List.mem_cons_of_mem _ hc)) hft hwt
      (Or.inr (fun c hc => by rw [ht]; exact (List.pairwise_cons.1 hs).1 c hc))
    have := hT.le
    refine ⟨?_, this⟩
    rw [Key.le_def] at this
    omega
  rw [readLoop, if_neg (by omega)]
  simp only
  generalize hoffd : (if a.id = was.a then was.o else 0) = off
  have hofflt : off < a.exts.length := by
    rw [← hoffd]; split
    · exact hoff a List.mem_cons_self ‹_›
    · exact List.length_pos_iff.2 (hne a List.mem_cons_self)
  have hkey : ∀ k, off ≤ k → was ≤ ⟨a.id, k⟩ := by
    intro k hk
    rw [Key.le_def]
    by_cases h1 : a.id = was.a
    · rw [if_pos h1] at hoffd; simp only; omega
    · simp only; omega
  split
  · rename_i hexp
    refine ⟨(htail { s with cur := ⟨a.id, off⟩, to := maxKey s.to ⟨a.id, off⟩, reached := reachedAt p1 a.id off } rfl (hkey off (Nat.le_refl _)) hfl).1,
      fun h => by rw [hexp] at h; cases h⟩
  · generalize hs1 : ({ s with reached := reachedAt p1 a.id off } : Rd B) = s1
    have hs1f : s1.filled = e.ops.full s1.buf := by rw [← hs1]; exact hfl
    have hs1n : s1.filled = false := by rw [← hs1]; exact hnf
    have hpr : ∀ par k, off < k → procTo par < ⟨a.id, k⟩ := by
      intro par k hk
      refine Key.lt_of_le_of_lt (Key.le_trans (hproc par) (hkey off (Nat.le_refl _))) ?_
      rw [Key.lt_def]; exact Or.inr ⟨rfl, hk⟩
    obtain ⟨T, _, b2, b3, b4, _, b6, _, b8, _⟩ := import_spec e .toTheEnd procTo p1 a.id a.ct (a.exts.drop off) off s1 hs1f
      (by rw [← hs1]) hpr
    have hstep : off + 1 ≤ (importMsgs e .toTheEnd procTo p1 a.id a.ct (a.exts.drop off) off s1).1 := by
      cases hd : a.exts.drop off with
      | nil => rw [List.drop_eq_nil_iff] at hd; omega
      | cons m ms =>
        rw [importMsgs, if_neg (by simp [hs1n])]
        exact import_le ..
    generalize importMsgs e .toTheEnd procTo p1 a.id a.ct (a.exts.drop off) off s1 = r at b3 b4 b6 b8 hstep ⊢
    have hcur : r.2.cur = ⟨a.id, r.1⟩ := by rw [b8, if_neg (by omega)]
    have hlt0 : (⟨a.id, 0⟩ : Key) < r.2.cur := by rw [hcur, Key.lt_def]; exact Or.inr ⟨rfl, by simp only; omega⟩
    have hfin : a.id ≤ r.2.cur.a ∧ (expiredAt e.timeout ct a.ct = false → (⟨a.id, 0⟩ : Key) < r.2.cur) :=
      ⟨by rw [hcur]; exact Nat.le_refl _, fun _ => hlt0⟩
    rw [if_neg (by simp)]
    split
    · exact hfin
    · split
      · obtain ⟨h1, h2⟩ := htail r.2 (by rw [hcur]) (by rw [hcur]; exact hkey _ (by omega)) b6
        exact ⟨h1, fun _ => Key.lt_of_lt_of_le hlt0 h2⟩
      · exact hfin

/-- Why the later read ends with the range fully read. -/
def Ended (e : Env B) (p2 : Key) (ct : Nat) (o : Out B) : Prop :=
  o.fully = true ∨ o.rd.cur = p2 ∨
    ∃ a rest, o.cache = a :: rest ∧ expiredAt e.timeout ct a.ct = false ∧ o.rd.cur.a < a.id ∧ ¬ (⟨a.id, 0⟩ : Key) < p2

/-- Both reads on an anchor list and its extension. -/
theorem readLoop_lock (e : Env B) (procTo : Nat → Key) (was p1 p2 : Key) (ct : Nat) (X : List Anchor)
    (hproc : ∀ par, procTo par ≤ was) (hX : ∀ x ∈ X, x.exts ≠ [] ∧ expiredAt e.timeout ct x.ct = false) :
    ∀ (C : List Anchor) (s t : Rd B), Sorted C → (∀ a ∈ C, a.id = was.a → was.o < a.exts.length) → (∀ a ∈ C, a.exts ≠ []) →
      s.filled = e.ops.full s.buf → was ≤ s.cur → (s.cur = was ∨ ∀ a ∈ C, s.cur.a < a.id) → Same s t →
      (readLoop e .toTheEnd procTo was p1 ct C s).rd.cur ≤ p2 →
      ((readLoop e .toTheEnd procTo was p1 ct C s).fully = true → ∀ x ∈ X, p2.a < x.id) →
      Same (readLoop e .toTheEnd procTo was p1 ct C s).rd (readLoop e .toPrev procTo was p2 ct (C ++ X) t).rd ∧
        (readLoop e .toPrev procTo was p2 ct (C ++ X) t).cache = (readLoop e .toTheEnd procTo was p1 ct C s).cache ++ X ∧
        ((readLoop e .toTheEnd procTo was p1 ct C s).fully = true ∨ (readLoop e .toTheEnd procTo was p1 ct C s).rd.cur = p2 →
          (readLoop e .toPrev procTo was p2 ct (C ++ X) t).fully = true) ∧
        ((readLoop e .toPrev procTo was p2 ct (C ++ X) t).fully = true → Ended e p2 ct (readLoop e .toTheEnd procTo was p1 ct C s)) := by
  intro C
  induction C with
  | nil =>
    intro s t _ _ _ _ hwas _ hst hcur hfx
    simp only [readLoop, List.nil_append] at hcur hfx ⊢
    cases X with
    | nil => exact ⟨hst, rfl, fun _ => rfl, fun _ => Or.inl rfl⟩
    | cons x X =>
      have hx := hfx trivial x List.mem_cons_self
      obtain ⟨hx1, hx2⟩ := hX x List.mem_cons_self
      have hw : was ≤ p2 := Key.le_trans hwas hcur
      rw [Key.le_def] at hw
      have hoff : (if x.id = was.a then was.o else 0) = 0 := if_neg (by omega)
      have hre : reachedAt p2 x.id 0 = true := by simp [reachedAt]; omega
      have hlen : ¬ x.exts.length = 0 := by simpa using hx1
      rw [readLoop, if_neg (by omega)]
      simp only [hoff, hx2, Bool.false_eq_true, if_false, List.drop_zero, hre]
      rw [import_filled _ _ _ _ _ _ _ _ (by simp)]
      simp only [hlen, decide_true, Bool.and_self, if_true, decide_false, Bool.false_eq_true, if_false]
      exact ⟨⟨hst.cur, hst.buf, hst.filled, hst.put⟩, by simp, fun _ => trivial, fun _ => Or.inl rfl⟩
  | cons a rest ih =>
    intro s t hso hoff hne hfl hwas hdis hst hcur hfx
    have hso' := (List.pairwise_cons.1 hso).2
    have hoff' := fun c hc => hoff c (List.mem_cons_of_mem _ hc)
    have hne' := fun c hc => hne c (List.mem_cons_of_mem a hc)
    rw [List.cons_append]
    by_cases hskip : a.id < was.a
    · rw [readLoop, if_pos hskip] at hcur hfx ⊢
      rw [readLoop, if_pos hskip]
      exact ih s t hso' hoff' hne' hfl hwas (hdis.imp id (fun h c hc => h c (List.mem_cons_of_mem _ hc))) hst hcur hfx
    · rw [readLoop, if_neg hskip] at hcur hfx ⊢
      rw [readLoop, if_neg hskip]
      simp only at hcur hfx ⊢
      generalize hoffd : (if a.id = was.a then was.o else 0) = off at hcur hfx ⊢
      have hofflt : off < a.exts.length := by
        rw [← hoffd]; split
        · exact hoff a List.mem_cons_self ‹_›
        · exact List.length_pos_iff.2 (hne a List.mem_cons_self)
      have hkey : ∀ k, off ≤ k → was ≤ ⟨a.id, k⟩ := by
        intro k hk
        rw [Key.le_def]
        by_cases h1 : a.id = was.a
        · rw [if_pos h1] at hoffd; simp only; omega
        · simp only; omega
      by_cases hexp : expiredAt e.timeout ct a.ct = true
      · rw [if_pos hexp] at hcur hfx ⊢
        rw [if_pos hexp]
        refine ih _ _ hso' hoff' hne' hfl (hkey off (Nat.le_refl _)) (Or.inr (fun c hc => (List.pairwise_cons.1 hso).1 c hc)) ?_ hcur hfx
        exact ⟨rfl, hst.buf, hst.filled, hst.put⟩
      · rw [if_neg hexp] at hcur hfx ⊢
        rw [if_neg hexp]
        generalize hs1 : ({ s with reached := reachedAt p1 a.id off } : Rd B) = s1 at hcur hfx ⊢
        generalize ht1 : ({ t with reached := reachedAt p2 a.id off } : Rd B) = t1
        have hs1t : Same s1 t1 := by rw [← hs1, ← ht1]; exact ⟨hst.cur, hst.buf, hst.filled, hst.put⟩
        have ht1r : t1.reached = reachedAt p2 a.id off := by rw [← ht1]
        have hs1f : s1.filled = e.ops.full s1.buf := by rw [← hs1]; exact hfl
        have hs1c : s1.cur = s.cur := by rw [← hs1]
        by_cases hfull : s1.filled = true
        · have hfullt : t1.filled = true := by rw [← hs1t.filled]; exact hfull
          rw [import_filled _ _ _ _ _ _ _ s1 (by simp [hfull])] at hcur hfx ⊢
          rw [import_filled _ _ _ _ _ _ _ t1 (by simp [hfullt])]
          have hlen : ¬ a.exts.length = off := by omega
          simp only [hlen, decide_false, Bool.false_eq_true, if_false, hfull, if_true, reduceCtorEq, Bool.false_and, decide_true,
            Bool.true_and, hfullt] at hcur hfx ⊢
          split
          · rename_i hre
            refine ⟨hs1t, rfl, fun _ => rfl, fun _ => ?_⟩
            rw [ht1r] at hre
            unfold reachedAt at hre
            simp only [Bool.or_eq_true, Bool.and_eq_true, decide_eq_true_eq] at hre
            rw [Key.le_def] at hcur
            rw [Key.le_def] at hwas
            rw [hs1c] at hcur
            have hexp' : expiredAt e.timeout ct a.ct = false := by simpa using hexp
            by_cases h2 : a.id = was.a
            · rw [if_pos h2] at hoffd
              have h3 : s.cur = was := by
                rcases hdis with h3 | h3
                · exact h3
                · have := h3 a List.mem_cons_self; omega
              refine Or.inr (Or.inl ?_)
              simp only [hs1c, h3]
              rw [h3] at hcur
              obtain ⟨wa, wo⟩ := was
              obtain ⟨pa, po⟩ := p2
              simp only at *
              rw [Key.mk.injEq]; omega
            · refine Or.inr (Or.inr ⟨a, rest, rfl, hexp', ?_, ?_⟩)
              · simp only [hs1c]
                rcases hdis with h3 | h3
                · rw [h3]; omega
                · exact h3 a List.mem_cons_self
              · rw [if_neg h2] at hoffd
                rw [Key.lt_def]; simp only; omega
          · rename_i hnr
            refine ⟨hs1t, rfl, ?_, fun h => by cases h⟩
            intro h
            rcases h with h | h
            · cases h
            · exfalso
              apply hnr
              rw [ht1r, ← h, hs1c]
              unfold reachedAt
              simp only [Bool.or_eq_true, Bool.and_eq_true, decide_eq_true_eq]
              rcases hdis with h1 | h1
              · rw [h1]
                by_cases h2 : a.id = was.a
                · rw [if_pos h2] at hoffd; exact Or.inr ⟨h2, hoffd.symm⟩
                · exact Or.inl (by omega)
              · exact Or.inl (h1 a List.mem_cons_self)
        · have hpr : ∀ par k, off < k → procTo par < ⟨a.id, k⟩ := by
            intro par k hk
            refine Key.lt_of_le_of_lt (Key.le_trans (hproc par) (hkey off (Nat.le_refl _))) ?_
            rw [Key.lt_def]; exact Or.inr ⟨rfl, hk⟩
          obtain ⟨T, _, b2, b3, b4, _, b6, _, b8, _, b10, _⟩ := import_spec e .toTheEnd procTo p1 a.id a.ct (a.exts.drop off) off s1 hs1f
            (by rw [← hs1]) hpr
          have hstep : off + 1 ≤ (importMsgs e .toTheEnd procTo p1 a.id a.ct (a.exts.drop off) off s1).1 := by
            cases hd : a.exts.drop off with
            | nil => rw [List.drop_eq_nil_iff] at hd; omega
            | cons m ms =>
              rw [importMsgs, if_neg (by simp [hfull])]
              exact import_le ..
          have hlock := import_lock e procTo p1 p2 a.id a.ct (a.exts.drop off) off s1 t1 hs1t ht1r
          generalize importMsgs e .toTheEnd procTo p1 a.id a.ct (a.exts.drop off) off s1 = r at b3 b4 b6 b8 b10 hstep hlock hcur hfx ⊢
          have hrcur : r.2.cur = ⟨a.id, r.1⟩ := by rw [b8, if_neg (by omega)]
          simp only [reduceCtorEq, decide_false, Bool.false_and, Bool.false_eq_true, if_false] at hcur hfx ⊢
          -- the end of this anchor is not behind `p2`
          have hle : (⟨a.id, r.1⟩ : Key) ≤ p2 := by
            split at hcur
            · rw [← hrcur]; exact hcur
            · split at hcur
              · refine Key.le_trans ?_ hcur
                obtain ⟨T, hT⟩ := readLoop_spec e .toTheEnd procTo was p1 ct hproc (by simp) rest r.2 hso' hoff' hne' b6
                  (by rw [hrcur]; exact hkey _ (by omega)) (Or.inr (fun c hc => by rw [hrcur]; exact (List.pairwise_cons.1 hso).1 c hc))
                rw [← hrcur]; exact hT.le
              · rw [← hrcur]; exact hcur
          rw [Key.le_def] at hle
          simp only at hle
          obtain ⟨l1, l2, l3⟩ := hlock (by omega)
          generalize importMsgs e .toPrev procTo p2 a.id a.ct (a.exts.drop off) off t1 = q at l1 l2 l3 ⊢
          simp only [l1, decide_true, Bool.true_and]
          have hreq : q.2.reached = true ↔ r.2.cur = p2 := by
            rw [l3, hrcur]; unfold reachedAt
            simp only [Bool.or_eq_true, Bool.and_eq_true, decide_eq_true_eq]
            constructor
            · intro h
              rcases h with h | ⟨h, h'⟩
              · omega
              · obtain ⟨pa, po⟩ := p2
                simp only at h h'
                rw [h, h']
            · intro h; exact Or.inr ⟨by rw [← h], by rw [← h]⟩
          by_cases hf2 : r.2.filled = true
          · have hq2 : q.2.filled = true := by rw [← l2.filled]; exact hf2
            simp only [hf2, if_true, hq2] at hcur hfx ⊢
            by_cases hre : q.2.reached = true
            · rw [if_pos hre]
              refine ⟨l2, ?_, fun _ => rfl, fun _ => Or.inr (Or.inl (hreq.1 hre))⟩
              simp only; split <;> simp
            · rw [if_neg hre]
              refine ⟨l2, ?_, ?_, fun h => by cases h⟩
              · simp only; split <;> simp
              · intro h
                rcases h with h | h
                · cases h
                · exact absurd (hreq.2 h) hre
          · have hq2 : q.2.filled = false := by rw [← l2.filled]; simpa using hf2
            have hf2' : r.2.filled = false := by simpa using hf2
            have hwhole : a.exts.length = r.1 := by
              have := b10 hf2' (by simp)
              rw [List.length_drop] at this; omega
            simp only [hf2', Bool.false_eq_true, if_false, hwhole, decide_true, if_true, hq2] at hcur hfx ⊢
            by_cases hre : q.2.reached = true
            · rw [if_pos hre]
              -- nothing more was read
              have hp2 := hreq.1 hre
              cases rest with
              | nil =>
                simp only [readLoop, List.nil_append]
                exact ⟨l2, trivial, fun _ => trivial, fun _ => Or.inl rfl⟩
              | cons c cs =>
                exfalso
                have ⟨hm, _⟩ := readLoop_moves e procTo was p1 ct c cs r.2 hproc hso' hoff' hne' b6 hf2'
                  (by have := (List.pairwise_cons.1 hso).1 c List.mem_cons_self; omega)
                have hlt := (List.pairwise_cons.1 hso).1 c List.mem_cons_self
                rw [Key.le_def] at hcur
                have : p2.a = a.id := by rw [← hp2, hrcur]
                omega
            · rw [if_neg hre]
              exact ih r.2 q.2 hso' hoff' hne' b6 (by rw [hrcur]; exact hkey _ (by omega))
                (Or.inr (fun c hc => by rw [hrcur]; exact (List.pairwise_cons.1 hso).1 c hc)) l2 hcur hfx

end Tycho.ExtReader
