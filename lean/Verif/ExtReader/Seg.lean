import Verif.ExtReader.Cases
/-! The run between two points at which all read messages were collected, and what is known in it about its end. -/
namespace Tycho.ExtReader
variable {B : Type}

/-- What stays the same in such a run and in the refill after it. -/
structure Cfg (B : Type) where
  ours : Nat → Bool
  timeout : Nat
  router : Nat → Nat
  ops : Ops B

def Cfg.env (c : Cfg B) (limit : Nat) (np : Bool) : Env B := ⟨c.ours, c.timeout, c.router, c.ops, limit, np⟩

/-- A history with the flag that messages can still be read in this block. -/
structure G (B : Type) where
  h : H B
  rd : Bool

/-- The steps. What is collected is a fixed function; after each group some read message is not yet collected; reading stops at
most once in a block; an anchor is not expired when it is imported. -/
inductive SegStep (c : Cfg B) (f : Collect B) : G B → G B → Prop
  | imp (g : G B) (a : Anchor) : (∀ x ∈ g.h.anchors, x.id < a.id) → expiredAt c.timeout g.h.st.ct a.ct = false →
      SegStep c f g ⟨⟨importAnchor c.ours a g.h.st, g.h.anchors ++ [a], g.h.log⟩, g.rd⟩
  | group (g : G B) (limit : Nat) (np reading : Bool) : (reading = true → g.rd = true) →
      allCollected c.ops (group (c.env limit np) .continue_ reading f g.h.st).st.off
        (group (c.env limit np) .continue_ reading f g.h.st).st.ranges = false →
      SegStep c f g ⟨⟨(group (c.env limit np) .continue_ reading f g.h.st).st, g.h.anchors,
        g.h.log ++ (group (c.env limit np) .continue_ reading f g.h.st).put.map (·.2)⟩, reading⟩
  | reset (g : G B) : SegStep c f g ⟨⟨{ g.h.st with allFully := false }, g.h.anchors, g.h.log⟩, g.rd⟩
  | block (g : G B) (b ct : Nat) : g.h.st.block < b → g.h.st.ct ≤ ct →
      SegStep c f g ⟨⟨newBlock b ct (finalize g.h.st), g.h.anchors, g.h.log⟩, true⟩

theorem SegStep.toStep {c : Cfg B} {f : Collect B} {g g' : G B} (h : SegStep c f g g') : Step c.ours c.timeout g.h g'.h := by
  cases h with
  | imp a h1 h2 => exact Step.imp _ a h1
  | group limit np reading h1 h2 => exact Step.group _ (c.env limit np) reading f rfl rfl
  | reset => exact Step.reset _
  | block b ct h1 h2 => exact Step.block _ b ct h1 h2

/-- What of a range does not change after the next one was created. -/
def stat (r : Range B) : Nat × Key × Key × Nat × Nat × Nat := (r.seqno, r.lo, r.to, r.ct, r.skip, r.proc)

/-- What is known in a state about the ranges `FR` at the end of the run. -/
structure Plan (timeout : Nat) (s : St B) (rd : Bool) (o : Nat) (FR l : List (Range B)) (r : Range B) (L : List (Range B)) (x : Range B)
    (ext : List (Range B)) : Prop where
  hs : s.ranges = l ++ [r]
  hF : FR = L ++ x :: ext
  pre : L.map stat = l.map stat
  same : x.seqno = r.seqno ∧ x.lo = r.lo ∧ x.ct = r.ct ∧ x.skip = r.skip
  to : r.to ≤ x.to
  proc : r.proc ≤ x.proc
  closed : r.fully = true ∨ rd = false → x.to = r.to
  next : x.to = r.cur ∨ ∀ a, s.cache.head? = some a → expiredAt timeout r.ct a.ct = true ∨ a.id = r.cur.a ∨ (⟨a.id, 0⟩ : Key) < x.to
  tail : ∀ y ∈ ext, o ≤ y.skip ∧ y.lo ≤ y.to ∧ x.to ≤ y.lo
  head : ∀ y, ext.head? = some y → y.lo = x.to ∧ (o < y.skip ∨ x.to = r.to)
  tl : ∀ y ∈ ext.tail, o < y.skip

def Fut (timeout : Nat) (s : St B) (rd : Bool) (o : Nat) (FR : List (Range B)) : Prop :=
  ∃ l r L x ext, Plan timeout s rd o FR l r L x ext

/-- The same, with all later ranges created at later offsets. -/
def FutS (timeout : Nat) (s : St B) (rd : Bool) (o : Nat) (FR : List (Range B)) : Prop :=
  ∃ l r L x ext, Plan timeout s rd o FR l r L x ext ∧ ∀ y ∈ ext, o < y.skip

theorem FutS.fut {timeout : Nat} {s : St B} {rd : Bool} {o : Nat} {FR : List (Range B)} (h : FutS timeout s rd o FR) :
    Fut timeout s rd o FR := by
  obtain ⟨l, r, L, x, ext, hE, _⟩ := h
  exact ⟨l, r, L, x, ext, hE⟩

theorem Key.lt_irrefl' (p : Key) : ¬ p < p := by rw [Key.lt_def]; omega
theorem Key.le_antisymm' {p q : Key} (h1 : p ≤ q) (h2 : q ≤ p) : p = q := by
  rw [Key.le_def] at h1 h2
  obtain ⟨a, b⟩ := p; obtain ⟨c, d⟩ := q
  simp only at h1 h2
  rw [Key.mk.injEq]; omega

theorem fut_lower {timeout : Nat} {s : St B} {rd : Bool} {o : Nat} {FR : List (Range B)} (h : Fut timeout s rd (o + 1) FR) :
    FutS timeout s rd o FR := by
  obtain ⟨l, r, L, x, ext, hE⟩ := h
  refine ⟨l, r, L, x, ext, { hE with tail := ?_, head := ?_, tl := ?_ }, fun y hy => (hE.tail y hy).1⟩
  · intro y hy; obtain ⟨h1, h2⟩ := hE.tail y hy; exact ⟨by omega, h2⟩
  · intro y hy
    obtain ⟨h1, h2⟩ := hE.head y hy
    exact ⟨h1, h2.imp (fun h => by omega) id⟩
  · intro y hy; have := hE.tl y hy; omega

/-- Only what is not the buffer matters. -/
theorem fut_congr {timeout : Nat} {s s' : St B} {rd : Bool} {o : Nat} {FR : List (Range B)} (h : Fut timeout s' rd o FR)
    (hr : s'.ranges.map noBuf = s.ranges.map noBuf) (hc : s'.cache = s.cache) : Fut timeout s rd o FR := by
  obtain ⟨l', r', L, x, ext, hE⟩ := h
  rw [hE.hs] at hr
  have hr2 := hr
  rcases List.eq_nil_or_concat s.ranges with h1 | ⟨l, r, h1⟩
  · rw [h1] at hr; simp at hr
  · rw [List.concat_eq_append] at h1
    rw [h1, List.map_append, List.map_append] at hr
    obtain ⟨hl1, hr1⟩ := List.append_inj' hr rfl
    have hrr : noBuf r' = noBuf r := by simpa using hr1
    have hstat : ∀ q q' : Range B, noBuf q = noBuf q' → stat q = stat q' := by
      intro q q' hq
      have : q.lo = q'.lo := congrArg (Range.lo (B := Unit)) hq
      simp only [stat, nb_seqno hq, nb_to hq, nb_ct hq, nb_skip hq, nb_proc hq, this]
    have hlo : r'.lo = r.lo := congrArg (Range.lo (B := Unit)) hrr
    refine ⟨l, r, L, x, ext, h1, hE.hF, ?_, ?_, ?_, ?_, ?_, ?_, hE.tail, ?_, hE.tl⟩
    · rw [hE.pre]
      have key : ∀ (a b : List (Range B)), a.map noBuf = b.map noBuf → a.map stat = b.map stat := by
        intro a
        induction a with
        | nil => intro b hb; have : b = [] := by simpa using hb.symm
                 rw [this]
        | cons q a ih =>
          intro b hb
          cases b with
          | nil => simp at hb
          | cons q' b =>
            simp only [List.map_cons, List.cons.injEq] at hb ⊢
            exact ⟨hstat _ _ hb.1, ih b hb.2⟩
      exact key _ _ hl1
    · rw [← nb_seqno hrr, ← hlo, ← nb_ct hrr, ← nb_skip hrr]; exact hE.same
    · rw [← nb_to hrr]; exact hE.to
    · rw [← nb_proc hrr]; exact hE.proc
    · rw [← nb_fully hrr, ← nb_to hrr]; exact hE.closed
    · rw [← nb_cur hrr, ← nb_ct hrr, ← hc]; exact hE.next
    · rw [← nb_to hrr]; exact hE.head

/-- What a read of the last range does to it. -/
structure ReadFacts (e : Env B) (s : St B) (r r' : Range B) (o : Out B) (T : List Item) : Prop where
  spec : LoopSpec e .toTheEnd r.cur r.to r.ct s.cache ⟨r.cur, r.to, r.buf, false, e.ops.full r.buf, []⟩ o T
  stat4 : r'.seqno = r.seqno ∧ r'.lo = r.lo ∧ r'.ct = r.ct ∧ r'.skip = r.skip ∧ r'.proc = r.proc
  fully : r'.fully = o.fully
  buf : r'.buf = o.rd.buf
  le : o.rd.cur ≤ r'.cur
  toEq : r'.cur = r'.to
  atCur : o.fully = false → r'.cur = o.rd.cur
  atEnd : o.fully = true → ∀ id n, s.last = some (id, n) → r'.cur = ⟨id, n⟩
  atNone : s.last = none → r'.cur = o.rd.cur

theorem readFacts {ours : Nat → Bool} {timeout : Nat} {h : H B} (hi : Inv ours timeout h) (e : Env B) (he : e.ours = ours)
    (ht : e.timeout = timeout) (l : List (Range B)) (r : Range B) (hr : h.st.ranges = l ++ [r]) (hf : r.fully = false) :
    ∃ T, ReadFacts e h.st r (settle h.st.last h.st.block (r.after (readRange e .toTheEnd h.st.procTo h.st.cache r)))
      (readRange e .toTheEnd h.st.procTo h.st.cache r) T := by
  generalize ho : readRange e .toTheEnd h.st.procTo h.st.cache r = o
  have hlast : h.st.ranges.getLast? = some r := by rw [hr]; simp
  have hmem : r ∈ h.st.ranges := by rw [hr]; simp
  have hpos : h.st.pos = r.cur := pos_append _ _ _ hr
  have hseq := hi.lastF r hlast hf
  have hto := hi.toEq r hmem
  obtain ⟨T, hT⟩ := readLoop_spec e .toTheEnd h.st.procTo r.cur r.to r.ct (fun par => hpos ▸ hi.proc par) (by simp) h.st.cache
    ⟨r.cur, r.to, r.buf, false, e.ops.full r.buf, []⟩ hi.cache_sorted (fun a ha => hpos ▸ hi.off a ha) hi.cache_ne rfl
    (Key.le_refl _) (Or.inl rfl)
  change LoopSpec e .toTheEnd r.cur r.to r.ct h.st.cache _ (readRange e .toTheEnd h.st.procTo h.st.cache r) T at hT
  rw [ho] at hT
  have hcurIn : o.rd.cur = ⟨0, 0⟩ ∨ ∃ a ∈ h.anchors, o.rd.cur.a = a.id ∧ o.rd.cur.o ≤ a.exts.length := by
    rcases hT.curIn with h1 | ⟨a, ha, h1⟩
    · simp only at h1; rw [h1, ← hpos]; exact hi.posIn
    · exact Or.inr ⟨a, (hi.cache_sub ha).1, h1⟩
  have hbase := (hT.toEq hto.symm).symm
  refine ⟨T, ?_⟩
  generalize hr' : settle h.st.last h.st.block (r.after o) = r'
  unfold settle at hr'
  by_cases hc : (r.after o).fully = true ∧ (r.after o).seqno = h.st.block
  · rw [if_pos hc] at hr'
    cases hl : h.st.last with
    | none =>
      rw [hl] at hr'
      simp only at hr'
      subst hr'
      exact ⟨hT, ⟨rfl, rfl, rfl, rfl, rfl⟩, rfl, rfl, Key.le_refl _, hbase, fun _ => rfl, fun _ id n h1 => (by rw [hl] at h1; cases h1), fun _ => rfl⟩
    | some p =>
      obtain ⟨id, n⟩ := p
      rw [hl] at hr'
      simp only at hr'
      have hl' := hl
      rw [hi.last] at hl'
      cases hg : h.anchors.getLast? with
      | none => rw [hg] at hl'; cases hl'
      | some z =>
        rw [hg] at hl'
        simp at hl'
        obtain ⟨rfl, rfl⟩ := hl'
        subst hr'
        refine ⟨hT, ⟨rfl, rfl, rfl, rfl, rfl⟩, rfl, rfl, ?_, rfl, ?_, ?_, fun h1 => by rw [hl] at h1; cases h1⟩
        · rcases hcurIn with h1 | ⟨a, ha, h1, h2⟩
          · rw [h1, Key.le_def]; simp only; omega
          · rw [Key.le_def, h1]; simp only
            rcases id_le_last hi.sorted hg ha with h3 | h3
            · rw [h3] at h2 ⊢; exact Or.inr ⟨rfl, h2⟩
            · exact Or.inl h3
        · intro h1
          have h2 : o.fully = true := hc.1
          rw [h1] at h2; cases h2
        · intro _ id n h1
          rw [hl] at h1
          cases h1; rfl
  · rw [if_neg hc] at hr'
    subst hr'
    have hnf : o.fully = false := by
      cases hx : o.fully with
      | false => rfl
      | true => exact absurd ⟨hx, hseq⟩ hc
    exact ⟨hT, ⟨rfl, rfl, rfl, rfl, rfl⟩, rfl, rfl, Key.le_refl _, hbase, fun _ => rfl, fun h1 => (by rw [hnf] at h1; cases h1), fun _ => rfl⟩

/-- An open range with full buffers: nothing is done. -/
theorem readLoop_full (e : Env B) (procTo : Nat → Key) (was p1 : Key) (ct : Nat) (a : Anchor) (rest : List Anchor) (s : Rd B)
    (hlt : was.a < a.id) (hne : a.exts ≠ []) (hexp : expiredAt e.timeout ct a.ct = false) (hf : s.filled = true) :
    (readLoop e .toTheEnd procTo was p1 ct (a :: rest) s).cache = a :: rest ∧
      (readLoop e .toTheEnd procTo was p1 ct (a :: rest) s).rd.cur = s.cur ∧
      (readLoop e .toTheEnd procTo was p1 ct (a :: rest) s).fully = false := by
  have hoff : (if a.id = was.a then was.o else 0) = 0 := if_neg (by omega)
  have hlen : ¬ a.exts.length = 0 := by simpa using hne
  rw [readLoop, if_neg (by omega)]
  simp only [hoff, hexp, Bool.false_eq_true, if_false]
  rw [import_filled _ _ _ _ _ _ _ _ (by simp [hf])]
  simp [hf, hlen]

theorem fut_read {ours : Nat → Bool} {timeout : Nat} {h : H B} (hi : Inv ours timeout h) (e : Env B) (he : e.ours = ours)
    (ht : e.timeout = timeout) (l : List (Range B)) (r : Range B) (hr : h.st.ranges = l ++ [r]) (hf : r.fully = false) (b rd : Bool)
    {o : Nat} {FR : List (Range B)} (hF : FutS timeout (h.st.readLast e l r b) rd o FR) : FutS timeout h.st true o FR := by
  obtain ⟨T, hT⟩ := readFacts hi e he ht l r hr hf
  generalize hr' : settle h.st.last h.st.block (r.after (readRange e .toTheEnd h.st.procTo h.st.cache r)) = r' at hT
  obtain ⟨l2, r2, L, x, ext, hE, hstr⟩ := hF
  have h1 := hE.hs
  simp only [St.readLast, hr'] at h1
  obtain ⟨rfl, h2⟩ := List.append_inj' h1 rfl
  have h3 : r' = r2 := by simpa using h2
  subst h3
  have hmem : r ∈ h.st.ranges := by rw [hr]; simp
  have hpos : h.st.pos = r.cur := pos_append _ _ _ hr
  have hrto := hi.toEq r hmem
  have hle : r.cur ≤ r'.cur := Key.le_trans hT.spec.le hT.le
  refine ⟨l, r, L, x, ext, ⟨hr, hE.hF, hE.pre, ?_, ?_, ?_, ?_, ?_, hE.tail, ?_, hE.tl⟩, hstr⟩
  · have := hE.same
    rw [hT.stat4.1, hT.stat4.2.1, hT.stat4.2.2.1, hT.stat4.2.2.2.1] at this
    exact this
  · refine Key.le_trans ?_ hE.to
    rw [← hrto, ← hT.toEq]; exact hle
  · have := hE.proc; rw [hT.stat4.2.2.2.2] at this; exact this
  · intro h4
    rcases h4 with h4 | h4
    · rw [hf] at h4; cases h4
    · cases h4
  · -- the first anchor
    by_cases hx : x.to = r.cur
    · exact Or.inl hx
    · right
      intro a ha
      by_cases hexp : expiredAt timeout r.ct a.ct = true
      · exact Or.inl hexp
      · by_cases hid : a.id = r.cur.a
        · exact Or.inr (Or.inl hid)
        · right; right
          have hexp' : expiredAt e.timeout r.ct a.ct = false := by rw [ht]; simpa using hexp
          cases hc : h.st.cache with
          | nil => rw [hc] at ha; cases ha
          | cons a2 rest =>
            rw [hc] at ha
            simp only [List.head?_cons, Option.some.injEq] at ha
            subst ha
            have hmemc : a2 ∈ h.st.cache := by rw [hc]; exact List.mem_cons_self
            have hah := hi.ahead a2 hmemc
            rw [hpos] at hah
            cases hfl : e.ops.full r.buf with
            | true =>
              obtain ⟨k1, k2, k3⟩ := readLoop_full e h.st.procTo r.cur r.to r.ct a2 rest ⟨r.cur, r.to, r.buf, false, e.ops.full r.buf, []⟩
                (by omega) (hi.cache_ne a2 hmemc) hexp' hfl
              rw [← hc] at k1 k2 k3
              change (readRange e .toTheEnd h.st.procTo h.st.cache r).cache = _ at k1
              change (readRange e .toTheEnd h.st.procTo h.st.cache r).rd.cur = r.cur at k2
              change (readRange e .toTheEnd h.st.procTo h.st.cache r).fully = _ at k3
              have k4 : r'.cur = r.cur := by rw [hT.atCur k3, k2]
              rcases hE.next with h5 | h5
              · exact absurd (h5.trans k4) hx
              · rcases h5 a2 (by simp only [St.readLast]; rw [k1, hc]; rfl) with h6 | h6 | h6
                · rw [hT.stat4.2.2.1] at h6; exact absurd h6 hexp
                · rw [k4] at h6; exact absurd h6 hid
                · exact h6
            | false =>
              obtain ⟨_, k2⟩ := readLoop_moves e h.st.procTo r.cur r.to r.ct a2 rest ⟨r.cur, r.to, r.buf, false, e.ops.full r.buf, []⟩
                (fun par => hpos ▸ hi.proc par) (hc ▸ hi.cache_sorted) (by rw [← hc]; exact fun c hcc => hpos ▸ hi.off c hcc)
                (by rw [← hc]; exact hi.cache_ne) rfl hfl hah
              have k3 := k2 hexp'
              rw [← hc] at k3
              change _ < (readRange e .toTheEnd h.st.procTo h.st.cache r).rd.cur at k3
              exact Key.lt_of_lt_of_le k3 (Key.le_trans hT.le (hT.toEq ▸ hE.to))
  · intro y hy
    refine ⟨(hE.head y hy).1, Or.inl (hstr y (List.mem_of_head? hy))⟩

end Tycho.ExtReader
