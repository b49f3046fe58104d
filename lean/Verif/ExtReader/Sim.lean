import Verif.ExtReader.Replay
/-! The refill follows the run. -/
namespace Tycho.ExtReader
variable {B : Type}

/-- The anchors that are imported later. -/
def futOf (all : List Anchor) (h : H B) : List Anchor := all.drop h.anchors.length

structure FutA (timeout : Nat) (all : List Anchor) (h : H B) : Prop where
  eq : all = h.anchors ++ futOf all h
  fresh : ∀ x ∈ futOf all h, expiredAt timeout h.st.ct x.ct = false
  sorted : Sorted all

/-- An empty range that the refill may have dropped. -/
inductive Pre (o : Ops B) : List (Range B) → List (Range B) → Prop
  | none : Pre o [] []
  | one (r x : Range B) : r.buf = o.empty → x.to = r.cur → Pre o [r] [x]

/-- Ranges of the run, at its end and in the refill. -/
def Aligned (o : Ops B) (key : Key) (rs FR ps : List (Range B)) : Prop :=
  ∃ pre rs' preF Xs ext Ps, rs = pre ++ rs' ∧ FR = preF ++ (Xs ++ ext) ∧ ps = Ps ++ ext.map (restoreRange o key) ∧ A3 rs' Xs Ps ∧
    ps ≠ [] ∧ Pre o pre preF

structure Sim (c : Cfg B) (all : List Anchor) (FR : List (Range B)) (h : H B) (P : St B) : Prop where
  al : Aligned c.ops (P.procTo 0) h.st.ranges FR P.ranges
  off : P.off = h.st.off
  procTo : P.procTo = h.st.procTo
  cache : ∃ J, P.cache = J ++ (h.st.cache ++ (futOf all h).filter (hasOurs c.ours)) ∧
    ∀ a ∈ J, ∃ r, h.st.ranges.getLast? = some r ∧ (a.id < r.cur.a ∨ (a.id = r.cur.a ∧ expiredAt c.timeout r.ct a.ct = true))
  block : ∀ x ∈ FR, x.seqno < P.block
  allF : P.allFully = true → ∀ q ∈ P.ranges, q.fully = true

theorem restore_stat (o : Ops B) (key : Key) (x : Range B) : stat (restoreRange o key x) = stat x := rfl

theorem Aligned.stat {o : Ops B} {key : Key} {rs FR ps : List (Range B)} (h : Aligned o key rs FR ps) :
    ∃ preF R, FR = preF ++ R ∧ ps.map stat = R.map stat ∧ R ≠ [] := by
  obtain ⟨pre, rs', preF, Xs, ext, Ps, h1, h2, h3, h4, h5, _⟩ := h
  have hst : ps.map Tycho.ExtReader.stat = (Xs ++ ext).map Tycho.ExtReader.stat := by
    rw [h3, List.map_append, List.map_append, h4.stat, List.map_map]
    congr 1
  refine ⟨preF, Xs ++ ext, h2, hst, ?_⟩
  intro hn
  rw [hn] at hst
  exact h5 (by simpa using hst)

theorem offsetReached_iff {o : Ops B} {key : Key} {rs FR : List (Range B)} {P : St B} (h : Aligned o key rs FR P.ranges) (z : Range B)
    (hz : FR.getLast? = some z) : offsetReached P = decide (z.proc ≤ P.off) := by
  obtain ⟨preF, R, h1, h2, h3⟩ := h.stat
  have h4 : R.getLast? = some z := by
    rw [h1, List.getLast?_append] at hz
    cases hR : R.getLast? with
    | none => exact absurd (List.getLast?_eq_none_iff.1 hR) h3
    | some q => rw [hR] at hz; simpa using hz
  have h5 : (P.ranges.map Tycho.ExtReader.stat).getLast? = some (Tycho.ExtReader.stat z) := by
    rw [h2, List.getLast?_map, h4]; rfl
  rw [List.getLast?_map] at h5
  unfold offsetReached
  cases hp : P.ranges.getLast? with
  | none => rw [hp] at h5; cases h5
  | some p =>
    rw [hp] at h5
    have h6 : Tycho.ExtReader.stat p = Tycho.ExtReader.stat z := by simpa using h5
    simp only [Tycho.ExtReader.stat, Prod.mk.injEq] at h6
    simp only [h6.2.2.2.2.2]

theorem mem_stat_fully {l Lx Lp : List (Range B)} (h : A3 l Lx Lp) (hp : Lx.map stat = l.map stat) (ht : ∀ q ∈ l, q.cur = q.to) :
    ∀ q ∈ Lp, q.fully = true := by
  induction h with
  | nil => intro q hq; cases hq
  | @cons r x p rs xs ps hm h ih =>
    simp only [List.map_cons, List.cons.injEq] at hp
    intro q hq
    rcases List.mem_cons.1 hq with h1 | h1
    · rw [h1, hm.fully]
      have : x.to = r.to := by
        have := hp.1
        simp only [stat, Prod.mk.injEq] at this
        exact this.2.2.1
      rw [this, ht r List.mem_cons_self]
      simp
    · exact ih hp.2 (fun x hx => ht x (List.mem_cons_of_mem _ hx)) q h1

theorem Pre.length {o : Ops B} {a b : List (Range B)} (h : Pre o a b) : a.length = b.length := by
  cases h <;> rfl

/-- How the last range of the run lies in the alignment. -/
theorem Aligned.last {o : Ops B} {key : Key} {l : List (Range B)} {r : Range B} {FR ps L : List (Range B)} {x : Range B} {ext : List (Range B)}
    (h : Aligned o key (l ++ [r]) FR ps) (hF : FR = L ++ x :: ext) (hL : L.length = l.length) :
    (l = [] ∧ L = [] ∧ r.buf = o.empty ∧ x.to = r.cur ∧ ps = ext.map (restoreRange o key) ∧ ps ≠ []) ∨
      ∃ pre l' preF Lx Lp p, l = pre ++ l' ∧ L = preF ++ Lx ∧ ps = Lp ++ p :: ext.map (restoreRange o key) ∧ A3 l' Lx Lp ∧ M r x p ∧
        Pre o pre preF := by
  obtain ⟨pre, rs', preF, Xs, ext2, Ps, h1, h2, h3, h4, h5, h6⟩ := h
  rcases List.eq_nil_or_concat rs' with h7 | ⟨l', r2, h7⟩
  · left
    subst h7
    cases h4
    cases h6 with
    | none => simp at h1
    | one r0 x0 k1 k2 =>
      rw [List.append_nil] at h1
      have hl : l = [] := by
        have := congrArg List.length h1
        rw [List.length_append] at this
        apply List.eq_nil_of_length_eq_zero
        simp only [List.length_cons, List.length_nil] at this; omega
      subst hl
      have hr : r = r0 := by simpa using h1
      subst hr
      have hL' : L = [] := List.eq_nil_of_length_eq_zero hL
      subst hL'
      rw [hF] at h2
      simp only [List.nil_append, List.cons_append, List.cons.injEq] at h2
      obtain ⟨rfl, rfl⟩ := h2
      exact ⟨rfl, rfl, k1, k2, h3, h5⟩
  · right
    rw [List.concat_eq_append] at h7
    subst h7
    rw [← List.append_assoc] at h1
    obtain ⟨h8, h9⟩ := List.append_inj' h1 rfl
    have hr : r = r2 := by simpa using h9
    subst hr
    obtain ⟨Lx, x', Lp, p, k1, k2, k3, k4⟩ := h4.split
    subst k1; subst k2
    rw [hF] at h2
    have h2' : L ++ x :: ext = (preF ++ Lx) ++ x' :: ext2 := by rw [h2]; simp
    have hlen : L.length = (preF ++ Lx).length := by
      rw [hL, h8, List.length_append, List.length_append, h6.length, k3.length.1]
    obtain ⟨h10, h11⟩ := List.append_inj h2' hlen
    simp only [List.cons.injEq] at h11
    obtain ⟨rfl, rfl⟩ := h11
    exact ⟨pre, l', preF, Lx, Lp, p, h8, h10, by rw [h3]; simp, k3, k4, h6⟩

theorem restore_cur (o : Ops B) (key : Key) (x : Range B) (h1 : key ≤ x.lo) (h2 : x.lo ≤ x.to) : (restoreRange o key x).cur = x.lo := by
  unfold restoreRange
  simp only
  split
  · rfl
  · rename_i h3
    have : key = x.lo := by
      rw [Key.le_def] at h1
      rw [Key.lt_def] at h3
      obtain ⟨a, b⟩ := key
      generalize x.lo = q at h1 h3 ⊢
      obtain ⟨c, d⟩ := q
      simp only at h1 h3
      rw [Key.mk.injEq]; omega
    subst this
    split
    · rfl
    · rename_i h4
      apply Key.le_antisymm' _ h2
      rw [Key.le_def] at h2 ⊢
      rw [Key.lt_def] at h4
      omega

/-- A new range of the run is the next one of the refill. -/
theorem sim_append {c : Cfg B} {all : List Anchor} {FR : List (Range B)} {h : H B} {P : St B} (hi : Inv c.ours c.timeout h)
    (hs : Sim c all FR h P) (hne : h.st.ranges ≠ []) {rd : Bool} {o : Nat}
    (hF : Fut c.timeout { h.st with ranges := h.st.ranges ++ [nextRange c.ops h.st] } rd o FR) (hend : h.st.pos = endOf h.st.ranges) :
    Sim c all FR ⟨{ h.st with ranges := h.st.ranges ++ [nextRange c.ops h.st] }, h.anchors, h.log⟩ P := by
  obtain ⟨l1, r1, L1, x1, ext1, hE⟩ := hF
  obtain ⟨hl1, hr1⟩ := List.append_inj' hE.hs rfl
  have hr1' : nextRange c.ops h.st = r1 := by simpa using hr1
  subst hr1'
  subst hl1
  obtain ⟨e1, e2, e3, e4⟩ := hE.same
  have hlen : L1.length = h.st.ranges.length := by
    have := congrArg List.length hE.pre
    simpa using this
  refine ⟨?_, hs.off, hs.procTo, ?_, hs.block, hs.allF⟩
  · obtain ⟨pre, rs', preF, Xs, ext, Ps, h1, h2, h3, h4, h5, h6⟩ := hs.al
    have hlen2 : L1.length = (preF ++ Xs).length := by
      rw [hlen, h1, List.length_append, List.length_append, h6.length, h4.length.1]
    have h2' : L1 ++ x1 :: ext1 = (preF ++ Xs) ++ ext := by rw [← hE.hF, h2]; simp
    obtain ⟨h7, h8⟩ := List.append_inj h2' hlen2
    subst h8
    refine ⟨pre, rs' ++ [nextRange c.ops h.st], preF, Xs ++ [x1], ext1, Ps ++ [restoreRange c.ops (P.procTo 0) x1], ?_, ?_, ?_, ?_, h5, h6⟩
    · simp only [h1, List.append_assoc]
    · rw [h2]; simp
    · rw [h3]; simp
    · refine h4.append (A3.cons ?_ A3.nil)
      have hto : x1.lo ≤ x1.to := by
        have : (nextRange c.ops h.st).to = x1.lo := e2.symm ▸ rfl
        rw [← this]; exact hE.to
      have hkey : P.procTo 0 ≤ x1.lo := by
        rw [hs.procTo, e2]
        have := hi.proc 0
        rw [hend] at this; exact this
      have hcur := restore_cur c.ops (P.procTo 0) x1 hkey hto
      refine ⟨rfl, e1, e3, e4, rfl, ?_, ?_⟩
      · have : (nextRange c.ops h.st).cur = x1.lo := e2.symm ▸ rfl
        rw [this]
        change decide ((restoreRange c.ops (P.procTo 0) x1).cur = x1.to) = _
        rw [hcur]
      · intro _; rw [hcur, e2]; rfl
  · obtain ⟨J, h1, h2⟩ := hs.cache
    refine ⟨J, h1, fun a ha => ⟨nextRange c.ops h.st, by simp, ?_⟩⟩
    obtain ⟨r, r1, r2⟩ := h2 a ha
    have hpos : h.st.pos = r.cur := by simp [St.pos, r1]
    have hc : (nextRange c.ops h.st).cur = r.cur := by rw [← hpos, hend]; rfl
    rw [hc]
    refine r2.imp id (fun h3 => ⟨h3.1, expired_mono h3.2 (hi.ctLe r (List.mem_of_getLast? r1))⟩)

/-- A read that does not move the position. -/
theorem read_still {e : Env B} {s : St B} {r r' : Range B} {o : Out B} {T : List Item} (hT : ReadFacts e s r r' o T) (hle : r'.cur ≤ r.cur)
    (hah : ∀ a ∈ s.cache, r.cur.a ≤ a.id) (hoff : ∀ a ∈ s.cache, a.id = r.cur.a → r.cur.o < a.exts.length) :
    r'.cur = r.cur ∧ r'.buf = r.buf ∧
      ∃ Q, s.cache = Q ++ o.cache ∧ ∀ a ∈ Q, a.id = r.cur.a ∧ expiredAt e.timeout r.ct a.ct = true := by
  have h1 : o.rd.cur = r.cur := Key.le_antisymm' (Key.le_trans hT.le hle) hT.spec.le
  have h2 : r'.cur = r.cur := Key.le_antisymm' hle (h1 ▸ hT.le)
  have hT0 : T = [] := by
    apply List.eq_nil_iff_forall_not_mem.2
    intro i hi
    have h3 : i ∈ todo e.ours e.timeout r.ct r.cur s.cache := by rw [hT.spec.split]; exact List.mem_append_left _ hi
    have h4 := (List.mem_filter.1 h3).2
    simp only [Bool.and_eq_true, decide_eq_true_eq] at h4
    have h5 := hT.spec.below i hi
    rw [h1] at h5
    exact Key.lt_irrefl' _ (Key.lt_of_lt_of_le h4.1.2 h5)
  refine ⟨h2, ?_, ?_⟩
  · rw [hT.buf, hT.spec.buf, hT0]; rfl
  · obtain ⟨Q, q1, q2⟩ := hT.spec.popped
    refine ⟨Q, q1, fun a ha => ?_⟩
    have ham : a ∈ s.cache := by rw [q1]; exact List.mem_append_left _ ha
    have := q2 a ha
    rw [h1] at this
    have k1 := hah a ham
    rcases this with h3 | ⟨h3, h4 | h4⟩
    · omega
    · have := hoff a ham h3; omega
    · exact ⟨h3, h4⟩

theorem readRange_env (c : Cfg B) (l1 l2 : Nat) (n1 n2 : Bool) (mode : RMode) (procTo : Nat → Key) (cache : List Anchor) (r : Range B) :
    readRange (c.env l1 n1) mode procTo cache r = readRange (c.env l2 n2) mode procTo cache r := by
  have hi : ∀ (prevTo : Key) (aid act : Nat) (ms : List Ext) (off : Nat) (s : Rd B),
      importMsgs (c.env l1 n1) mode procTo prevTo aid act ms off s = importMsgs (c.env l2 n2) mode procTo prevTo aid act ms off s := by
    intro prevTo aid act ms
    induction ms with
    | nil => intro off s; rfl
    | cons m ms ih =>
      intro off s
      rw [importMsgs, importMsgs, ih, ih]
      rfl
  have hl : ∀ (was prevTo : Key) (ct : Nat) (C : List Anchor) (s : Rd B),
      readLoop (c.env l1 n1) mode procTo was prevTo ct C s = readLoop (c.env l2 n2) mode procTo was prevTo ct C s := by
    intro was prevTo ct C
    induction C with
    | nil => intro s; rfl
    | cons a C ih =>
      intro s
      rw [readLoop, readLoop]
      simp only [ih, hi]
      rfl
  unfold readRange
  rw [hl]
  rfl

end Tycho.ExtReader
