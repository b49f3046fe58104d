import Verif.Slasher.Model
import Mathlib.Data.List.Induction
/-!
C156: the batches of the collector tell what was observed, each block once, and all of it.
-/
namespace Tycho.Slasher

/-- The batch tells of this block. -/
def Batch.has (b : Batch) (q : Nat) : Prop := ∃ i, q = b.start + i ∧ b.committed[i]? = some true

/-- The batch tells for the block just this: the validators in order, each with its two bits. -/
def Batch.tells (b : Batch) (q : Nat) (sigs : List Sig) : Prop :=
  b.has q ∧ sigs.length = b.hist.length ∧ ∀ (k : Nat) (h : Nat × List Bool) (s : Sig), b.hist[k]? = some h → sigs[k]? = some s →
    h.2[(q - b.start) * 2]? = some s.invalid ∧ h.2[(q - b.start) * 2 + 1]? = some s.valid

/-- The batch tells only of validated blocks, and of them what was observed; for other blocks no bit is set. -/
structure Faithful (ids : List Nat) (evs : List Ev) (b : Batch) : Prop where
  ids : b.hist.map (·.1) = ids
  len : ∀ h ∈ b.hist, h.2.length = b.committed.length * 2
  tru : ∀ q, b.has q → ∃ sigs, Ev.validated q sigs ∈ evs ∧ b.tells q sigs
  fls : ∀ i, b.committed[i]? = some false → ∀ h ∈ b.hist, h.2[i * 2]? = some false ∧ h.2[i * 2 + 1]? = some false

theorem faithful_new (ids : List Nat) (evs : List Ev) (start len : Nat) : Faithful ids evs (.new start len ids) := by
  refine ⟨?_, ?_, ?_, ?_⟩
  · simp [Batch.new, Function.comp_def]
  · intro h hh
    simp only [Batch.new, List.mem_map] at hh
    obtain ⟨v, _, rfl⟩ := hh
    simp [Batch.new]
  · rintro q ⟨i, _, hi⟩
    simp [Batch.new, List.getElem?_replicate] at hi
  · intro i hi h hh
    simp only [Batch.new, List.getElem?_replicate] at hi
    have hlt : i < len := by
      by_cases h : i < len
      · exact h
      · simp [h] at hi
    simp only [Batch.new, List.mem_map] at hh
    obtain ⟨v, _, rfl⟩ := hh
    simp only [List.getElem?_replicate]
    rw [if_pos (by omega), if_pos (by omega)]
    exact ⟨rfl, rfl⟩

theorem not_has_new (ids : List Nat) (start len q : Nat) : ¬ (Batch.new start len ids).has q := by
  rintro ⟨i, _, hi⟩
  simp [Batch.new, List.getElem?_replicate] at hi

theorem setSigs_get (off : Nat) : ∀ (h : List (Nat × List Bool)) (l : List Sig), l.length = h.length → ∀ (k : Nat) (x : Nat × List Bool),
    (setSigs off h l)[k]? = some x → ∃ y s, h[k]? = some y ∧ l[k]? = some s ∧
      x = (y.1, (y.2.set (off * 2) s.invalid).set (off * 2 + 1) s.valid) := by
  intro h
  induction h with
  | nil => intro l _ k x hx; cases l <;> simp [setSigs] at hx
  | cons y h ih =>
    intro l hl k x hx
    cases l with
    | nil => simp at hl
    | cons s l =>
      obtain ⟨v, bits⟩ := y
      simp only [setSigs] at hx
      cases k with
      | zero => simp at hx; exact ⟨(v, bits), s, rfl, rfl, hx.symm⟩
      | succ k =>
        simp only [List.getElem?_cons_succ] at hx
        obtain ⟨y, s', h1, h2, h3⟩ := ih l (by simpa using hl) k x hx
        exact ⟨y, s', by simpa using h1, by simpa using h2, h3⟩

theorem setSigs_ids (off : Nat) : ∀ (h : List (Nat × List Bool)) (l : List Sig), (setSigs off h l).map (·.1) = h.map (·.1) := by
  intro h
  induction h with
  | nil => intro l; cases l <;> rfl
  | cons y h ih =>
    intro l
    cases l with
    | nil => rfl
    | cons s l => obtain ⟨v, bits⟩ := y; simp [setSigs, ih l]

theorem setSigs_length (off : Nat) (h : List (Nat × List Bool)) (l : List Sig) : (setSigs off h l).length = h.length := by
  have := congrArg List.length (setSigs_ids off h l)
  simpa using this

theorem contains_iff (b : Batch) (q : Nat) : b.contains q = true ↔ b.start ≤ q ∧ q < b.start + b.committed.length := by
  simp [Batch.contains]

/-- What `commit` does when it does anything. -/
theorem commit_tells (b : Batch) (q : Nat) (sigs : List Sig) (hc : b.contains q = true) (hl : sigs.length = b.hist.length)
    (hlen : ∀ h ∈ b.hist, h.2.length = b.committed.length * 2) :
    (b.commit q sigs).tells q sigs ∧ (b.commit q sigs).start = b.start ∧ (b.commit q sigs).committed.length = b.committed.length ∧
      (b.commit q sigs).hist.map (·.1) = b.hist.map (·.1) ∧ (∀ h ∈ (b.commit q sigs).hist, h.2.length = b.committed.length * 2) ∧
      (∀ q', (b.commit q sigs).has q' ↔ q' = q ∨ b.has q') ∧
      (∀ q' sigs', q' ≠ q → b.tells q' sigs' → (b.commit q sigs).tells q' sigs') ∧
      (∀ i, q ≠ b.start + i → (b.commit q sigs).committed[i]? = b.committed[i]? ∧
        ∀ h ∈ (b.commit q sigs).hist, ∃ h' ∈ b.hist, h.2[i * 2]? = h'.2[i * 2]? ∧ h.2[i * 2 + 1]? = h'.2[i * 2 + 1]?) := by
  have hc2 := (contains_iff b q).1 hc
  have e : b.commit q sigs = ⟨b.start, b.committed.set (q - b.start) true, setSigs (q - b.start) b.hist sigs⟩ := by
    unfold Batch.commit
    rw [if_neg (by simp [hc, hl])]
  rw [e]
  have hget := setSigs_get (q - b.start) b.hist sigs hl
  have hhas : ∀ q', (Batch.mk b.start (b.committed.set (q - b.start) true) (setSigs (q - b.start) b.hist sigs)).has q' ↔ q' = q ∨ b.has q' := by
    intro q'
    constructor
    · rintro ⟨i, rfl, hi⟩
      simp only [List.getElem?_set] at hi
      by_cases h : q - b.start = i
      · left; simp only; omega
      · rw [if_neg h] at hi; exact Or.inr ⟨i, rfl, hi⟩
    · rintro (rfl | ⟨i, rfl, hi⟩)
      · refine ⟨q' - b.start, by simp only; omega, ?_⟩
        simp only [List.getElem?_set, if_true]
        rw [if_pos (by omega)]
      · refine ⟨i, rfl, ?_⟩
        simp only [List.getElem?_set]
        split
        · rename_i h
          rw [if_pos (by omega)]
        · exact hi
  refine ⟨⟨(hhas q).2 (Or.inl rfl), by rw [setSigs_length]; exact hl, ?_⟩, rfl, by simp, setSigs_ids _ _ _, ?_, hhas, ?_, ?_⟩
  · intro k h s hk hs
    obtain ⟨y, s', h1, h2, rfl⟩ := hget k h hk
    rw [hs] at h2
    simp only [Option.some.injEq] at h2; subst h2
    have hy := hlen y (List.mem_of_getElem? h1)
    simp only [List.getElem?_set, List.length_set]
    constructor
    · rw [if_neg (by omega), if_pos trivial, if_pos (by omega)]
    · rw [if_pos trivial, if_pos (by omega)]
  · intro h hh
    obtain ⟨k, hk⟩ := List.mem_iff_getElem?.1 hh
    obtain ⟨y, s', h1, _, rfl⟩ := hget k h hk
    simp only [List.length_set]
    exact hlen y (List.mem_of_getElem? h1)
  · intro q' sigs' hne ht
    refine ⟨(hhas q').2 (Or.inr ht.1), by rw [setSigs_length]; exact ht.2.1, ?_⟩
    obtain ⟨i, hi, _⟩ := ht.1
    intro k h s hk hs
    obtain ⟨y, s', h1, _, rfl⟩ := hget k h hk
    have := ht.2.2 k y s h1 hs
    simp only [List.getElem?_set]
    rw [if_neg (by omega), if_neg (by omega), if_neg (by omega), if_neg (by omega)]
    exact this
  · intro i hi
    refine ⟨?_, ?_⟩
    · simp only [List.getElem?_set]
      rw [if_neg (by omega)]
    · intro h hh
      obtain ⟨k, hk⟩ := List.mem_iff_getElem?.1 hh
      obtain ⟨y, s', h1, _, rfl⟩ := hget k h hk
      refine ⟨y, List.mem_of_getElem? h1, ?_⟩
      simp only [List.getElem?_set]
      rw [if_neg (by omega), if_neg (by omega), if_neg (by omega), if_neg (by omega)]
      exact ⟨rfl, rfl⟩

theorem faithful_more {ids : List Nat} {evs evs' : List Ev} {b : Batch} (w : Faithful ids evs b) (h : ∀ e ∈ evs, e ∈ evs') : Faithful ids evs' b := by
  refine ⟨w.ids, w.len, ?_, w.fls⟩
  intro q hq
  obtain ⟨s, h1, h2⟩ := w.tru q hq
  exact ⟨s, h _ h1, h2⟩

/-- A block that is committed, or not. -/
theorem faithful_commit {ids : List Nat} {evs : List Ev} {b : Batch} (w : Faithful ids evs b) (q : Nat) (sigs : List Sig) :
    Faithful ids (evs ++ [.validated q sigs]) (b.commit q sigs) := by
  have w2 := faithful_more (evs' := evs ++ [.validated q sigs]) w (by intro e he; simp [he])
  by_cases hc : b.contains q = true ∧ sigs.length = b.hist.length
  · obtain ⟨h1, h2, h3, h4, h5, h6, h7, h8⟩ := commit_tells b q sigs hc.1 hc.2 w.len
    refine ⟨by rw [h4]; exact w.ids, by rw [h3]; exact h5, ?_, ?_⟩
    · intro q' hq'
      by_cases hq : q' = q
      · subst hq; exact ⟨sigs, by simp, h1⟩
      · rcases (h6 q').1 hq' with h | h
        · exact absurd h hq
        · obtain ⟨s, e1, e2⟩ := w2.tru q' h
          exact ⟨s, e1, h7 q' s hq e2⟩
    · intro i hi h hh
      by_cases hq : q = b.start + i
      · have : (b.commit q sigs).has q := (h6 q).2 (Or.inl rfl)
        obtain ⟨j, hj, hj2⟩ := this
        rw [h2] at hj
        have : i = j := by omega
        subst this
        rw [hi] at hj2; cases hj2
      · obtain ⟨e1, e2⟩ := h8 i hq
        rw [e1] at hi
        obtain ⟨h', hh', a1, a2⟩ := e2 h hh
        rw [a1, a2]
        exact w.fls i hi h' hh'
  · have : b.commit q sigs = b := by
      unfold Batch.commit
      rw [if_pos]
      by_cases h : b.contains q = true
      · exact Or.inr (fun e => hc ⟨h, e⟩)
      · exact Or.inl (by simpa using h)
    rw [this]; exact w2

theorem commit_has (b : Batch) (q q' : Nat) (sigs : List Sig) (h : (b.commit q sigs).has q') : q' = q ∨ b.has q' := by
  unfold Batch.commit at h
  split at h
  · exact Or.inr h
  · obtain ⟨i, hi, h2⟩ := h
    simp only [List.getElem?_set] at h2 hi
    rename_i hc
    rw [not_or] at hc
    have hc2 := (contains_iff b q).1 (by simpa using hc.1)
    by_cases he : q - b.start = i
    · left; omega
    · rw [if_neg he] at h2; exact Or.inr ⟨i, hi, h2⟩

theorem commit_start (b : Batch) (q : Nat) (sigs : List Sig) : (b.commit q sigs).start = b.start ∧ (b.commit q sigs).committed.length = b.committed.length := by
  unfold Batch.commit
  split <;> simp

/-- Everything about a session. -/
structure SInv (ids : List Nat) (evs : List Ev) (s : Session) : Prop where
  size : 0 < s.size
  idsEq : s.ids = ids
  good : s.bad = false
  first : s.first ≤ s.next
  startLe : s.cur.start ≤ s.next
  curLen : s.cur.committed.length = s.size
  cur : Faithful ids evs s.cur
  sent : ∀ b ∈ s.sent, Faithful ids evs b
  full : ∀ b ∈ s.sent, b.empty = false
  old : ∀ b ∈ s.sent, ∀ q, b.has q → q + 1 < s.next
  new : ∀ q, s.cur.has q → s.next ≤ q + 1
  order : s.sent.Pairwise (fun a b => ∀ q q', a.has q → b.has q' → q < q')

theorem SInv.more {ids : List Nat} {evs : List Ev} {s : Session} (w : SInv ids evs s) (e : Ev) : SInv ids (evs ++ [e]) s :=
  ⟨w.size, w.idsEq, w.good, w.first, w.startLe, w.curLen, faithful_more w.cur (by intro e he; simp [he]),
    fun b hb => faithful_more (w.sent b hb) (by intro e he; simp [he]), w.full, w.old, w.new, w.order⟩

theorem align_le (s : Session) (q : Nat) : s.align q ≤ q := Nat.sub_le _ _

theorem align_lt (s : Session) (q : Nat) (h : 0 < s.size) : q < s.align q + s.size := by
  unfold Session.align
  have := Nat.mod_lt (q - s.first) h
  omega

theorem sinv_block {ids : List Nat} {evs : List Ev} {s : Session} (w : SInv ids evs s) (q : Nat) (sg : Option (List Sig)) :
    SInv ids (evs ++ [match sg with | some l => .validated q l | none => .skipped q]) (s.block q sg) := by
  unfold Session.block
  by_cases hq : q < s.next
  · rw [if_pos hq]; exact w.more _
  · rw [if_neg hq]
    have hq : s.next ≤ q := by omega
    by_cases hc : s.cur.contains q = true
    · rw [if_pos hc]
      cases sg with
      | none => exact w.more _
      | some l =>
        have w2 := w.more (.validated q l)
        refine ⟨w.size, w.idsEq, w.good, w.first, ?_, ?_, faithful_commit w.cur q l, w2.sent, w.full, w.old, ?_, w.order⟩
        · simp only [(commit_start s.cur q l).1]; exact w.startLe
        · simp only [(commit_start s.cur q l).2]; exact w.curLen
        · intro q' h
          rcases commit_has _ _ _ _ h with rfl | h
          · simp only; omega
          · exact w.new q' h
    · rw [if_neg hc]
      have hcs : s.cur.start + s.cur.committed.length ≤ q := by
        have := w.startLe
        have : ¬ (s.cur.start ≤ q ∧ q < s.cur.start + s.cur.committed.length) := fun h => hc ((contains_iff _ _).2 h)
        omega
      have hfirst := w.first
      rw [if_neg (by omega)]
      have hcurq : ∀ q', s.cur.has q' → q' < q := by
        rintro q' ⟨i, rfl, hi⟩
        have : i < s.cur.committed.length := by
          rw [List.getElem?_eq_some_iff] at hi; exact hi.1
        omega
      have base : ∀ c : Batch, c.start = s.align q → c.committed.length = s.size → (∀ q', c.has q' → q' = q) →
          ∀ e, Faithful ids (evs ++ [e]) c →
          SInv ids (evs ++ [e]) (Session.send { s with cur := c, next := q + 1 } s.cur) := by
        intro c hc1 hc2 hc3 e hc4
        have hsent : ∀ s1 : Session, s1 = { s with cur := c, next := q + 1 } → s1.send s.cur = s1 ∨
            (s.cur.empty = false ∧ s1.send s.cur = { s1 with sent := s.sent ++ [s.cur] }) := by
          intro s1 h1
          unfold Session.send
          split
          · exact Or.inl rfl
          · rename_i hne
            rw [not_or] at hne
            exact Or.inr ⟨by simpa using hne.1, by rw [h1]⟩
        have w2 := w.more e
        have hal := align_le s q
        rcases hsent _ rfl with h | ⟨he, h⟩
        · rw [h]
          refine ⟨w.size, w.idsEq, w.good, by simp only; omega, by simp only; omega, hc2, hc4, w2.sent, w.full, ?_, ?_, w.order⟩
          · intro b hb q' hq'
            have := w.old b hb q' hq'
            simp only; omega
          · intro q' hq'; rw [hc3 q' hq']; exact Nat.le_refl _
        · rw [h]
          refine ⟨w.size, w.idsEq, w.good, by simp only; omega, by simp only; omega, hc2, hc4, ?_, ?_, ?_, ?_, ?_⟩
          · intro b hb
            rcases List.mem_append.1 hb with hb | hb
            · exact w2.sent b hb
            · rw [List.mem_singleton] at hb; subst hb; exact w2.cur
          · intro b hb
            rcases List.mem_append.1 hb with hb | hb
            · exact w.full b hb
            · rw [List.mem_singleton] at hb; subst hb; exact he
          · intro b hb q' hq'
            rcases List.mem_append.1 hb with hb | hb
            · have := w.old b hb q' hq'
              simp only; omega
            · rw [List.mem_singleton] at hb; subst hb
              have := hcurq q' hq'
              simp only; omega
          · intro q' hq'; rw [hc3 q' hq']; exact Nat.le_refl _
          · refine List.pairwise_append.2 ⟨w.order, by simp, ?_⟩
            intro a ha b hb q1 q2 h1 h2
            rw [List.mem_singleton] at hb; subst hb
            have := w.old a ha q1 h1
            have := w.new q2 h2
            omega
      cases sg with
      | none =>
        exact base (.new (s.align q) s.size s.ids) rfl (by simp [Batch.new]) (fun q' h => absurd h (not_has_new _ _ _ _)) _
          (by rw [w.idsEq]; exact faithful_new _ _ _ _)
      | some l =>
        refine base ((Batch.new (s.align q) s.size s.ids).commit q l) ?_ ?_ ?_ _ ?_
        · rw [(commit_start _ _ _).1]; rfl
        · rw [(commit_start _ _ _).2]; simp [Batch.new]
        · intro q' h
          rcases commit_has _ _ _ _ h with h | h
          · exact h
          · exact absurd h (not_has_new _ _ _ _)
        · rw [w.idsEq]; exact faithful_commit (faithful_new _ _ _ _) _ _

theorem sinv_resize {ids : List Nat} {evs : List Ev} {s : Session} (w : SInv ids evs s) (k : Nat) (hk : k ≠ 0) : SInv ids evs (s.resize k) := by
  unfold Session.resize
  split
  · exact w
  · have hf := w.first
    rw [if_neg (by simp only; omega)]
    have := align_le { s with size := k } s.next
    exact ⟨by simp only; omega, w.idsEq, w.good, w.first, this, by simp [Batch.new], by rw [w.idsEq]; exact faithful_new _ _ _ _, w.sent, w.full, w.old,
      fun q h => absurd h (not_has_new _ _ _ _), w.order⟩

theorem sinv_step {ids : List Nat} {evs : List Ev} {s : Session} (w : SInv ids evs s) (e : Ev) : SInv ids (evs ++ [e]) (s.step e) := by
  cases e with
  | validated n l => exact sinv_block w n (some l)
  | skipped n => exact sinv_block w n none
  | resize k =>
    simp only [Session.step]
    split
    · exact w.more _
    · rename_i hk; exact (sinv_resize w k hk).more _
  | init k =>
    simp only [Session.step]
    split
    · exact w.more _
    · rename_i hk
      have := (sinv_resize w k hk).more (.init k)
      exact ⟨this.size, this.idsEq, this.good, this.first, this.startLe, this.curLen, this.cur, this.sent, this.full, this.old, this.new, this.order⟩

theorem sinv_collect (size first : Nat) (ids : List Nat) (evs : List Ev) (h : 0 < size) : SInv ids evs (collect size first ids evs) := by
  have h0 : SInv ids [] (.start size first ids) :=
    ⟨h, rfl, rfl, Nat.le_refl _, Nat.le_refl _, by simp [Session.start, Batch.new], faithful_new _ _ _ _, by simp [Session.start], by simp [Session.start],
      by simp [Session.start], fun q hq => absurd hq (not_has_new _ _ _ _), by simp [Session.start]⟩
  unfold collect
  have : ∀ (evs done : List Ev) (s : Session), SInv ids done s → SInv ids (done ++ evs) (evs.foldl Session.step s) := by
    intro evs
    induction evs with
    | nil => intro done s w; simpa using w
    | cons e evs ih =>
      intro done s w
      have := ih (done ++ [e]) (s.step e) (sinv_step w e)
      simpa using this
  simpa using this evs [] _ h0

/-- C156: every batch that is sent tells of validated blocks only, for each of them exactly the bits that were reported with it, for the
validators of the session in their order; no batch is sent empty; nothing panics. -/
theorem sent_is_observed (size first : Nat) (ids : List Nat) (evs : List Ev) (h : 0 < size) :
    (∀ b ∈ (collect size first ids evs).finish, Faithful ids evs b ∧ b.empty = false) ∧ (collect size first ids evs).bad = false := by
  have w := sinv_collect size first ids evs h
  refine ⟨?_, w.good⟩
  intro b hb
  unfold Session.finish Session.send at hb
  split at hb
  · exact ⟨w.sent b hb, w.full b hb⟩
  · rename_i hne
    rw [not_or] at hne
    rcases List.mem_append.1 hb with hb | hb
    · exact ⟨w.sent b hb, w.full b hb⟩
    · rw [List.mem_singleton] at hb; subst hb
      exact ⟨w.cur, by simpa using hne.1⟩

/-- C156: each block is in one batch at most, and later batches have later blocks. -/
theorem sent_once (size first : Nat) (ids : List Nat) (evs : List Ev) (h : 0 < size) :
    (collect size first ids evs).finish.Pairwise (fun a b => ∀ q q', a.has q → b.has q' → q < q') := by
  have w := sinv_collect size first ids evs h
  unfold Session.finish Session.send
  split
  · exact w.order
  · refine List.pairwise_append.2 ⟨w.order, by simp, ?_⟩
    intro a ha b hb q1 q2 h1 h2
    rw [List.mem_singleton] at hb; subst hb
    have := w.old a ha q1 h1
    have := w.new q2 h2
    omega

/-- The number of the block of an event. -/
def Ev.seqno : Ev → Option Nat
  | .validated n _ => some n
  | .skipped n => some n
  | _ => none

/-- What a session that keeps its size knows. -/
structure Keeps (ids : List Nat) (evs : List Ev) (s : Session) : Prop where
  ready : s.ready = true
  next : ∀ n, evs.filterMap Ev.seqno ≠ [] → (evs.filterMap Ev.seqno).getLast? = some n → s.next ≤ n + 1
  nextNil : evs.filterMap Ev.seqno = [] → s.next = s.first
  all : ∀ q l, Ev.validated q l ∈ evs → l.length = ids.length → s.cur.tells q l ∨ ∃ b ∈ s.sent, b.tells q l
  aligned : s.first ≤ s.cur.start ∧ (s.cur.start - s.first) % s.size = 0
  ranges : s.sent.Pairwise (fun a b => a.start + s.size ≤ b.start) ∧ ∀ b ∈ s.sent, b.start + s.size ≤ s.cur.start ∧
    b.committed.length = s.size ∧ s.first ≤ b.start

theorem keeps_step {ids : List Nat} {evs : List Ev} {s : Session} (w : SInv ids evs s) (k : Keeps ids evs s) (q : Nat) (sg : Option (List Sig))
    (hnew : ∀ n ∈ evs.filterMap Ev.seqno, n < q) (hf : s.first ≤ q) :
    Keeps ids (evs ++ [match sg with | some l => .validated q l | none => .skipped q]) (s.block q sg) ∧
      (s.block q sg).size = s.size ∧ (s.block q sg).first = s.first := by
  have hnext : s.next ≤ q := by
    cases hl : (evs.filterMap Ev.seqno).getLast? with
    | none =>
      rw [List.getLast?_eq_none_iff] at hl
      rw [k.nextNil hl]; exact hf
    | some n =>
      have := k.next n (by intro h; rw [h] at hl; simp at hl) hl
      have := hnew n (List.mem_of_getLast? hl)
      omega
  have hfm : (evs ++ [match sg with | some l => Ev.validated q l | none => Ev.skipped q]).filterMap Ev.seqno = evs.filterMap Ev.seqno ++ [q] := by
    rw [List.filterMap_append]; cases sg <;> rfl
  have hnone : ∀ l, Ev.validated q l ∉ evs := by
    intro l hl
    have := hnew q (List.mem_filterMap.2 ⟨_, hl, rfl⟩)
    omega
  unfold Session.block
  rw [if_neg (by omega)]
  have nx : ∀ m : Nat, m ≤ q + 1 → ∀ n, (evs ++ [match sg with | some l => Ev.validated q l | none => Ev.skipped q]).filterMap Ev.seqno ≠ [] →
      ((evs ++ [match sg with | some l => Ev.validated q l | none => Ev.skipped q]).filterMap Ev.seqno).getLast? = some n → m ≤ n + 1 := by
    intro m hm n _ hl
    rw [hfm, List.getLast?_concat] at hl
    simp only [Option.some.injEq] at hl; omega
  by_cases hc : s.cur.contains q = true
  · rw [if_pos hc]
    cases sg with
    | none =>
      refine ⟨⟨k.ready, nx _ (by simp only; omega), by rw [hfm]; simp, ?_, k.aligned, k.ranges⟩, rfl, rfl⟩
      intro q' l hm hl
      refine k.all q' l ?_ hl
      simpa using hm
    | some l0 =>
      refine ⟨⟨k.ready, nx _ (by simp only; omega), by rw [hfm]; simp, ?_, ?_, ?_⟩, rfl, rfl⟩
      · intro q' l hm hl
        have hlen : s.cur.hist.length = ids.length := by
          have := congrArg List.length w.cur.ids
          simpa using this
        rcases List.mem_append.1 hm with hm | hm
        · have hne : q' ≠ q := by intro e; rw [e] at hm; exact hnone l hm
          rcases k.all q' l hm hl with h | h
          · left
            by_cases hll : l0.length = s.cur.hist.length
            · exact (commit_tells s.cur q l0 hc hll w.cur.len).2.2.2.2.2.2.1 q' l hne h
            · have : s.cur.commit q l0 = s.cur := by
                unfold Batch.commit
                rw [if_pos (Or.inr hll)]
              simp only [this]; exact h
          · exact Or.inr h
        · simp only [List.mem_singleton, Ev.validated.injEq] at hm
          obtain ⟨rfl, rfl⟩ := hm
          left
          exact (commit_tells s.cur q' l hc (by rw [hl]; exact hlen.symm) w.cur.len).1
      · simp only [(commit_start s.cur q l0).1]; exact k.aligned
      · simp only [(commit_start s.cur q l0).1]; exact k.ranges
  · rw [if_neg hc, if_neg (by omega)]
    have hcs : s.cur.start + s.cur.committed.length ≤ q := by
      have := w.startLe
      have : ¬ (s.cur.start ≤ q ∧ q < s.cur.start + s.cur.committed.length) := fun h => hc ((contains_iff _ _).2 h)
      omega
    have hal : s.cur.start + s.size ≤ s.align q := by
      obtain ⟨a1, a2⟩ := k.aligned
      rw [w.curLen] at hcs
      unfold Session.align
      have hpos := w.size
      generalize hx : s.cur.start - s.first = x at a2
      obtain ⟨m, rfl⟩ := Nat.dvd_of_mod_eq_zero a2
      have h1 : s.size * (m + 1) ≤ q - s.first := by rw [Nat.mul_add]; omega
      have h2 : s.size * ((q - s.first) / s.size) + (q - s.first) % s.size = q - s.first := Nat.div_add_mod _ _
      have h3 : m + 1 ≤ (q - s.first) / s.size := (Nat.le_div_iff_mul_le hpos).2 (by rw [Nat.mul_comm]; exact h1)
      have h4 : s.size * (m + 1) ≤ s.size * ((q - s.first) / s.size) := Nat.mul_le_mul_left _ h3
      rw [Nat.mul_add] at h4
      omega
    have hal2 : s.first ≤ s.align q ∧ (s.align q - s.first) % s.size = 0 := by
      obtain ⟨a1, a2⟩ := k.aligned
      refine ⟨by omega, ?_⟩
      unfold Session.align
      have h2 : s.size * ((q - s.first) / s.size) + (q - s.first) % s.size = q - s.first := Nat.div_add_mod _ _
      have h3 : q - (q - s.first) % s.size - s.first = s.size * ((q - s.first) / s.size) := by omega
      rw [h3]; simp
    have base : ∀ c : Batch, c.start = s.align q → (∀ l, sg = some l → l.length = ids.length → c.tells q l) →
        Keeps ids (evs ++ [match sg with | some l => .validated q l | none => .skipped q]) (Session.send { s with cur := c, next := q + 1 } s.cur) ∧
          (Session.send { s with cur := c, next := q + 1 } s.cur).size = s.size ∧ (Session.send { s with cur := c, next := q + 1 } s.cur).first = s.first := by
      intro c hc1 hc2
      have hsnd : Session.send { s with cur := c, next := q + 1 } s.cur =
          { s with cur := c, next := q + 1, sent := if s.cur.empty then s.sent else s.sent ++ [s.cur] } := by
        unfold Session.send
        by_cases he : s.cur.empty = true
        · simp [he]
        · simp [he, k.ready]
      rw [hsnd]
      refine ⟨⟨k.ready, nx _ (by simp only; omega), by rw [hfm]; simp, ?_, by simp only [hc1]; exact hal2, ?_⟩, rfl, rfl⟩
      · intro q' l hm hl
        rcases List.mem_append.1 hm with hm | hm
        · right
          rcases k.all q' l hm hl with h | ⟨b, hb, h⟩
          · have hne : s.cur.empty = false := by
              obtain ⟨i, _, hi⟩ := h.1
              unfold Batch.empty
              rw [List.all_eq_false]
              exact ⟨true, List.mem_of_getElem? hi, by simp⟩
            exact ⟨s.cur, by simp [hne], h⟩
          · refine ⟨b, ?_, h⟩
            simp only
            split
            · exact hb
            · simp [hb]
        · left
          cases sg with
          | none => simp at hm
          | some l0 =>
            simp only [List.mem_singleton, Ev.validated.injEq] at hm
            obtain ⟨rfl, rfl⟩ := hm
            exact hc2 l rfl hl
      · simp only [hc1]
        have hr := k.ranges
        have h0 := k.aligned.1
        refine ⟨?_, ?_⟩
        · split
          · exact hr.1
          · refine List.pairwise_append.2 ⟨hr.1, by simp, ?_⟩
            intro a ha b hb
            rw [List.mem_singleton] at hb; subst hb
            exact (hr.2 a ha).1
        · intro b hb
          have hold : b ∈ s.sent → b.start + s.size ≤ s.align q ∧ b.committed.length = s.size ∧ s.first ≤ b.start := by
            intro hb
            have := hr.2 b hb
            exact ⟨by omega, this.2⟩
          split at hb
          · exact hold hb
          · rcases List.mem_append.1 hb with hb | hb
            · exact hold hb
            · rw [List.mem_singleton] at hb; subst hb
              exact ⟨hal, w.curLen, h0⟩
    cases sg with
    | none => exact base (.new (s.align q) s.size s.ids) rfl (by simp)
    | some l0 =>
      refine base ((Batch.new (s.align q) s.size s.ids).commit q l0) ((commit_start _ _ _).1) ?_
      intro l hl hll
      simp only [Option.some.injEq] at hl; subst hl
      have h1 := align_le s q
      have h2 := align_lt s q w.size
      refine (commit_tells _ q l0 ((contains_iff _ _).2 ?_) ?_ ?_).1
      · simp only [Batch.new, List.length_replicate]; exact ⟨h1, h2⟩
      · rw [hll, ← w.idsEq]; simp [Batch.new]
      · exact (faithful_new s.ids [] _ _).len

/-- Events of blocks only, with numbers that go up from `first`. -/
def Ordered (first : Nat) (evs : List Ev) : Prop :=
  (∀ e ∈ evs, e.seqno ≠ none) ∧ (evs.filterMap Ev.seqno).Pairwise (· < ·) ∧ ∀ n ∈ evs.filterMap Ev.seqno, first ≤ n

theorem keeps_all (size first : Nat) (ids : List Nat) (h : 0 < size) : ∀ evs : List Ev, Ordered first evs →
    Keeps ids evs (collect size first ids (.init size :: evs)) ∧ (collect size first ids (.init size :: evs)).size = size ∧
      (collect size first ids (.init size :: evs)).first = first := by
  intro evs
  induction evs using List.reverseRecOn with
  | nil =>
    intro _
    have e : collect size first ids [.init size] = { Session.start size first ids with ready := true } := by
      unfold collect
      simp only [List.foldl_cons, List.foldl_nil, Session.step]
      rw [if_neg (by omega)]
      unfold Session.resize
      rw [if_pos (by rfl)]
    rw [e]
    refine ⟨⟨rfl, by simp, by simp [Session.start], by simp, by simp [Session.start, Batch.new], by simp [Session.start]⟩, rfl, rfl⟩
  | append_singleton evs e ih =>
    intro ho
    have ho' : Ordered first evs := by
      refine ⟨fun e he => ho.1 e (by simp [he]), ?_, fun n hn => ho.2.2 n (by rw [List.filterMap_append]; simp [hn])⟩
      have := ho.2.1
      rw [List.filterMap_append, List.pairwise_append] at this
      exact this.1
    obtain ⟨k, k1, k2⟩ := ih ho'
    have w := sinv_collect size first ids (.init size :: evs) h
    have hs : collect size first ids (.init size :: (evs ++ [e])) = (collect size first ids (.init size :: evs)).step e := by
      simp [collect]
    rw [hs]
    have w2 : SInv ids (.init size :: evs) (collect size first ids (.init size :: evs)) := w
    generalize collect size first ids (.init size :: evs) = s at *
    have go : ∀ q sg, e = (match sg with | some l => Ev.validated q l | none => Ev.skipped q) → s.step e = s.block q sg →
        Keeps ids (evs ++ [e]) (s.step e) ∧ (s.step e).size = size ∧ (s.step e).first = first := by
      intro q sg he hb
      have hsq : e.seqno = some q := by rw [he]; cases sg <;> rfl
      have hp := ho.2.1
      rw [List.filterMap_append, List.pairwise_append] at hp
      have hnew : ∀ n ∈ evs.filterMap Ev.seqno, n < q := fun n hn => hp.2.2 n hn q (by simp [hsq])
      have hf : s.first ≤ q := by
        rw [k2]; exact ho.2.2 q (by rw [List.filterMap_append]; simp [hsq])
      have k' : Keeps ids (.init size :: evs) s := by
        refine ⟨k.ready, k.next, k.nextNil, ?_, k.aligned, k.ranges⟩
        intro q l hm hl
        refine k.all q l ?_ hl
        simpa using hm
      obtain ⟨r, r1, r2⟩ := keeps_step w2 k' q sg hnew hf
      rw [hb]
      refine ⟨⟨r.ready, ?_, ?_, ?_, r.aligned, r.ranges⟩, by rw [r1, k1], by rw [r2, k2]⟩
      · intro n hn hl
        refine r.next n ?_ ?_
        · rw [he] at hn; exact hn
        · rw [he] at hl; exact hl
      · intro hn; rw [he] at hn; exact r.nextNil hn
      · intro q' l hm hl
        refine r.all q' l ?_ hl
        rw [he] at hm
        exact List.mem_cons_of_mem _ hm
    cases e with
    | validated q l => exact go q (some l) rfl rfl
    | skipped q => exact go q none rfl rfl
    | resize k => exact absurd rfl (ho.1 (.resize k) (by simp))
    | init k => exact absurd rfl (ho.1 (.init k) (by simp))

/-- C156: a session whose batch size stays, which is fit to send, and whose blocks come in order, sends of each validated block (with one
signature slot for each validator) just what was observed. -/
theorem all_sent (size first : Nat) (ids : List Nat) (evs : List Ev) (h : 0 < size) (ho : Ordered first evs) (q : Nat) (l : List Sig)
    (hm : Ev.validated q l ∈ evs) (hl : l.length = ids.length) :
    ∃ b ∈ (collect size first ids (.init size :: evs)).finish, b.tells q l := by
  obtain ⟨k, _, _⟩ := keeps_all size first ids h evs ho
  generalize collect size first ids (.init size :: evs) = s at *
  unfold Session.finish Session.send
  rcases k.all q l hm hl with ht | ⟨b, hb, ht⟩
  · have hne : s.cur.empty = false := by
      obtain ⟨i, _, hi⟩ := ht.1
      unfold Batch.empty
      rw [List.all_eq_false]
      exact ⟨true, List.mem_of_getElem? hi, by simp⟩
    rw [if_neg (by simp [hne, k.ready])]
    exact ⟨s.cur, by simp, ht⟩
  · refine ⟨b, ?_, ht⟩
    split
    · exact hb
    · simp [hb]

/-- C156: and its batches are of that size and do not overlap, so that the contract's least number for the validator never stops them. -/
theorem ranges_disjoint (size first : Nat) (ids : List Nat) (evs : List Ev) (h : 0 < size) (ho : Ordered first evs) :
    (collect size first ids (.init size :: evs)).finish.Pairwise (fun a b => a.start + size ≤ b.start) ∧
      ∀ b ∈ (collect size first ids (.init size :: evs)).finish, b.committed.length = size ∧ first ≤ b.start := by
  obtain ⟨k, k1, k2⟩ := keeps_all size first ids h evs ho
  have w := sinv_collect size first ids (.init size :: evs) h
  generalize collect size first ids (.init size :: evs) = s at *
  have hr := k.ranges
  have ha := k.aligned
  rw [k1] at hr
  rw [k2] at hr ha
  unfold Session.finish Session.send
  split
  · exact ⟨hr.1, fun b hb => (hr.2 b hb).2⟩
  · refine ⟨List.pairwise_append.2 ⟨hr.1, by simp, ?_⟩, ?_⟩
    · intro a ha b hb
      rw [List.mem_singleton] at hb; subst hb
      exact (hr.2 a ha).1
    · intro b hb
      rcases List.mem_append.1 hb with hb | hb
      · exact (hr.2 b hb).2
      · rw [List.mem_singleton] at hb; subst hb
        exact ⟨by rw [w.curLen, k1], ha.1⟩

end Tycho.Slasher
