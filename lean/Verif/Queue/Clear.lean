import Verif.Queue.Apply

/-!
C14: clearing the uncommitted state (`clear_uncommitted_state`).
-/
namespace Tycho.Queue
open Tycho.Table

theorem dec_iff {p : Prop} {h : Decidable p} : (@decide p h = true) ↔ p := ⟨of_decide_eq_true, decide_eq_true⟩

/-- The position `k` of shard `s` is uncommitted: above the commit pointer, or anywhere in a top shard without one. -/
def Uncommitted (db : DB) (tops : List Shard) (s : Shard) (k : Nat) : Prop :=
  (∃ p, get db.ptrs s = some p ∧ p.1 < k) ∨ (get db.ptrs s = none ∧ s ∈ tops)

/-- Commit pointers are below `QueueKey::MAX` and unique per shard. -/
structure PtrsOk (db : DB) : Prop where
  uniq : Uniq db.ptrs
  below : ∀ s p, get db.ptrs s = some p → p.1 < keyMax

theorem mem_clearRanges (db : DB) (hu : Uniq db.ptrs) (parts : List Part) (tops : List Shard) (r : Range) :
    r ∈ clearRanges db parts tops ↔ r.hi = keyMax ∧ r.part ∈ parts ∧
      ((∃ p, get db.ptrs r.shard = some p ∧ r.lo = nextValue p.1) ∨
       (get db.ptrs r.shard = none ∧ r.shard ∈ tops ∧ r.lo = 0)) := by
  obtain ⟨s, q, lo, hi⟩ := r
  simp only [clearRanges, List.mem_append, List.mem_flatMap, List.mem_map, Range.mk.injEq, List.mem_filter,
    Option.isNone_iff_eq_none]
  constructor
  · rintro (⟨⟨s', v⟩, hp, q', hq, rfl, rfl, rfl, rfl⟩ | ⟨s', ⟨hs, hn⟩, q', hq, rfl, rfl, rfl, rfl⟩)
    · exact ⟨rfl, hq, Or.inl ⟨v, get_of_mem _ hu _ _ hp, rfl⟩⟩
    · exact ⟨rfl, hq, Or.inr ⟨hn, hs, rfl⟩⟩
  · rintro ⟨rfl, hq, ⟨p, hp, rfl⟩ | ⟨hn, hs, rfl⟩⟩
    · exact Or.inl ⟨(s, p), mem_of_get _ _ _ hp, q, hq, rfl, rfl, rfl, rfl⟩
    · exact Or.inr ⟨s, ⟨hs, hn⟩, q, hq, rfl, rfl, rfl, rfl⟩

/-- Some range of the clearing covers partition `q` of shard `s` exactly when the partition is cleared and the position is
uncommitted. -/
theorem clear_covers (db : DB) (hp : PtrsOk db) (parts : List Part) (tops : List Shard) (q : Part) (s : Shard) (k : Nat)
    (hk : k ≤ keyMax) :
    (∃ r ∈ clearRanges db parts tops, r.part = q ∧ r.shard = s ∧ r.lo ≤ k ∧ k ≤ r.hi) ↔
    (q ∈ parts ∧ Uncommitted db tops s k) := by
  constructor
  · rintro ⟨r, hr, rfl, rfl, hlo, _⟩
    obtain ⟨_, hq, h⟩ := (mem_clearRanges db hp.uniq parts tops r).mp hr
    refine ⟨hq, ?_⟩
    rcases h with ⟨p, hg, hl⟩ | ⟨hn, hs, _⟩
    · left
      refine ⟨p, hg, ?_⟩
      rw [hl, nextValue_of_lt (hp.below _ _ hg)] at hlo
      omega
    · exact Or.inr ⟨hn, hs⟩
  · rintro ⟨hq, ⟨p, hg, hlt⟩ | ⟨hn, hs⟩⟩
    · refine ⟨⟨s, q, nextValue p.1, keyMax⟩, ?_, rfl, rfl, ?_, hk⟩
      · exact (mem_clearRanges db hp.uniq parts tops _).mpr ⟨rfl, hq, Or.inl ⟨p, hg, rfl⟩⟩
      · simp only [nextValue_of_lt (hp.below _ _ hg)]; omega
    · refine ⟨⟨s, q, 0, keyMax⟩, ?_, rfl, rfl, Nat.zero_le _, hk⟩
      exact (mem_clearRanges db hp.uniq parts tops _).mpr ⟨rfl, hq, Or.inr ⟨hn, hs, rfl⟩⟩

theorem clearRange_le (db : DB) (hp : PtrsOk db) (parts : List Part) (tops : List Shard) (r : Range)
    (hr : r ∈ clearRanges db parts tops) : r.lo ≤ r.hi := by
  obtain ⟨hh, _, h⟩ := (mem_clearRanges db hp.uniq parts tops r).mp hr
  rcases h with ⟨p, hg, hl⟩ | ⟨_, _, hl⟩
  · rw [hl, hh]; exact nextValue_le (Nat.le_of_lt (hp.below _ _ hg))
  · rw [hl]; exact Nat.zero_le _

theorem planDel_range (db : DB) (r : Range) : (planDel db r).range = r := rfl

theorem hitMsg_iff (db : DB) (r : Range) (q : Part) (s : Shard) (k : Nat) :
    hitMsg (planDel db r) (q, s, k) = true ↔ (q = r.part ∧ s = r.shard) ∧ inDel r.lo r.hi k = true := by
  unfold hitMsg
  rw [Bool.and_eq_true, Bool.and_eq_true]
  exact and_congr (and_congr dec_iff dec_iff) Iff.rfl

theorem hitTail_iff (db : DB) (r : Range) (s : Shard) (k : Nat) :
    hitTail (planDel db r) (s, k) = true ↔ s = r.shard ∧ inDel r.lo r.hi k = true := by
  unfold hitTail
  rw [Bool.and_eq_true]
  exact and_congr dec_iff Iff.rfl

theorem hitStat_iff (db : DB) (r : Range) (s : Shard) (q : Part) (k : Nat) (a : Dest) :
    hitStat (planDel db r) (s, q, k, a) = true ↔ (s = r.shard ∧ q = r.part) ∧ inDelStat r.lo r.hi k a = true := by
  unfold hitStat
  rw [Bool.and_eq_true, Bool.and_eq_true]
  exact and_congr (and_congr dec_iff dec_iff) Iff.rfl

/-- Messages: exactly the uncommitted ones of the cleared partitions disappear. -/
theorem clear_messages (db : DB) (hp : PtrsOk db) (parts : List Part) (tops : List Shard) (q : Part) (s : Shard) (k : Nat)
    (hk : k ≤ keyMax) :
    (q ∈ parts ∧ Uncommitted db tops s k → get (clear db parts tops).msgs (q, s, k) = none) ∧
    (¬ (q ∈ parts ∧ Uncommitted db tops s k) → get (clear db parts tops).msgs (q, s, k) = get db.msgs (q, s, k)) := by
  have hx : ((clearRanges db parts tops).map (planDel db)).any (fun d => hitMsg d (q, s, k)) = true ↔
      (q ∈ parts ∧ Uncommitted db tops s k) := by
    rw [← clear_covers db hp parts tops q s k hk]
    simp only [List.any_map, List.any_eq_true, Function.comp, hitMsg_iff]
    constructor
    · rintro ⟨r, hr, ⟨h1, h2⟩, h3⟩
      rw [inDel_iff _ _ _ (clearRange_le db hp parts tops r hr)] at h3
      exact ⟨r, hr, h1.symm, h2.symm, h3.1, h3.2⟩
    · rintro ⟨r, hr, h1, h2, h3, h4⟩
      refine ⟨r, hr, ⟨h1.symm, h2.symm⟩, ?_⟩
      rw [inDel_iff _ _ _ (clearRange_le db hp parts tops r hr)]
      exact ⟨h3, h4⟩
  constructor
  · intro h
    rw [clear, delete_msgs, if_pos (hx.mpr h)]
  · intro h
    rw [clear, delete_msgs, if_neg (fun e => h (hx.mp e))]

theorem clear_tails (db : DB) (hp : PtrsOk db) (parts : List Part) (tops : List Shard) (s : Shard) (k : Nat)
    (hk : k ≤ keyMax) :
    (parts ≠ [] ∧ Uncommitted db tops s k → get (clear db parts tops).tails (s, k) = none) ∧
    (¬ (parts ≠ [] ∧ Uncommitted db tops s k) → get (clear db parts tops).tails (s, k) = get db.tails (s, k)) := by
  have hx : ((clearRanges db parts tops).map (planDel db)).any (fun d => hitTail d (s, k)) = true ↔
      (parts ≠ [] ∧ Uncommitted db tops s k) := by
    have : (parts ≠ [] ∧ Uncommitted db tops s k) ↔ ∃ q, q ∈ parts ∧ Uncommitted db tops s k := by
      constructor
      · rintro ⟨h1, h2⟩
        obtain ⟨q, hq⟩ := List.exists_mem_of_ne_nil _ h1
        exact ⟨q, hq, h2⟩
      · rintro ⟨q, hq, h⟩
        exact ⟨List.ne_nil_of_mem hq, h⟩
    rw [this]
    simp only [← clear_covers db hp parts tops _ s k hk]
    simp only [List.any_map, List.any_eq_true, Function.comp, hitTail_iff]
    constructor
    · rintro ⟨r, hr, h2, h3⟩
      rw [inDel_iff _ _ _ (clearRange_le db hp parts tops r hr)] at h3
      exact ⟨r.part, r, hr, rfl, h2.symm, h3.1, h3.2⟩
    · rintro ⟨q, r, hr, h1, h2, h3, h4⟩
      refine ⟨r, hr, h2.symm, ?_⟩
      rw [inDel_iff _ _ _ (clearRange_le db hp parts tops r hr)]
      exact ⟨h3, h4⟩
  constructor
  · intro h
    rw [clear, delete_tails, if_pos (hx.mpr h)]
  · intro h
    rw [clear, delete_tails, if_neg (fun e => h (hx.mp e))]

theorem inDelStat_in {lo hi k : Nat} {d : Dest} (h : inDelStat lo hi k d = true) : lo ≤ hi → lo ≤ k ∧ k ≤ hi := by
  intro hle
  simp only [inDelStat, Bool.or_eq_true, Bool.and_eq_true, dec_iff] at h
  omega

theorem inDelStat_of {lo hi k : Nat} {d : Dest} (h1 : lo < k) (h2 : k < hi) : inDelStat lo hi k d = true := by
  simp only [inDelStat, Bool.or_eq_true, Bool.and_eq_true, dec_iff]
  exact Or.inl ⟨Or.inl h1, Or.inl h2⟩

/-- Statistics of committed diffs and of other partitions stay; those of an uncommitted diff disappear, unless its
greatest message is the very next possible key after the pointer (or the greatest possible key), see
`clear_statistics_edge`. -/
theorem clear_statistics (db : DB) (hp : PtrsOk db) (parts : List Part) (tops : List Shard) (q : Part) (s : Shard) (k : Nat)
    (a : Dest) (hk : k < keyMax) :
    (q ∈ parts ∧ Uncommitted db tops s k → 0 < k → (∀ p, get db.ptrs s = some p → k ≠ p.1 + 1) →
      get (clear db parts tops).stats (s, q, k, a) = none) ∧
    (¬ (q ∈ parts ∧ Uncommitted db tops s k) →
      get (clear db parts tops).stats (s, q, k, a) = get db.stats (s, q, k, a)) := by
  constructor
  · rintro ⟨hq, hun⟩ h0 hedge
    rw [clear, delete_stats, if_pos]
    simp only [List.any_map, List.any_eq_true, Function.comp, hitStat_iff]
    rcases hun with ⟨p, hg, hlt⟩ | ⟨hn, hs⟩
    · refine ⟨⟨s, q, nextValue p.1, keyMax⟩, ?_, ⟨rfl, rfl⟩, ?_⟩
      · exact (mem_clearRanges db hp.uniq parts tops _).mpr ⟨rfl, hq, Or.inl ⟨p, hg, rfl⟩⟩
      · apply inDelStat_of
        · have := hedge p hg
          simp only [nextValue_of_lt (hp.below _ _ hg)]
          omega
        · exact hk
    · refine ⟨⟨s, q, 0, keyMax⟩, ?_, ⟨rfl, rfl⟩, ?_⟩
      · exact (mem_clearRanges db hp.uniq parts tops _).mpr ⟨rfl, hq, Or.inr ⟨hn, hs, rfl⟩⟩
      · exact inDelStat_of h0 hk
  · intro h
    rw [clear, delete_stats, if_neg]
    intro hx
    apply h
    rw [← clear_covers db hp parts tops q s k (Nat.le_of_lt hk)]
    simp only [List.any_map, List.any_eq_true, Function.comp, hitStat_iff] at hx
    obtain ⟨r, hr, ⟨h1, h2⟩, h3⟩ := hx
    have := inDelStat_in h3 (clearRange_le db hp parts tops r hr)
    exact ⟨r, hr, h2.symm, h1.symm, this.1, this.2⟩

/-- Diff tails and diff records describe the same diffs, and later blocks of a shard have greater keys. Kept by `apply`
of a fitting diff (`linked_apply`) and by every deletion (`linked_delete`). -/
structure Linked (db : DB) : Prop where
  uniq : Uniq db.tails
  tail : ∀ s k n, get db.tails (s, k) = some n → ∃ i, get db.infos (s, n) = some i ∧ i.maxMessage = k
  info : ∀ s n i, get db.infos (s, n) = some i →
    get db.tails (s, i.maxMessage) = some n ∧ 0 < n ∧ n < u32Max ∧ i.maxMessage ≤ keyMax
  mono : ∀ s n m i j, get db.infos (s, n) = some i → get db.infos (s, m) = some j → n < m → i.maxMessage < j.maxMessage

theorem linked_empty : Linked DB.empty := by
  constructor <;> simp [DB.empty, Table.get, Uniq]

theorem linked_mono_iff {db : DB} (hl : Linked db) {s : Shard} {n m : Nat} {i j : Info}
    (hi : get db.infos (s, n) = some i) (hj : get db.infos (s, m) = some j) :
    n ≤ m ↔ i.maxMessage ≤ j.maxMessage := by
  constructor
  · intro h
    rcases Nat.lt_or_eq_of_le h with h | h
    · exact Nat.le_of_lt (hl.mono _ _ _ _ _ hi hj h)
    · subst h; rw [hi] at hj; cases hj; exact Nat.le_refl _
  · intro h
    rcases Nat.lt_or_ge m n with hlt | hge
    · have := hl.mono _ _ _ _ _ hj hi hlt
      omega
    · exact hge

theorem hitInfo_iff {db : DB} (hl : Linked db) (r : Range) {s : Shard} {n : Nat} {i : Info}
    (hi : get db.infos (s, n) = some i) :
    hitInfo (planDel db r) (s, n) = true ↔ s = r.shard ∧ r.lo ≤ i.maxMessage ∧ i.maxMessage ≤ r.hi := by
  have hpl := planDel_seqnos db r (by
    intro k m hm
    obtain ⟨j, hj, _⟩ := hl.tail _ _ _ (get_of_mem _ hl.uniq _ _ hm)
    have := hl.info _ _ _ hj
    exact ⟨this.2.1, this.2.2.1⟩)
  unfold hitInfo
  have self : s = r.shard → r.lo ≤ i.maxMessage → i.maxMessage ≤ r.hi → TailIn db r i.maxMessage n := by
    intro h1 h2 h3
    subst h1
    exact ⟨mem_of_get _ _ _ (hl.info _ _ _ hi).1, h2, h3⟩
  have attained : ∀ k m, TailIn db r k m → ∃ j, get db.infos (r.shard, m) = some j ∧ j.maxMessage = k ∧ r.lo ≤ k ∧ k ≤ r.hi := by
    rintro k m ⟨h1, h2, h3⟩
    obtain ⟨j, hj, he⟩ := hl.tail _ _ _ (get_of_mem _ hl.uniq _ _ h1)
    exact ⟨j, hj, he, h2, h3⟩
  cases hs : (planDel db r).seqnos with
  | none =>
    rw [hs] at hpl
    simp only [Bool.false_eq_true, false_iff]
    rintro ⟨h1, h2, h3⟩
    exact hpl _ _ (self h1 h2 h3)
  | some mm =>
    rw [hs] at hpl
    obtain ⟨hb, ⟨k1, hk1⟩, ⟨k2, hk2⟩⟩ := hpl
    rw [show (∀ a b : Bool, ((a && b) = true) = (a = true ∧ b = true)) from fun a b => by simp, dec_iff]
    constructor
    · rintro ⟨h1, h2⟩
      subst h1
      have hle : mm.1 ≤ mm.2 := (hb _ _ hk1).2
      rw [inDel_iff _ _ _ hle] at h2
      obtain ⟨j1, hj1, e1, l1, u1⟩ := attained _ _ hk1
      obtain ⟨j2, hj2, e2, l2, u2⟩ := attained _ _ hk2
      have a := (linked_mono_iff hl hj1 hi).mp h2.1
      have b := (linked_mono_iff hl hi hj2).mp h2.2
      exact ⟨rfl, by omega, by omega⟩
    · rintro ⟨h1, h2, h3⟩
      have hh := hb _ _ (self h1 h2 h3)
      refine ⟨h1, ?_⟩
      rw [inDel_iff _ _ _ (Nat.le_trans hh.1 hh.2)]
      exact hh

/-- Diff records: exactly those of uncommitted diffs disappear. -/
theorem clear_diffs (db : DB) (hp : PtrsOk db) (hl : Linked db) (parts : List Part) (tops : List Shard) (s : Shard) (n : Nat)
    (i : Info) (hi : get db.infos (s, n) = some i) :
    (parts ≠ [] ∧ Uncommitted db tops s i.maxMessage → get (clear db parts tops).infos (s, n) = none) ∧
    (¬ (parts ≠ [] ∧ Uncommitted db tops s i.maxMessage) → get (clear db parts tops).infos (s, n) = some i) := by
  have hk := (hl.info _ _ _ hi).2.2.2
  have hx : ((clearRanges db parts tops).map (planDel db)).any (fun d => hitInfo d (s, n)) = true ↔
      (parts ≠ [] ∧ Uncommitted db tops s i.maxMessage) := by
    have : (parts ≠ [] ∧ Uncommitted db tops s i.maxMessage) ↔ ∃ q, q ∈ parts ∧ Uncommitted db tops s i.maxMessage := by
      constructor
      · rintro ⟨h1, h2⟩
        obtain ⟨q, hq⟩ := List.exists_mem_of_ne_nil _ h1
        exact ⟨q, hq, h2⟩
      · rintro ⟨q, hq, h⟩
        exact ⟨List.ne_nil_of_mem hq, h⟩
    rw [this]
    simp only [← clear_covers db hp parts tops _ s _ hk, List.any_map, List.any_eq_true, Function.comp,
      hitInfo_iff hl _ hi]
    constructor
    · rintro ⟨r, hr, h1, h2, h3⟩; exact ⟨r.part, r, hr, rfl, h1.symm, h2, h3⟩
    · rintro ⟨q, r, hr, _, h1, h2, h3⟩; exact ⟨r, hr, h1.symm, h2, h3⟩
  constructor
  · intro h
    rw [clear, delete_infos, if_pos (hx.mpr h)]
  · intro h
    rw [clear, delete_infos, if_neg (fun e => h (hx.mp e)), hi]

/-- The pointers stay. -/
theorem clear_pointers (db : DB) (parts : List Part) (tops : List Shard) :
    (clear db parts tops).ptrs = db.ptrs ∧ (clear db parts tops).lastMc = db.lastMc :=
  ⟨foldDel_ptrs _ _, foldDel_lastMc _ _⟩

/-! ### keeping `Linked` -/

/-- A diff fits after the recorded diffs of its shard. -/
def Fits (db : DB) (s : Shard) (n : Nat) (maxM : Nat) : Prop :=
  0 < n ∧ n < u32Max ∧ maxM ≤ keyMax ∧
  ∀ m i, get db.infos (s, m) = some i → (m < n → i.maxMessage < maxM) ∧ (n < m → maxM < i.maxMessage)

theorem linked_apply {db db' : DB} (hl : Linked db) {d : Diff} {s : Shard} {n h minM maxM : Nat} {c : Option Zone}
    (hf : Fits db s n maxM) (ho : d.Ordered) (ha : apply db d s n h (statsOf d s minM maxM) c = some db') : Linked db' := by
  rcases apply_effect db db' d s n h minM maxM c ho ha with rfl | ⟨h0, _, _, _, hio, hi, hto, ht, _, _⟩
  · exact hl
  · obtain ⟨f1, f2, f3, f4⟩ := hf
    have hut : Uniq db'.tails := by
      unfold apply at ha
      split at ha
      · cases ha
      · simp only [Option.some.injEq] at ha; subst ha; exact hl.uniq
      · simp only [Option.some.injEq] at ha
        subst ha
        exact uniq_put _ _ _ hl.uniq
    have fresh : ∀ m i, get db.infos (s, m) = some i → i.maxMessage ≠ maxM := by
      intro m i hm
      rcases Nat.lt_trichotomy m n with hlt | rfl | hgt
      · have := (f4 m i hm).1 hlt; omega
      · rw [h0] at hm; cases hm
      · have := (f4 m i hm).2 hgt; omega
    constructor
    · exact hut
    · intro s' k m hm
      by_cases hk : (s', k) = (s, maxM)
      · simp only [Prod.mk.injEq] at hk
        obtain ⟨rfl, rfl⟩ := hk
        rw [ht] at hm; cases hm
        exact ⟨_, hi, rfl⟩
      · rw [hto _ hk] at hm
        obtain ⟨i, hgi, he⟩ := hl.tail _ _ _ hm
        have hne : (s', m) ≠ (s, n) := by
          intro heq; rw [heq, h0] at hgi; cases hgi
        exact ⟨i, by rw [hio _ hne]; exact hgi, he⟩
    · intro s' m i hm
      by_cases hk : (s', m) = (s, n)
      · simp only [Prod.mk.injEq] at hk
        obtain ⟨rfl, rfl⟩ := hk
        rw [hi] at hm; cases hm
        exact ⟨ht, f1, f2, f3⟩
      · rw [hio _ hk] at hm
        obtain ⟨a, b⟩ := hl.info _ _ _ hm
        refine ⟨?_, b⟩
        rw [hto, a]
        intro heq
        simp only [Prod.mk.injEq] at heq
        obtain ⟨rfl, he⟩ := heq
        exact fresh _ _ hm he
    · intro s' a b i j hgi hgj hab
      by_cases ha' : (s', a) = (s, n)
      · simp only [Prod.mk.injEq] at ha'
        obtain ⟨rfl, rfl⟩ := ha'
        rw [hi] at hgi; cases hgi
        rw [hio _ (by simp; omega)] at hgj
        exact (f4 _ _ hgj).2 hab
      · rw [hio _ ha'] at hgi
        by_cases hb' : (s', b) = (s, n)
        · simp only [Prod.mk.injEq] at hb'
          obtain ⟨rfl, rfl⟩ := hb'
          rw [hi] at hgj; cases hgj
          exact (f4 _ _ hgi).1 hab
        · rw [hio _ hb'] at hgj
          exact hl.mono _ _ _ _ _ hgi hgj hab

theorem uniq_delete_tails (db : DB) (ds : List Del) (h : Uniq db.tails) : Uniq (ds.foldl execDel db).tails := by
  induction ds generalizing db with
  | nil => exact h
  | cons d ds ih =>
    apply ih
    exact uniq_del db.tails (hitTail d) h

theorem linked_delete {db : DB} (hl : Linked db) (rs : List Range) (hr : ∀ r ∈ rs, r.lo ≤ r.hi) : Linked (delete db rs) := by
  have hit : ∀ s n i, get db.infos (s, n) = some i →
      ((rs.map (planDel db)).any (fun d => hitInfo d (s, n)) = true ↔
       (rs.map (planDel db)).any (fun d => hitTail d (s, i.maxMessage)) = true) := by
    intro s n i hi
    simp only [List.any_map, List.any_eq_true, Function.comp, hitInfo_iff hl _ hi, hitTail_iff]
    constructor
    · rintro ⟨r, hr', h1, h2, h3⟩
      exact ⟨r, hr', h1, (inDel_iff _ _ _ (hr r hr')).mpr ⟨h2, h3⟩⟩
    · rintro ⟨r, hr', h1, h2⟩
      exact ⟨r, hr', h1, (inDel_iff _ _ _ (hr r hr')).mp h2⟩
  have infos : ∀ s n i, get (delete db rs).infos (s, n) = some i ↔
      get db.infos (s, n) = some i ∧ (rs.map (planDel db)).any (fun d => hitTail d (s, i.maxMessage)) = false := by
    intro s n i
    rw [delete_infos]
    constructor
    · intro h
      split at h
      · cases h
      · rename_i hn
        refine ⟨h, ?_⟩
        rw [hit _ _ _ h] at hn
        simpa using hn
    · rintro ⟨h1, h2⟩
      rw [if_neg, h1]
      rw [hit _ _ _ h1, h2]; simp
  constructor
  · exact uniq_delete_tails _ _ hl.uniq
  · intro s k n h
    rw [delete_tails] at h
    split at h
    · cases h
    · rename_i hn
      obtain ⟨i, hi, he⟩ := hl.tail _ _ _ h
      refine ⟨i, (infos s n i).mpr ⟨hi, ?_⟩, he⟩
      rw [he]; simpa using hn
  · intro s n i h
    obtain ⟨h1, h2⟩ := (infos s n i).mp h
    obtain ⟨a, b⟩ := hl.info _ _ _ h1
    refine ⟨?_, b⟩
    rw [delete_tails, h2, a]; simp
  · intro s n m i j h1 h2 hlt
    exact hl.mono _ _ _ _ _ ((infos _ _ _).mp h1).1 ((infos _ _ _).mp h2).1 hlt

/-! ### clearing undoes the applies since the last commit -/

/-- The same contents in every table. -/
structure SameDb (a b : DB) : Prop where
  msgs : Same a.msgs b.msgs
  stats : Same a.stats b.stats
  tails : Same a.tails b.tails
  infos : Same a.infos b.infos
  ptrs : Same a.ptrs b.ptrs
  lastMc : a.lastMc = b.lastMc

/-- One `apply_diff` call with the statistics computed from the diff. -/
structure Call where
  d : Diff
  s : Shard
  n : Nat
  h : Nat
  minM : Nat
  maxM : Nat
  c : Option Zone

def Call.run (x : Call) (db : DB) : Option DB := apply db x.d x.s x.n x.h (statsOf x.d x.s x.minM x.maxM) x.c

/-- Calls in order, all successful. -/
def callAll (db : DB) : List Call → Option DB
  | [] => some db
  | x :: xs => match x.run db with
    | none => none
    | some db => callAll db xs

/-- A diff of a block after the last commit, in the partitions known to the caller: its shard has a commit pointer below
the diff or is a top shard; its greatest key is not the immediate successor of the pointer. -/
structure Call.New (db : DB) (parts : List Part) (tops : List Shard) (x : Call) : Prop where
  ordered : x.d.Ordered
  unc : Uncommitted db tops x.s x.maxM
  pos : 0 < x.maxM
  edge : ∀ p, get db.ptrs x.s = some p → x.maxM ≠ p.1 + 1
  lt : x.maxM < keyMax
  keys : ∀ m ∈ x.d.msgs, m.1 ≤ keyMax
  part : ∀ m ∈ x.d.msgs, x.d.router.partition m.2.src m.2.dst ∈ parts

/-- Nothing uncommitted is stored. -/
structure Clean (db : DB) (parts : List Part) (tops : List Shard) : Prop where
  msgs : ∀ q s k, Uncommitted db tops s k → get db.msgs (q, s, k) = none
  stats : ∀ q s k a, Uncommitted db tops s k → get db.stats (s, q, k, a) = none
  tails : ∀ s k, Uncommitted db tops s k → get db.tails (s, k) = none
  infos : ∀ s n i, get db.infos (s, n) = some i → ¬ Uncommitted db tops s i.maxMessage

/-- Keys of stored entries are queue keys. -/
structure KeysOk (db : DB) : Prop where
  msgs : ∀ q s k v, get db.msgs (q, s, k) = some v → k ≤ keyMax
  stats : ∀ q s k a v, get db.stats (s, q, k, a) = some v → k < keyMax
  tails : ∀ s k v, get db.tails (s, k) = some v → k ≤ keyMax

theorem uncommitted_congr {a b : DB} (h : a.ptrs = b.ptrs) (tops : List Shard) (s : Shard) (k : Nat) :
    Uncommitted a tops s k ↔ Uncommitted b tops s k := by
  unfold Uncommitted; rw [h]

/-- What a sequence of new diffs leaves behind, compared with the state before. -/
structure Grown (db db' : DB) (parts : List Part) (tops : List Shard) : Prop where
  ptrs : db'.ptrs = db.ptrs
  lastMc : db'.lastMc = db.lastMc
  msgs : ∀ q s k, get db'.msgs (q, s, k) = get db.msgs (q, s, k) ∨ (q ∈ parts ∧ Uncommitted db tops s k ∧ k ≤ keyMax)
  stats : ∀ q s k a, get db'.stats (s, q, k, a) = get db.stats (s, q, k, a) ∨
    (q ∈ parts ∧ Uncommitted db tops s k ∧ 0 < k ∧ k < keyMax ∧ ∀ p, get db.ptrs s = some p → k ≠ p.1 + 1)
  tails : ∀ s k, get db'.tails (s, k) = get db.tails (s, k) ∨ (Uncommitted db tops s k ∧ k ≤ keyMax)
  infos : ∀ s n, get db'.infos (s, n) = get db.infos (s, n) ∨
    (get db.infos (s, n) = none ∧ ∃ i, get db'.infos (s, n) = some i ∧ Uncommitted db tops s i.maxMessage)

theorem grown_refl (db : DB) (parts : List Part) (tops : List Shard) : Grown db db parts tops := by
  constructor <;> intros <;> first | rfl | exact Or.inl rfl

theorem statKey_part {d : Diff} {s : Shard} {minM maxM : Nat} {r} (h : statPuts (statsOf d s minM maxM) = some r)
    (e) (he : e ∈ r) : ∃ m ∈ d.msgs, ∃ a, e.1 = (s, d.router.partition m.2.src m.2.dst, maxM, a) := by
  rw [statPuts_mem h] at he
  obtain ⟨p, a, c, rfl, hc⟩ := he
  have hu : Uniq (statsOf d s minM maxM).counts := counts_uniq _ _ _ uniq_nil
  have hg := get_of_mem _ hu _ _ hc
  have hcount := counts_fold (fun m : Nat × Msg => (d.router.partition m.2.src m.2.dst, m.2.dst)) d.msgs [] (p, .std a)
  have hpos := counts_pos (fun m : Nat × Msg => (d.router.partition m.2.src m.2.dst, m.2.dst)) d.msgs []
    (by simp [Table.get]) (p, .std a)
  simp only [statsOf] at hg
  rw [hg] at hcount hpos
  simp only [Table.get, Option.getD_some, Option.getD_none, Nat.zero_add] at hcount
  have hc0 : c ≠ 0 := fun h0 => hpos (by rw [h0])
  have hne : (d.msgs.filter (fun m => decide ((d.router.partition m.2.src m.2.dst, m.2.dst) = (p, IntAddr.std a)))) ≠ [] := by
    intro h0; rw [h0] at hcount; simp at hcount; exact hc0 hcount
  obtain ⟨m, hm⟩ := List.exists_mem_of_ne_nil _ hne
  simp only [List.mem_filter, dec_iff, Prod.mk.injEq] at hm
  exact ⟨m, hm.1, a, by simp [statsOf, hm.2.1]⟩

theorem grown_step {db mid db' : DB} {parts : List Part} {tops : List Shard} (hg : Grown db mid parts tops) (x : Call)
    (hx : x.New db parts tops) (hr : x.run mid = some db') : Grown db db' parts tops := by
  obtain ⟨d, s, n, h, minM, maxM, c⟩ := x
  obtain ⟨ho, hunc, hpos, hedge, hlt, hkeys, hpart⟩ := hx
  simp only at ho hunc hpos hedge hlt hkeys hpart
  unfold Call.run at hr
  simp only at hr
  unfold apply at hr
  split at hr
  · cases hr
  · simp only [Option.some.injEq] at hr; subst hr; exact hg
  · rename_i tx hpr
    simp only [Option.some.injEq] at hr
    obtain ⟨h0, _, hb, hbt⟩ := prepare_ready hpr
    obtain ⟨_, hmsgs, hst, htail, hinfo⟩ := buildTx_fields hbt
    obtain ⟨g1, g2, g3, g4, g5, g6⟩ := hg
    subst hr
    constructor
    · exact g1
    · exact g2
    · intro q s' k
      by_cases hm : ∃ m ∈ d.msgs, (q, s', k) = (d.router.partition m.2.src m.2.dst, s, m.1)
      · obtain ⟨m, hm, heq⟩ := hm
        simp only [Prod.mk.injEq] at heq
        obtain ⟨rfl, rfl, rfl⟩ := heq
        right
        refine ⟨hpart m hm, ?_, hkeys m hm⟩
        rcases hunc with ⟨p, hp, _⟩ | ⟨hn, hs⟩
        · left
          refine ⟨p, hp, ?_⟩
          rw [← g1] at hp
          exact belowPointer_false hb ho hp m hm
        · exact Or.inr ⟨hn, hs⟩
      · have : get (mid.write tx).msgs (q, s', k) = get mid.msgs (q, s', k) := by
          apply get_putAll_not
          intro e he
          rw [hmsgs] at he
          obtain ⟨m, hm', rfl⟩ := List.mem_map.mp he
          intro heq
          exact hm ⟨m, hm', heq.symm⟩
        rw [this]; exact g3 q s' k
    · intro q s' k a
      by_cases hm : ∃ e ∈ tx.stats, e.1 = (s', q, k, a)
      · obtain ⟨e, he, heq⟩ := hm
        obtain ⟨m, hm, a', he'⟩ := statKey_part hst e he
        rw [he'] at heq
        simp only [Prod.mk.injEq] at heq
        obtain ⟨rfl, rfl, rfl, rfl⟩ := heq
        exact Or.inr ⟨hpart m hm, hunc, hpos, hlt, hedge⟩
      · have : get (mid.write tx).stats (s', q, k, a) = get mid.stats (s', q, k, a) := by
          apply get_putAll_not
          intro e he heq
          exact hm ⟨e, he, heq⟩
        rw [this]; exact g4 q s' k a
    · intro s' k
      simp only [DB.write, htail, get_put]
      by_cases hk : (s', k) = (s, maxM)
      · simp only [Prod.mk.injEq] at hk
        obtain ⟨rfl, rfl⟩ := hk
        exact Or.inr ⟨hunc, Nat.le_of_lt hlt⟩
      · have : ¬ ((s', k) = (s, (statsOf d s minM maxM).maxMessage)) := hk
        rw [if_neg this]; exact g5 s' k
    · intro s' m
      simp only [DB.write, hinfo, get_put]
      by_cases hk : (s', m) = (s, n)
      · rw [if_pos hk]
        right
        refine ⟨?_, _, rfl, ?_⟩
        · rw [hk]
          rcases g6 s n with g | ⟨g, _⟩
          · rw [← g, h0]
          · exact g
        · simp only [Prod.mk.injEq] at hk
          obtain ⟨rfl, _⟩ := hk
          exact hunc
      · rw [if_neg hk]
        exact g6 s' m

theorem grown_all {db mid db' : DB} {parts : List Part} {tops : List Shard} (hg : Grown db mid parts tops) (xs : List Call)
    (hx : ∀ x ∈ xs, x.New db parts tops) (hr : callAll mid xs = some db') : Grown db db' parts tops := by
  induction xs generalizing mid with
  | nil => simp only [callAll, Option.some.injEq] at hr; subst hr; exact hg
  | cons x xs ih =>
    unfold callAll at hr
    split at hr
    · cases hr
    · rename_i m hm
      exact ih (grown_step hg x (hx x (by simp)) hm) (fun y hy => hx y (by simp [hy])) hr

/-- Clearing the uncommitted state returns the queue exactly to what it was before any number of diffs were applied on
top of the last commit. -/
theorem clear_undoes_applies (db db' : DB) (parts : List Part) (tops : List Shard) (xs : List Call)
    (hp : PtrsOk db) (hk : KeysOk db) (hc : Clean db parts tops) (hparts : parts ≠ [])
    (hx : ∀ x ∈ xs, x.New db parts tops) (hr : callAll db xs = some db') (hl : Linked db') :
    SameDb (clear db' parts tops) db := by
  have hg := grown_all (grown_refl db parts tops) xs hx hr
  obtain ⟨g1, g2, g3, g4, g5, g6⟩ := hg
  have hp' : PtrsOk db' := ⟨by rw [g1]; exact hp.uniq, by rw [g1]; exact hp.below⟩
  have hun := fun s k => uncommitted_congr g1 tops s k
  constructor
  · rintro ⟨q, s, k⟩
    by_cases hkm : k ≤ keyMax
    · obtain ⟨c1, c2⟩ := clear_messages db' hp' parts tops q s k hkm
      by_cases hu : q ∈ parts ∧ Uncommitted db' tops s k
      · rw [c1 hu, hc.msgs q s k ((hun s k).mp hu.2)]
      · rw [c2 hu]
        rcases g3 q s k with g | ⟨g, gu, _⟩
        · exact g
        · exact absurd ⟨g, (hun s k).mpr gu⟩ hu
    · have e1 : get db.msgs (q, s, k) = none := by
        cases hx' : get db.msgs (q, s, k) with
        | none => rfl
        | some v => exact absurd (hk.msgs _ _ _ _ hx') hkm
      have e2 : get db'.msgs (q, s, k) = none := by
        rcases g3 q s k with g | ⟨_, _, g⟩
        · rw [g, e1]
        · exact absurd g hkm
      rw [e1, clear, delete_msgs, e2]
      split <;> rfl
  · rintro ⟨s, q, k, a⟩
    by_cases hkm : k < keyMax
    · obtain ⟨c1, c2⟩ := clear_statistics db' hp' parts tops q s k a hkm
      by_cases hu : q ∈ parts ∧ Uncommitted db' tops s k
      · rw [hc.stats q s k a ((hun s k).mp hu.2)]
        rcases g4 q s k a with g | ⟨g, gu, h0, _, he⟩
        · rw [hc.stats q s k a ((hun s k).mp hu.2)] at g
          rw [clear, delete_stats, g]
          split <;> rfl
        · exact c1 hu h0 (by rw [g1]; exact he)
      · rw [c2 hu]
        rcases g4 q s k a with g | ⟨g, gu, _⟩
        · exact g
        · exact absurd ⟨g, (hun s k).mpr gu⟩ hu
    · have e1 : get db.stats (s, q, k, a) = none := by
        cases hx' : get db.stats (s, q, k, a) with
        | none => rfl
        | some v => exact absurd (hk.stats _ _ _ _ _ hx') hkm
      have e2 : get db'.stats (s, q, k, a) = none := by
        rcases g4 q s k a with g | ⟨_, _, _, g, _⟩
        · rw [g, e1]
        · exact absurd g hkm
      rw [e1, clear, delete_stats, e2]
      split <;> rfl
  · rintro ⟨s, k⟩
    by_cases hkm : k ≤ keyMax
    · obtain ⟨c1, c2⟩ := clear_tails db' hp' parts tops s k hkm
      by_cases hu : parts ≠ [] ∧ Uncommitted db' tops s k
      · rw [c1 hu, hc.tails s k ((hun s k).mp hu.2)]
      · rw [c2 hu]
        rcases g5 s k with g | ⟨gu, _⟩
        · exact g
        · exact absurd ⟨hparts, (hun s k).mpr gu⟩ hu
    · have e1 : get db.tails (s, k) = none := by
        cases hx' : get db.tails (s, k) with
        | none => rfl
        | some v => exact absurd (hk.tails _ _ _ hx') hkm
      have e2 : get db'.tails (s, k) = none := by
        rcases g5 s k with g | ⟨_, g⟩
        · rw [g, e1]
        · exact absurd g hkm
      rw [e1, clear, delete_tails, e2]
      split <;> rfl
  · rintro ⟨s, n⟩
    rcases g6 s n with g | ⟨g, i, hi, hu⟩
    · cases hx' : get db'.infos (s, n) with
      | none =>
        rw [clear, delete_infos, hx', ← g, hx']
        split <;> rfl
      | some i =>
        obtain ⟨_, c2⟩ := clear_diffs db' hp' hl parts tops s n i hx'
        rw [c2]
        · rw [← g, hx']
        · rintro ⟨_, hu⟩
          rw [g] at hx'
          exact hc.infos _ _ _ hx' ((hun _ _).mp hu)
    · obtain ⟨c1, _⟩ := clear_diffs db' hp' hl parts tops s n i hi
      rw [c1 ⟨hparts, (hun _ _).mpr hu⟩, g]
  · intro s
    rw [(clear_pointers db' parts tops).1, g1]
  · rw [(clear_pointers db' parts tops).2, g2]

theorem lastApplied_congr {a b : DB} (h : Same a.infos b.infos) (s : Shard) : lastApplied a s = lastApplied b s := by
  have ha := lastApplied_spec a s
  have hb := lastApplied_spec b s
  cases hx : lastApplied a s with
  | none =>
    rw [hx] at ha
    cases hy : lastApplied b s with
    | none => rfl
    | some m =>
      rw [hy] at hb
      simp only at ha hb
      have := ha m hb.1
      rw [h] at this
      rw [this] at hb
      simp at hb
  | some m =>
    rw [hx] at ha
    simp only at ha
    cases hy : lastApplied b s with
    | none =>
      rw [hy] at hb
      simp only at hb
      have := hb m ha.1
      rw [← h] at this
      rw [this] at ha
      simp at ha
    | some m' =>
      rw [hy] at hb
      simp only at hb
      have h1 := ha.2.2 m' hb.1 (by rw [h]; exact hb.2.1)
      have h2 := hb.2.2 m ha.1 (by rw [← h]; exact ha.2.1)
      congr 1; omega

theorem prepare_congr {a b : DB} (h : SameDb a b) (d : Diff) (s : Shard) (n hash : Nat) (st : Stats) (c : Option Zone) :
    prepare a d s n hash st c = prepare b d s n hash st c := by
  have hg : ∀ m z, getInfo a s m z = getInfo b s m z := by
    intro m z
    unfold getInfo
    rw [h.infos (s, m), h.ptrs s]
  have hb : belowPointer a s d = belowPointer b s d := by
    unfold belowPointer
    rw [h.ptrs s]
  have hs : seqCheck a s n c = seqCheck b s n c := by
    unfold seqCheck
    simp only [lastApplied_congr h.infos, hg]
  unfold prepare
  rw [hg, hs, hb]

theorem same_putAll {κ ν : Type} [DecidableEq κ] {a b : Table κ ν} (h : Same a b) (l : List (κ × ν)) :
    Same (putAll a l) (putAll b l) := by
  induction l generalizing a b with
  | nil => exact h
  | cons e l ih =>
    apply ih
    intro k
    rw [get_put, get_put, h k]

theorem write_congr {a b : DB} (h : SameDb a b) (tx : Tx) : SameDb (a.write tx) (b.write tx) := by
  obtain ⟨h1, h2, h3, h4, h5, h6⟩ := h
  refine ⟨same_putAll h1 _, same_putAll h2 _, ?_, ?_, h5, h6⟩
  · intro k; simp only [DB.write, get_put, h3 k]
  · intro k; simp only [DB.write, get_put, h4 k]

theorem callAll_congr {a b a' : DB} (h : SameDb a b) (xs : List Call) (hr : callAll a xs = some a') :
    ∃ b', callAll b xs = some b' ∧ SameDb a' b' := by
  induction xs generalizing a b with
  | nil => simp only [callAll, Option.some.injEq] at hr; subst hr; exact ⟨b, rfl, h⟩
  | cons x xs ih =>
    unfold callAll at hr ⊢
    have hc := prepare_congr h x.d x.s x.n x.h (statsOf x.d x.s x.minM x.maxM) x.c
    unfold Call.run apply at hr ⊢
    rw [← hc]
    cases hp : prepare a x.d x.s x.n x.h (statsOf x.d x.s x.minM x.maxM) x.c with
    | error => rw [hp] at hr; simp at hr
    | already => rw [hp] at hr; exact ih h hr
    | ready tx => rw [hp] at hr; exact ih (write_congr h tx) hr

theorem sameDb_symm {a b : DB} (h : SameDb a b) : SameDb b a := by
  obtain ⟨h1, h2, h3, h4, h5, h6⟩ := h
  exact ⟨fun k => (h1 k).symm, fun k => (h2 k).symm, fun k => (h3 k).symm, fun k => (h4 k).symm, fun k => (h5 k).symm,
    h6.symm⟩

/-- After clearing, the same diffs can be applied again, with the same result. -/
theorem reapply_after_clear (db db' : DB) (parts : List Part) (tops : List Shard) (xs : List Call)
    (hp : PtrsOk db) (hk : KeysOk db) (hc : Clean db parts tops) (hparts : parts ≠ [])
    (hx : ∀ x ∈ xs, x.New db parts tops) (hr : callAll db xs = some db') (hl : Linked db') :
    ∃ db'', callAll (clear db' parts tops) xs = some db'' ∧ SameDb db'' db' := by
  have h := clear_undoes_applies db db' parts tops xs hp hk hc hparts hx hr hl
  obtain ⟨b, hb, hs⟩ := callAll_congr (sameDb_symm h) xs hr
  exact ⟨b, hb, sameDb_symm hs⟩

end Tycho.Queue
