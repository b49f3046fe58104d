import Verif.Queue.Model

/-! Lemmas about the queue model: what a deletion batch and a write batch change. -/
namespace Tycho.Queue
open Tycho.Table

/-- A message key hit by a deletion. -/
def hitMsg (d : Del) (k : Part × Shard × QKey) : Bool :=
  decide (k.1 = d.range.part) && decide (k.2.1 = d.range.shard) && inDel d.range.lo d.range.hi k.2.2
def hitStat (d : Del) (k : Shard × Part × QKey × Dest) : Bool :=
  decide (k.1 = d.range.shard) && decide (k.2.1 = d.range.part) && inDelStat d.range.lo d.range.hi k.2.2.1 k.2.2.2
def hitTail (d : Del) (k : Shard × QKey) : Bool := decide (k.1 = d.range.shard) && inDel d.range.lo d.range.hi k.2
def hitInfo (d : Del) (k : Shard × Nat) : Bool := match d.seqnos with
  | none => false
  | some mm => decide (k.1 = d.range.shard) && inDel mm.1 mm.2 k.2

theorem execDel_msgs (db : DB) (d : Del) (k : Part × Shard × QKey) :
    get (execDel db d).msgs k = if hitMsg d k then none else get db.msgs k :=
  get_del db.msgs (hitMsg d) k
theorem execDel_stats (db : DB) (d : Del) (k : Shard × Part × QKey × Dest) :
    get (execDel db d).stats k = if hitStat d k then none else get db.stats k :=
  get_del db.stats (hitStat d) k
theorem execDel_tails (db : DB) (d : Del) (k : Shard × QKey) :
    get (execDel db d).tails k = if hitTail d k then none else get db.tails k :=
  get_del db.tails (hitTail d) k
theorem execDel_infos (db : DB) (d : Del) (k : Shard × Nat) :
    get (execDel db d).infos k = if hitInfo d k then none else get db.infos k := by
  cases hs : d.seqnos with
  | none => simp [execDel, hitInfo, hs]
  | some mm =>
    have := get_del db.infos (fun k => decide (k.1 = d.range.shard) && inDel mm.1 mm.2 k.2) k
    simpa [execDel, hitInfo, hs] using this
theorem execDel_ptrs (db : DB) (d : Del) : (execDel db d).ptrs = db.ptrs := rfl
theorem execDel_lastMc (db : DB) (d : Del) : (execDel db d).lastMc = db.lastMc := rfl

theorem foldDel {κ ν : Type} (t : DB → κ → Option ν) (hit : Del → κ → Bool)
    (h : ∀ db d k, t (execDel db d) k = if hit d k then none else t db k) (ds : List Del) (db : DB) (k : κ) :
    t (ds.foldl execDel db) k = if ds.any (fun d => hit d k) then none else t db k := by
  induction ds generalizing db with
  | nil => simp
  | cons d ds ih =>
    simp only [List.foldl_cons, ih, h, List.any_cons]
    by_cases h1 : hit d k = true <;> by_cases h2 : (ds.any (fun d => hit d k)) = true <;> simp [h1, h2]

theorem foldDel_ptrs (ds : List Del) (db : DB) : (ds.foldl execDel db).ptrs = db.ptrs := by
  induction ds generalizing db with
  | nil => rfl
  | cons d ds ih => simp only [List.foldl_cons, ih, execDel_ptrs]

theorem foldDel_lastMc (ds : List Del) (db : DB) : (ds.foldl execDel db).lastMc = db.lastMc := by
  induction ds generalizing db with
  | nil => rfl
  | cons d ds ih => simp only [List.foldl_cons, ih, execDel_lastMc]

theorem delete_msgs (db : DB) (rs : List Range) (k) :
    get (delete db rs).msgs k = if (rs.map (planDel db)).any (fun d => hitMsg d k) then none else get db.msgs k :=
  foldDel (fun db k => get db.msgs k) hitMsg execDel_msgs _ _ _
theorem delete_stats (db : DB) (rs : List Range) (k) :
    get (delete db rs).stats k = if (rs.map (planDel db)).any (fun d => hitStat d k) then none else get db.stats k :=
  foldDel (fun db k => get db.stats k) hitStat execDel_stats _ _ _
theorem delete_tails (db : DB) (rs : List Range) (k) :
    get (delete db rs).tails k = if (rs.map (planDel db)).any (fun d => hitTail d k) then none else get db.tails k :=
  foldDel (fun db k => get db.tails k) hitTail execDel_tails _ _ _
theorem delete_infos (db : DB) (rs : List Range) (k) :
    get (delete db rs).infos k = if (rs.map (planDel db)).any (fun d => hitInfo d k) then none else get db.infos k :=
  foldDel (fun db k => get db.infos k) hitInfo execDel_infos _ _ _

theorem inDel_iff (lo hi k : Nat) (h : lo ≤ hi) : inDel lo hi k = true ↔ lo ≤ k ∧ k ≤ hi := by
  simp only [inDel, Bool.or_eq_true, Bool.and_eq_true, decide_eq_true_eq]
  omega

theorem nextValue_of_lt {k : QKey} (h : k < keyMax) : nextValue k = k + 1 := by
  unfold nextValue; rw [if_neg (Nat.ne_of_lt h)]

theorem nextValue_le {k : QKey} (h : k ≤ keyMax) : nextValue k ≤ keyMax := by
  unfold nextValue; split
  · exact Nat.le_refl _
  · rename_i hk; exact Nat.lt_of_le_of_ne h hk

/-! ### tail seqnos -/

theorem foldMinMax (l : List ((Shard × QKey) × Nat)) (a : Nat × Nat) :
    ∃ r, l.foldl (fun acc e => minMaxSeq acc e.2) a = r ∧ r.1 ≤ a.1 ∧ a.2 ≤ r.2 ∧
    (∀ e ∈ l, r.1 ≤ e.2 ∧ e.2 ≤ r.2) ∧ (r.1 = a.1 ∨ ∃ e ∈ l, r.1 = e.2) ∧ (r.2 = a.2 ∨ ∃ e ∈ l, r.2 = e.2) := by
  induction l generalizing a with
  | nil => exact ⟨a, by simp⟩
  | cons x l ih =>
    obtain ⟨r, hr, h1, h2, h3, h4, h5⟩ := ih (minMaxSeq a x.2)
    refine ⟨r, by simpa using hr, ?_⟩
    have e1 : (minMaxSeq a x.2).1 ≤ a.1 ∧ (minMaxSeq a x.2).1 ≤ x.2 ∧
        ((minMaxSeq a x.2).1 = a.1 ∨ (minMaxSeq a x.2).1 = x.2) := by
      simp only [minMaxSeq]; clear h1 h2 h3 h4 h5 hr ih; split <;> omega
    have e2 : a.2 ≤ (minMaxSeq a x.2).2 ∧ x.2 ≤ (minMaxSeq a x.2).2 ∧
        ((minMaxSeq a x.2).2 = a.2 ∨ (minMaxSeq a x.2).2 = x.2) := by
      simp only [minMaxSeq]; clear h1 h2 h3 h4 h5 hr ih e1; split <;> omega
    refine ⟨Nat.le_trans h1 e1.1, Nat.le_trans e2.1 h2, ?_, ?_, ?_⟩
    · intro e he
      rcases List.mem_cons.mp he with rfl | he
      · exact ⟨Nat.le_trans h1 e1.2.1, Nat.le_trans e2.2.1 h2⟩
      · exact h3 e he
    · rcases h4 with h4 | ⟨e, he, h4⟩
      · rcases e1.2.2 with hx | hx
        · left; rw [h4, hx]
        · right; exact ⟨x, by simp, by rw [h4, hx]⟩
      · right; exact ⟨e, by simp [he], h4⟩
    · rcases h5 with h5 | ⟨e, he, h5⟩
      · rcases e2.2.2 with hx | hx
        · left; rw [h5, hx]
        · right; exact ⟨x, by simp, by rw [h5, hx]⟩
      · right; exact ⟨e, by simp [he], h5⟩

/-- A tail stored in the range. -/
def TailIn (db : DB) (r : Range) (k : QKey) (n : Nat) : Prop :=
  ((r.shard, k), n) ∈ db.tails ∧ r.lo ≤ k ∧ k ≤ r.hi

theorem mem_tailFilter (db : DB) (r : Range) (e : (Shard × QKey) × Nat) :
    e ∈ db.tails.filter (fun e => decide (e.1.1 = r.shard) && decide (r.lo ≤ e.1.2) && decide (e.1.2 ≤ r.hi)) ↔
    e.1.1 = r.shard ∧ TailIn db r e.1.2 e.2 := by
  simp only [List.mem_filter, Bool.and_eq_true, decide_eq_true_eq, TailIn]
  constructor
  · rintro ⟨h, ⟨h1, h2⟩, h3⟩
    refine ⟨h1, ?_, h2, h3⟩
    rw [← h1]; exact h
  · rintro ⟨h1, h, h2, h3⟩
    refine ⟨?_, ⟨h1, h2⟩, h3⟩
    rw [← h1] at h; exact h

/-- The seqno bounds contain every tail of the range and are attained, when the seqnos are ordinary. -/
theorem planDel_seqnos (db : DB) (r : Range)
    (hn : ∀ k n, ((r.shard, k), n) ∈ db.tails → 0 < n ∧ n < u32Max) :
    match (planDel db r).seqnos with
    | none => ∀ k n, ¬ TailIn db r k n
    | some mm => (∀ k n, TailIn db r k n → mm.1 ≤ n ∧ n ≤ mm.2) ∧ (∃ k, TailIn db r k mm.1) ∧ (∃ k, TailIn db r k mm.2) := by
  unfold planDel tailSeqnos
  have hF := foldMinMax (db.tails.filter
    (fun e => decide (e.1.1 = r.shard) && decide (r.lo ≤ e.1.2) && decide (e.1.2 ≤ r.hi))) (u32Max, 0)
  have hmem := mem_tailFilter db r
  simp only
  generalize (db.tails.filter
    (fun e => decide (e.1.1 = r.shard) && decide (r.lo ≤ e.1.2) && decide (e.1.2 ≤ r.hi))) = l at *
  obtain ⟨mm, hmm, h1, h2, h3, h4, h5⟩ := hF
  rw [hmm]
  simp only at h1 h2 h4 h5
  have nn : ∀ e ∈ l, 0 < e.2 ∧ e.2 < u32Max := by
    intro e he
    obtain ⟨hs, ht, _⟩ := (hmem e).mp he
    exact hn _ _ ht
  have back : ∀ k n, TailIn db r k n → ((r.shard, k), n) ∈ l := by
    intro k n h; exact (hmem ((r.shard, k), n)).mpr ⟨rfl, h⟩
  split
  · rename_i hnone
    split at hnone
    · simp at hnone
    · rename_i hc
      intro k n h
      have hm := back k n h
      obtain ⟨ha, hb⟩ := h3 _ hm
      obtain ⟨hc1, hc2⟩ := nn _ hm
      simp only at ha hb hc1 hc2
      apply hc
      constructor <;> omega
  · rename_i mm' hsome
    split at hsome
    · rename_i hc
      simp only [Option.some.injEq] at hsome
      subst hsome
      refine ⟨fun k n h => h3 _ (back k n h), ?_, ?_⟩
      · rcases h4 with h4 | ⟨e, he, h4⟩
        · exact absurd h4 hc.1
        · refine ⟨e.1.2, ?_⟩
          rw [h4]; exact ((hmem e).mp he).2
      · rcases h5 with h5 | ⟨e, he, h5⟩
        · exact absurd h5 hc.2
        · refine ⟨e.1.2, ?_⟩
          rw [h5]; exact ((hmem e).mp he).2
    · simp at hsome

/-! ### prepare and write -/

theorem prepare_ready {db : DB} {d : Diff} {s : Shard} {n h : Nat} {st : Stats} {c : Option Zone} {tx : Tx}
    (hp : prepare db d s n h st c = .ready tx) :
    get db.infos (s, n) = none ∧ seqCheck db s n c = none ∧ belowPointer db s d = false ∧
    buildTx s n st h d = some tx := by
  unfold prepare at hp
  split at hp
  · split at hp <;> cases hp
  · rename_i hi
    have hi' : get db.infos (s, n) = none := by
      unfold getInfo at hi
      split at hi
      · rename_i h0; exact h0
      · simp at hi
    split at hp
    · rename_i r hr
      exfalso
      subst hp
      unfold seqCheck at hr
      split at hr
      · cases hr
      · split at hr
        · cases hr
        · split at hr
          · cases hr
          · split at hr
            · cases hr
            · split at hr <;> cases hr
    · rename_i hs
      split at hp
      · cases hp
      · rename_i hb
        split at hp
        · cases hp
        · rename_i tx' ht
          simp only [Prepared.ready.injEq] at hp
          subst hp
          exact ⟨hi', hs, by simpa using hb, ht⟩

theorem buildTx_fields {s : Shard} {n : Nat} {st : Stats} {h : Nat} {d : Diff} {tx : Tx}
    (hb : buildTx s n st h d = some tx) :
    tx.shard = s ∧
    tx.msgs = d.msgs.map (fun m => ((d.router.partition m.2.src m.2.dst, s, m.1), m.2)) ∧
    statPuts st = some tx.stats ∧ tx.tail = ((s, st.maxMessage), n) ∧
    tx.info = ((s, n), { minMessage := st.minMessage, maxMessage := st.maxMessage, hash := h,
                         processedTo := d.processedTo, router := d.router, seqno := n }) := by
  unfold buildTx at hb
  split at hb
  · cases hb
  · rename_i stats hs
    simp only [Option.some.injEq] at hb
    subst hb
    exact ⟨rfl, rfl, hs, rfl, rfl⟩

theorem belowPointer_false {db : DB} {s : Shard} {d : Diff} (h : belowPointer db s d = false) (ho : d.Ordered)
    {p : QKey × Nat} (hp : get db.ptrs s = some p) (m : QKey × Msg) (hm : m ∈ d.msgs) : p.1 < m.1 := by
  unfold belowPointer at h
  rw [hp] at h
  simp only [Diff.minMessage] at h
  unfold Diff.Ordered at ho
  cases hd : d.msgs with
  | nil => rw [hd] at hm; simp at hm
  | cons x l =>
    rw [hd] at h hm ho
    simp only [List.head?_cons, Option.map_some, decide_eq_false_iff_not] at h
    rcases List.mem_cons.mp hm with rfl | hm
    · omega
    · have := (List.pairwise_cons.mp ho).1 m hm
      omega

theorem getInfo_both (db : DB) (s : Shard) (n : Nat) : getInfo db s n .both = get db.infos (s, n) := by
  unfold getInfo
  cases get db.infos (s, n) <;> rfl

theorem commit_some {zs : Nat} {db : DB} {u : Until} {tops : List Top} {parts : List Part} {r : DB × Until}
    (h : commit zs db u tops parts = some r) :
    ∃ mc, tops.find? (fun b => isMc b.shard) = some mc ∧
    ((committedBy db mc = true ∧ r = (db, u)) ∨
     (committedBy db mc = false ∧ ∃ acc, commitTops zs db ⟨[], []⟩ tops = some acc ∧
      r = ({ db with ptrs := putAll db.ptrs acc.ptrs, lastMc := some mc.seqno }, updateUntil u acc.gc parts))) := by
  unfold commit at h
  split at h
  · cases h
  · rename_i mc hmc
    refine ⟨mc, hmc, ?_⟩
    split at h
    · rename_i hc
      simp only [Option.some.injEq] at h
      exact Or.inl ⟨hc, h.symm⟩
    · rename_i hc
      split at h
      · cases h
      · rename_i acc ha
        simp only [Option.some.injEq] at h
        exact Or.inr ⟨by simpa using hc, acc, ha, h.symm⟩

theorem commit_tables {zs : Nat} {db : DB} {u : Until} {tops : List Top} {parts : List Part} {r : DB × Until}
    (h : commit zs db u tops parts = some r) :
    r.1.infos = db.infos ∧ r.1.msgs = db.msgs ∧ r.1.stats = db.stats ∧ r.1.tails = db.tails := by
  obtain ⟨mc, _, ⟨_, rfl⟩ | ⟨_, acc, _, rfl⟩⟩ := commit_some h <;> exact ⟨rfl, rfl, rfl, rfl⟩

/-! ### last applied -/

theorem lastApplied_fold (l : List ((Shard × Nat) × Info)) (acc : Option Nat) :
    (l.foldl (fun acc e => maxSeq acc e.1.2) acc = none ∧ l = [] ∧ acc = none) ∨
    ∃ m, l.foldl (fun acc e => maxSeq acc e.1.2) acc = some m ∧
      (∀ e ∈ l, e.1.2 ≤ m) ∧ (∀ a, acc = some a → a ≤ m) ∧ (acc = some m ∨ ∃ e ∈ l, e.1.2 = m) := by
  induction l generalizing acc with
  | nil => cases acc <;> simp
  | cons x l ih =>
    right
    simp only [List.foldl_cons]
    have hx : ∃ y, maxSeq acc x.1.2 = some y ∧ x.1.2 ≤ y ∧ (∀ a, acc = some a → a ≤ y) ∧ (acc = some y ∨ x.1.2 = y) := by
      cases acc with
      | none => exact ⟨_, rfl, Nat.le_refl _, by simp, Or.inr rfl⟩
      | some a =>
        refine ⟨_, rfl, Nat.le_max_right _ _, ?_, ?_⟩
        · intro b hb; cases hb; exact Nat.le_max_left _ _
        · rcases Nat.le_total a x.1.2 with h | h
          · right; rw [Nat.max_eq_right h]
          · left; rw [Nat.max_eq_left h]
    obtain ⟨y, hy, y1, y2, y3⟩ := hx
    rw [hy]
    rcases ih (some y) with ⟨_, _, h⟩ | ⟨m, hm, h1, h2, h3⟩
    · cases h
    · have hym := h2 y rfl
      refine ⟨m, hm, ?_, fun a ha => Nat.le_trans (y2 a ha) hym, ?_⟩
      · intro e he
        rcases List.mem_cons.mp he with rfl | he
        · exact Nat.le_trans y1 hym
        · exact h1 e he
      · rcases h3 with h3 | ⟨e, he, h3⟩
        · simp only [Option.some.injEq] at h3
          subst h3
          rcases y3 with y3 | y3
          · exact Or.inl y3
          · exact Or.inr ⟨x, by simp, y3⟩
        · exact Or.inr ⟨e, by simp [he], h3⟩

/-- `lastApplied` is the greatest recorded seqno of the shard. -/
theorem lastApplied_spec (db : DB) (s : Shard) :
    match lastApplied db s with
    | none => ∀ n, n < u32Max → get db.infos (s, n) = none
    | some m => m < u32Max ∧ (get db.infos (s, m)).isSome ∧
        ∀ n, n < u32Max → (get db.infos (s, n)).isSome → n ≤ m := by
  have h := lastApplied_fold (db.infos.filter (fun e => decide (e.1.1 = s) && decide (e.1.2 < u32Max))) none
  unfold lastApplied
  have hmem : ∀ n, n < u32Max → ∀ i, get db.infos (s, n) = some i →
      ((s, n), i) ∈ (db.infos.filter (fun e => decide (e.1.1 = s) && decide (e.1.2 < u32Max))) := by
    intro n hn i hi
    have := mem_of_get _ _ _ hi
    simp [List.mem_filter, this, hn]
  rcases h with ⟨hx, h, _⟩ | ⟨m, hx, h1, _, h3⟩
  · rw [hx]
    intro n hn
    cases hg : get db.infos (s, n) with
    | none => rfl
    | some i => have := hmem n hn i hg; rw [h] at this; simp at this
  · rw [hx]
    rcases h3 with h3 | ⟨e, he, h3⟩
    · cases h3
    · simp only [List.mem_filter, Bool.and_eq_true, decide_eq_true_eq] at he
      obtain ⟨he, hs, hu⟩ := he
      refine ⟨by omega, ?_, ?_⟩
      · rw [← h3, ← hs]
        exact get_some_of_mem _ _ e.2 he
      · intro n hn hsome
        obtain ⟨i, hi⟩ := Option.isSome_iff_exists.mp hsome
        exact h1 _ (hmem n hn i hi)

end Tycho.Queue
