import Verif.QueueFill.Lemmas

/-! Each way writes the entries of the specification. -/
namespace Tycho.QueueFill
open Tycho.Bytes Tycho.Table Tycho.QueueKey Tycho.QueueDiffTl

variable {Cell : Type}

/-- The message of a cell; junk for other cells. -/
def mi (ext : Ext Cell) (c : Cell) : IntMsg :=
  match ext.parse c with
  | .int m => m
  | _ => ⟨.var 0 [], .var 0 [], 0⟩

/-- Account of an address; junk for variable addresses. -/
def ra : IAddr → Addr
  | .std _ a => a
  | .var _ _ => ⟨0, []⟩

theorem mi_of (ext : Ext Cell) (c : Cell) (s t : Option (List Bool)) (src dst : Addr) (lt : Nat)
    (h : ext.parse c = .int ⟨.std s src, .std t dst, lt⟩) : mi ext c = ⟨.std s src, .std t dst, lt⟩ := by
  simp [mi, h]

/-- `f` gives the route of each message of `cells`. -/
def RouteFn (ext : Ext Cell) (d : Diff) (cells : List Cell) (f : IntMsg → Nat) : Prop :=
  ∀ c ∈ cells, ∀ s t src dst lt, ext.parse c = .int ⟨.std s src, .std t dst, lt⟩ →
    ∀ p, RouteTo d src dst p ↔ f ⟨.std s src, .std t dst, lt⟩ = p

/-- A put for a message. -/
def putOf (ext : Ext Cell) (shard : Shard) (f : IntMsg → Nat) (c : Cell) : MsgKey × List Nat :=
  (⟨f (mi ext c), shard, ⟨(mi ext c).lt, ext.hash c⟩⟩, msgValue ext (mi ext c).dst c)

theorem mem_puts (ext : Ext Cell) (e : Diff × List Cell) (f : IntMsg → Nat) (hf : RouteFn ext e.1 e.2 f)
    (hm : ∀ c ∈ e.2, ∃ src dst t lt, IsMsg ext c src dst t lt) (x : MsgKey × List Nat) :
    x ∈ e.2.map (putOf ext e.1.shard f) ↔ MsgEntry ext e x.1 x.2 := by
  rw [List.mem_map]
  constructor
  · rintro ⟨c, hc, rfl⟩
    obtain ⟨src, dst, t, lt, s, hp⟩ := hm c hc
    refine ⟨c, hc, src, dst, t, lt, ⟨s, hp⟩, ?_, rfl, ?_, ?_⟩
    · rw [hf c hc s t src dst lt hp]; simp [putOf, mi_of ext c _ _ _ _ _ hp]
    · simp [putOf, mi_of ext c _ _ _ _ _ hp]
    · simp [putOf, mi_of ext c _ _ _ _ _ hp, msgValue, IAddr.workchain]
  · rintro ⟨c, hc, src, dst, t, lt, ⟨s, hp⟩, hr, hs, hk, hv⟩
    refine ⟨c, hc, ?_⟩
    rw [hf c hc s t src dst lt hp] at hr
    obtain ⟨⟨p, sh, k⟩, v⟩ := x
    dsimp only at hr hs hk hv
    subst hs hk hv
    simp [putOf, mi_of ext c _ _ _ _ _ hp, hr, msgValue, IAddr.workchain]

theorem count_goes (ext : Ext Cell) (e : Diff × List Cell) (f : IntMsg → Nat) (hf : RouteFn ext e.1 e.2 f)
    (hm : ∀ c ∈ e.2, ∃ src dst t lt, IsMsg ext c src dst t lt) (p : Nat) (a : Addr) :
    cnt (e.2.map (fun c => (f (mi ext c), ra (mi ext c).dst))) (p, a) = countTo ext e p a := by
  unfold countTo
  rw [cnt, List.countP_map]
  apply List.countP_congr
  intro c hc
  obtain ⟨src, dst, t, lt, s, hp⟩ := hm c hc
  simp only [Function.comp, mi_of ext c _ _ _ _ _ hp, ra, Prod.mk.injEq, decide_eq_true_eq]
  constructor
  · rintro ⟨h1, rfl⟩
    exact ⟨src, t, lt, ⟨s, hp⟩, (hf c hc s t src dst lt hp p).2 h1⟩
  · rintro ⟨src', t', lt', ⟨s', hp'⟩, hr⟩
    rw [hp] at hp'
    simp only [Parsed.int.injEq, IntMsg.mk.injEq, IAddr.std.injEq] at hp'
    obtain ⟨⟨rfl, rfl⟩, ⟨rfl, rfl⟩, rfl⟩ := hp'
    exact ⟨(hf c hc _ _ _ _ _ hp p).1 hr, rfl⟩

theorem count_wc (ext : Ext Cell) (e : Diff × List Cell)
    (hm : ∀ c ∈ e.2, ∃ src dst t lt, IsMsg ext c src dst t lt) (s : Shard) :
    cnt (e.2.map (fun c => newFull (mi ext c).dst.workchain)) s =
      if s.pfx = 9223372036854775808 then countWc ext e s.workchain else 0 := by
  split
  · rename_i hs
    unfold countWc
    rw [cnt, List.countP_map]
    apply List.countP_congr
    intro c hc
    obtain ⟨src, dst, t, lt, s', hp⟩ := hm c hc
    simp only [Function.comp, mi_of ext c _ _ _ _ _ hp, decide_eq_true_eq, IAddr.workchain, newFull]
    constructor
    · intro h; rw [← h]; exact ⟨src, dst, t, lt, ⟨s', hp⟩, rfl⟩
    · rintro ⟨src', dst', t', lt', ⟨s'', hp'⟩, h⟩
      rw [hp] at hp'
      simp only [Parsed.int.injEq, IntMsg.mk.injEq, IAddr.std.injEq] at hp'
      obtain ⟨⟨rfl, rfl⟩, ⟨rfl, rfl⟩, rfl⟩ := hp'
      cases s; simp_all
  · rename_i hs
    rw [cnt, List.countP_eq_zero]
    intro x hx hxs
    obtain ⟨c, _, rfl⟩ := List.mem_map.1 hx
    simp only [decide_eq_true_eq] at hxs
    exact hs (by rw [← hxs]; rfl)

/-! ### Permuting the messages of a diff -/

theorem msgEntry_perm (ext : Ext Cell) (d : Diff) (l l' : List Cell) (h : l.Perm l') (k : MsgKey) (v : List Nat) :
    MsgEntry ext (d, l) k v ↔ MsgEntry ext (d, l') k v := by
  unfold MsgEntry; simp only [h.mem_iff]

theorem countTo_perm (ext : Ext Cell) (d : Diff) (l l' : List Cell) (h : l.Perm l') (p : Nat) (a : Addr) :
    countTo ext (d, l) p a = countTo ext (d, l') p a := h.countP_eq _

theorem countWc_perm (ext : Ext Cell) (d : Diff) (l l' : List Cell) (h : l.Perm l') (wc : Int) :
    countWc ext (d, l) wc = countWc ext (d, l') wc := h.countP_eq _

theorem statEntry_perm (ext : Ext Cell) (d : Diff) (l l' : List Cell) (h : l.Perm l') (k : StatKey) (n : Nat) :
    StatEntry ext (d, l) k n ↔ StatEntry ext (d, l') k n := by
  unfold StatEntry; rw [countTo_perm ext d l l' h]

theorem infoOf_perm (ext : Ext Cell) (d : Diff) (l l' : List Cell) (h : l.Perm l') (i : Info)
    (hi : InfoOf ext (d, l) i) : InfoOf ext (d, l') i :=
  { hi with counts := fun s n => by rw [hi.counts s n, countWc_perm ext d l l' h] }

/-! ### A batch for some diffs -/

/-- The batch has exactly the entries of the diffs. -/
structure BatchFor (ext : Ext Cell) (ds : List (Diff × List Cell)) (b : Batch) : Prop where
  msgs : ∀ x, x ∈ b.msgs ↔ ∃ e ∈ ds, MsgEntry ext e x.1 x.2
  stats : ∀ x, x ∈ b.stats ↔ ∃ e ∈ ds, StatEntry ext e x.1 x.2
  tails : b.tails = ds.map (fun e => (⟨e.1.shard, e.1.maxMessage⟩, e.1.seqno))
  infos : List.Forall₂ (fun e x => x.1 = ⟨e.1.shard, e.1.seqno⟩ ∧ InfoOf ext e x.2) ds b.infos

theorem batchFor_perm (ext : Ext Cell) (d : Diff) (l l' : List Cell) (h : l.Perm l') (b : Batch)
    (hb : BatchFor ext [(d, l)] b) : BatchFor ext [(d, l')] b := by
  refine ⟨?_, ?_, hb.tails, ?_⟩
  · intro x; rw [hb.msgs]; simp [msgEntry_perm ext d l l' h]
  · intro x; rw [hb.stats]; simp [statEntry_perm ext d l l' h]
  · have := hb.infos
    generalize b.infos = m at this ⊢
    cases this with
    | cons h1 h2 => exact .cons ⟨h1.1, infoOf_perm ext d l l' h _ h1.2⟩ (by cases h2; exact .nil)

theorem msgEntry_fun (ext : Ext Cell) (ds : List (Diff × List Cell)) (hf : Fair ext ds) (e e' : Diff × List Cell)
    (he : e ∈ ds) (he' : e' ∈ ds) (k : MsgKey) (v v' : List Nat) (h : MsgEntry ext e k v)
    (h' : MsgEntry ext e' k v') : v = v' := by
  obtain ⟨c, hc, src, dst, t, lt, ⟨s, hp⟩, _, _, hk, hv⟩ := h
  obtain ⟨c', hc', src', dst', t', lt', ⟨s', hp'⟩, _, _, hk', hv'⟩ := h'
  have hcc : c = c' := by
    apply hf.hash e he e' he' c hc c' hc'
    rw [hk] at hk'; simpa using congrArg Key.hash hk'
  subst hcc
  rw [hp] at hp'
  simp only [Parsed.int.injEq, IntMsg.mk.injEq, IAddr.std.injEq] at hp'
  obtain ⟨⟨rfl, rfl⟩, ⟨rfl, rfl⟩, rfl⟩ := hp'
  rw [hv, hv']

theorem nodup_inj {α β : Type} (f : α → β) (l : List α) (h : (l.map f).Nodup) (x y : α) (hx : x ∈ l) (hy : y ∈ l)
    (hxy : f x = f y) : x = y := by
  induction l with
  | nil => simp at hx
  | cons a l ih =>
    rw [List.map_cons, List.nodup_cons] at h
    rcases List.mem_cons.1 hx with h1 | h1 <;> rcases List.mem_cons.1 hy with h2 | h2
    · rw [h1, h2]
    · subst h1; exact absurd (List.mem_map.2 ⟨y, h2, hxy.symm⟩) h.1
    · subst h2; exact absurd (List.mem_map.2 ⟨x, h1, hxy⟩) h.1
    · exact ih h.2 h1 h2

theorem statEntry_fun (ext : Ext Cell) (ds : List (Diff × List Cell)) (hf : Fair ext ds) (e e' : Diff × List Cell)
    (he : e ∈ ds) (he' : e' ∈ ds) (k : StatKey) (n n' : Nat) (h : StatEntry ext e k n)
    (h' : StatEntry ext e' k n') : n = n' := by
  have : e = e' := by
    refine nodup_inj (fun e : Diff × List Cell => (e.1.shard, e.1.maxMessage)) ds hf.tails e e' he he' ?_
    rw [← h.1, ← h'.1, ← h.2.1, ← h'.2.1]
  subst this
  rw [h.2.2.1, h'.2.2.1]

theorem forall2_mem_right {α β : Type} (R : α → β → Prop) (l : List α) (m : List β) (h : List.Forall₂ R l m)
    (y : β) (hy : y ∈ m) : ∃ x ∈ l, R x y := by
  induction h with
  | nil => simp at hy
  | cons h1 _ ih =>
    rcases List.mem_cons.1 hy with rfl | hy
    · exact ⟨_, by simp, h1⟩
    · obtain ⟨x, hx, hr⟩ := ih hy; exact ⟨x, by simp [hx], hr⟩

theorem forall2_mem_left {α β : Type} (R : α → β → Prop) (l : List α) (m : List β) (h : List.Forall₂ R l m)
    (x : α) (hx : x ∈ l) : ∃ y ∈ m, R x y := by
  induction h with
  | nil => simp at hx
  | cons h1 _ ih =>
    rcases List.mem_cons.1 hx with rfl | hx
    · exact ⟨_, by simp, h1⟩
    · obtain ⟨y, hy, hr⟩ := ih hx; exact ⟨y, by simp [hy], hr⟩

theorem filled_of_batch (ext : Ext Cell) (ds : List (Diff × List Cell)) (b : Batch) (hf : Fair ext ds)
    (hb : BatchFor ext ds b) (db : Db) : Filled ext ds db (db.write b) := by
  have hinfoKeys : b.infos.map (·.1) = ds.map (fun e => (⟨e.1.shard, e.1.seqno⟩ : InfoKey)) := by
    have := hb.infos
    generalize b.infos = m at this
    clear hb hf
    induction this with
    | nil => rfl
    | cons h1 _ ih => simp [h1.1, ih]
  have hinfoNodup : (b.infos.map (·.1)).Nodup := by
    rw [hinfoKeys]
    have h := hf.infos
    rw [List.Nodup, List.pairwise_map] at h ⊢
    exact h.imp (fun h h' => h (by simp only [InfoKey.mk.injEq] at h'; rw [h'.1, h'.2]))
  refine ⟨?_, ?_, ?_, ?_, ?_, ?_, ?_, ?_⟩
  · intro e he k v h
    refine get_putAll_fun db.msgs b.msgs ?_ (k, v) ((hb.msgs _).2 ⟨e, he, h⟩)
    intro x hx y hy hxy
    obtain ⟨e1, h1, h1'⟩ := (hb.msgs x).1 hx
    obtain ⟨e2, h2, h2'⟩ := (hb.msgs y).1 hy
    rw [← hxy] at h2'
    exact msgEntry_fun ext ds hf e1 e2 h1 h2 x.1 _ _ h1' h2'
  · intro k h
    refine get_putAll_not db.msgs b.msgs k ?_
    intro x hx hk
    obtain ⟨e, he, h'⟩ := (hb.msgs x).1 hx
    rw [hk] at h'
    exact h e he _ h'
  · intro e he k n h
    refine get_putAll_fun db.stats b.stats ?_ (k, n) ((hb.stats _).2 ⟨e, he, h⟩)
    intro x hx y hy hxy
    obtain ⟨e1, h1, h1'⟩ := (hb.stats x).1 hx
    obtain ⟨e2, h2, h2'⟩ := (hb.stats y).1 hy
    rw [← hxy] at h2'
    exact statEntry_fun ext ds hf e1 e2 h1 h2 x.1 _ _ h1' h2'
  · intro k h
    refine get_putAll_not db.stats b.stats k ?_
    intro x hx hk
    obtain ⟨e, he, h'⟩ := (hb.stats x).1 hx
    rw [hk] at h'
    exact h e he _ h'
  · intro e he
    refine get_putAll_fun db.tails b.tails ?_ (⟨e.1.shard, e.1.maxMessage⟩, e.1.seqno)
      (by rw [hb.tails]; exact List.mem_map.2 ⟨e, he, rfl⟩)
    rw [hb.tails]
    intro x hx y hy hxy
    obtain ⟨e1, h1, rfl⟩ := List.mem_map.1 hx
    obtain ⟨e2, h2, rfl⟩ := List.mem_map.1 hy
    simp only [TailKey.mk.injEq] at hxy
    have : e1 = e2 := nodup_inj (fun e : Diff × List Cell => (e.1.shard, e.1.maxMessage)) ds hf.tails e1 e2 h1 h2 (by rw [hxy.1, hxy.2])
    rw [this]
  · intro k h
    refine get_putAll_not db.tails b.tails k ?_
    rw [hb.tails]
    intro x hx hk
    obtain ⟨e1, h1, rfl⟩ := List.mem_map.1 hx
    exact h e1 h1 hk.symm
  · intro e he
    obtain ⟨y, hy, hk, hi⟩ := forall2_mem_left _ _ _ hb.infos e he
    refine ⟨y.2, ?_, hi⟩
    rw [← hk]
    exact get_putAll_mem db.infos b.infos hinfoNodup y hy
  · intro k h
    refine get_putAll_not db.infos b.infos k ?_
    intro x hx hk
    obtain ⟨e, he, h1, _⟩ := forall2_mem_right _ _ _ hb.infos x hx
    exact h e he (by rw [← hk, h1])

/-! ### Statistics of the first two ways -/

theorem statsLoop_eq (r : Router) (ms : List (Key × Enq Cell)) (s : Table (Nat × IAddr) Nat) (c : Table Shard Nat) :
    statsLoop r ms s c =
      ((ms.map (fun e => (getPartition r (some e.2.info.src) e.2.info.dst, e.2.info.dst))).foldl bump s,
       (ms.map (fun e => newFull e.2.info.dst.workchain)).foldl bump c) := by
  induction ms generalizing s c with
  | nil => rfl
  | cons e ms ih => rw [statsLoop, ih]; rfl

theorem addStatistics_eq (shard : Shard) (max : Key) (l : List ((Nat × IAddr) × Nat))
    (h : ∀ x ∈ l, ∃ t a, x.1.2 = .std t a) :
    addStatistics shard max l = some (l.map (fun x => (⟨shard, x.1.1, max, ra x.1.2⟩, x.2))) := by
  induction l with
  | nil => rfl
  | cons x l ih =>
    obtain ⟨t, a, hx⟩ := h x (by simp)
    rw [addStatistics, hx]
    simp only [routerAddr]
    rw [ih (fun y hy => h y (by simp [hy]))]
    simp [hx, ra]

/-- Counting by address with anycast gives the same numbers when it is a function of the account. -/
theorem count_addr (ext : Ext Cell) (e : Diff × List Cell) (hd : DiffFair ext e) (f : IntMsg → Nat)
    (c : Cell) (hc : c ∈ e.2) :
    cnt (e.2.map (fun c => (f (mi ext c), (mi ext c).dst))) (f (mi ext c), (mi ext c).dst) =
    cnt (e.2.map (fun c => (f (mi ext c), ra (mi ext c).dst))) (f (mi ext c), ra (mi ext c).dst) := by
  rw [cnt, cnt, List.countP_map, List.countP_map]
  apply List.countP_congr
  intro c' hc'
  obtain ⟨src, dst, t, lt, s, hp⟩ := hd.isMsg c hc
  obtain ⟨src', dst', t', lt', s', hp'⟩ := hd.isMsg c' hc'
  simp only [Function.comp, mi_of ext c _ _ _ _ _ hp, mi_of ext c' _ _ _ _ _ hp', ra, Prod.mk.injEq,
    IAddr.std.injEq, decide_eq_true_eq]
  constructor
  · rintro ⟨h, _, h'⟩; exact ⟨h, h'⟩
  · rintro ⟨h, rfl⟩
    exact ⟨h, hd.anycast c' hc' c hc _ _ _ _ _ _ _ ⟨s', hp'⟩ ⟨s, hp⟩, rfl⟩

theorem mem_stats (ext : Ext Cell) (e : Diff × List Cell) (hd : DiffFair ext e) (f : IntMsg → Nat)
    (hf : RouteFn ext e.1 e.2 f) (l : List ((Nat × IAddr) × Nat))
    (hl : l.Perm ((e.2.map (fun c => (f (mi ext c), (mi ext c).dst))).foldl bump [])) (x : StatKey × Nat) :
    x ∈ l.map (fun x => ((⟨e.1.shard, x.1.1, e.1.maxMessage, ra x.1.2⟩ : StatKey), x.2)) ↔
      StatEntry ext e x.1 x.2 := by
  rw [List.mem_map]
  have key : ∀ p a n, ((p, a), n) ∈ l ↔ (n = cnt (e.2.map (fun c => (f (mi ext c), (mi ext c).dst))) (p, a) ∧ 0 < n) :=
    fun p a n => by rw [hl.mem_iff, mem_counts]
  constructor
  · rintro ⟨⟨⟨p, a⟩, n⟩, hx, rfl⟩
    obtain ⟨hn, hpos⟩ := (key p a n).1 hx
    refine ⟨rfl, rfl, ?_, hpos⟩
    have : (p, a) ∈ e.2.map (fun c => (f (mi ext c), (mi ext c).dst)) := mem_of_cnt _ _ (hn ▸ hpos)
    obtain ⟨c, hc, h⟩ := List.mem_map.1 this
    simp only [Prod.mk.injEq] at h
    obtain ⟨rfl, rfl⟩ := h
    dsimp only
    rw [hn, count_addr ext e hd f c hc, count_goes ext e f hf hd.isMsg]
  · rintro ⟨h1, h2, h3, h4⟩
    obtain ⟨⟨sh, p, mx, dest⟩, n⟩ := x
    dsimp only at h1 h2 h3 h4
    subst h1 h2
    rw [← count_goes ext e f hf hd.isMsg] at h3
    have : (p, dest) ∈ e.2.map (fun c => (f (mi ext c), ra (mi ext c).dst)) := mem_of_cnt _ _ (h3 ▸ h4)
    obtain ⟨c, hc, h⟩ := List.mem_map.1 this
    simp only [Prod.mk.injEq] at h
    obtain ⟨rfl, rfl⟩ := h
    rw [← count_addr ext e hd f c hc] at h3
    exact ⟨((f (mi ext c), (mi ext c).dst), n), (key _ _ _).2 ⟨h3, h4⟩, rfl⟩

/-- The statistics are about standard addresses. -/
theorem stats_std (ext : Ext Cell) (e : Diff × List Cell) (hd : DiffFair ext e) (f : IntMsg → Nat)
    (l : List ((Nat × IAddr) × Nat))
    (hl : l.Perm ((e.2.map (fun c => (f (mi ext c), (mi ext c).dst))).foldl bump [])) :
    ∀ x ∈ l, ∃ t a, x.1.2 = .std t a := by
  rintro ⟨⟨p, a⟩, n⟩ hx
  rw [hl.mem_iff, mem_counts] at hx
  have : (p, a) ∈ e.2.map (fun c => (f (mi ext c), (mi ext c).dst)) := mem_of_cnt _ _ (hx.1 ▸ hx.2)
  obtain ⟨c, hc, h⟩ := List.mem_map.1 this
  obtain ⟨src, dst, t, lt, s, hp⟩ := hd.isMsg c hc
  rw [mi_of ext c _ _ _ _ _ hp] at h
  simp only [Prod.mk.injEq] at h
  exact ⟨t, dst, h.2.symm⟩

/-- The messages in memory are those of the cells. -/
def MsgsOk (ext : Ext Cell) (ms : List (Key × Enq Cell)) : Prop :=
  ∀ x ∈ ms, ext.parse x.2.cell = .int x.2.info ∧ x.1 = ⟨x.2.info.lt, ext.hash x.2.cell⟩

theorem mi_msgs (ext : Ext Cell) (ms : List (Key × Enq Cell)) (h : MsgsOk ext ms) (x : Key × Enq Cell)
    (hx : x ∈ ms) : mi ext x.2.cell = x.2.info := by
  simp [mi, (h x hx).1]

/-- `prepare_diff` of a diff in memory that matches `d`. -/
theorem prepare_batch (ext : Ext Cell) (o : Order) (ho : o.Ok) (d : Diff) (dm : DiffMsgs Cell)
    (hd : DiffFair ext (d, dm.messages.map (fun x => x.2.cell)))
    (hms : MsgsOk ext dm.messages) (hr : RouterFor dm.router d) (hpt : dm.processedTo = d.processedTo)
    (hsrc : toPartitions (o.routes dm.router.src) = d.partitionsSrc)
    (hdst : toPartitions (o.routes dm.router.dst) = d.partitionsDst) :
    ∃ b, prepareDiff ext o d.shard d.seqno (statsOfDiff dm d.shard d.minMessage d.maxMessage) d.hash dm = some b ∧
      BatchFor ext [(d, dm.messages.map (fun x => x.2.cell))] b ∧ b.pointers = [] := by
  have hf : RouteFn ext d (dm.messages.map (fun x => x.2.cell))
      (fun m => getPartition dm.router (some m.src) m.dst) := by
    intro c hc s t src dst lt hp p
    exact getPartition_iff dm.router d hr s t src dst p
  have hmap : dm.messages.map (fun e => (getPartition dm.router (some e.2.info.src) e.2.info.dst, e.2.info.dst)) =
      (dm.messages.map (fun x => x.2.cell)).map
        (fun c => (getPartition dm.router (some (mi ext c).src) (mi ext c).dst, (mi ext c).dst)) := by
    rw [List.map_map]
    apply List.map_congr_left
    intro x hx
    simp only [Function.comp, mi_msgs ext _ hms x hx]
  have hwc : dm.messages.map (fun e => newFull e.2.info.dst.workchain) =
      (dm.messages.map (fun x => x.2.cell)).map (fun c => newFull (mi ext c).dst.workchain) := by
    rw [List.map_map]
    apply List.map_congr_left
    intro x hx
    simp only [Function.comp, mi_msgs ext _ hms x hx]
  have hputs : addMessages ext d.shard dm.router dm.messages =
      (dm.messages.map (fun x => x.2.cell)).map
        (putOf ext d.shard (fun m => getPartition dm.router (some m.src) m.dst)) := by
    unfold addMessages
    rw [List.map_map]
    apply List.map_congr_left
    intro x hx
    simp only [Function.comp, putOf, mi_msgs ext _ hms x hx]
    rw [(hms x hx).2]
  have hl := ho.stats (statsOfDiff dm d.shard d.minMessage d.maxMessage).stats
  have hst : (statsOfDiff dm d.shard d.minMessage d.maxMessage).stats =
      ((dm.messages.map (fun x => x.2.cell)).map
        (fun c => (getPartition dm.router (some (mi ext c).src) (mi ext c).dst, (mi ext c).dst))).foldl bump [] := by
    rw [← hmap]; simp [statsOfDiff, statsLoop_eq]
  rw [hst] at hl
  unfold prepareDiff
  rw [hst, addStatistics_eq _ _ _ (stats_std ext (d, dm.messages.map (fun x => x.2.cell)) hd
    (fun m => getPartition dm.router (some m.src) m.dst) _ hl)]
  refine ⟨_, rfl, ⟨?_, ?_, rfl, ?_⟩, rfl⟩
  · intro x
    dsimp only
    rw [hputs, mem_puts ext (d, dm.messages.map (fun x => x.2.cell)) _ hf hd.isMsg]
    simp
  · intro x
    have := mem_stats ext (d, dm.messages.map (fun x => x.2.cell)) hd _ hf _ hl x
    simp only [List.mem_singleton, exists_eq_left]
    rw [← this]
    exact Iff.rfl
  · refine .cons ⟨rfl, ?_⟩ .nil
    refine ⟨rfl, rfl, rfl, hpt, hsrc, hdst, rfl, ?_⟩
    intro s n
    have : (statsOfDiff dm d.shard d.minMessage d.maxMessage).counts =
        ((dm.messages.map (fun x => x.2.cell)).map (fun c => newFull (mi ext c).dst.workchain)).foldl bump [] := by
      rw [← hwc]; simp [statsOfDiff, statsLoop_eq]
    dsimp only
    rw [this, get_counts, count_wc ext (d, dm.messages.map (fun x => x.2.cell)) hd.isMsg]
    split
    · rename_i h; simp [h]
    · rename_i h; simp only [h, false_and, iff_false]; omega

/-! ### The collator's own diff -/

/-- The state of a collator: messages by key, the router's maps have each address once, the messages are
those of the cells. -/
structure CollatedOk (ext : Ext Cell) (b : Collated Cell) : Prop where
  msgs : MsgsOk ext b.dm.messages
  sorted : b.dm.messages.Pairwise (fun x y => x.1.Lt y.1)
  src : Uniq b.dm.router.src
  dst : Uniq b.dm.router.dst

/-- Cells of the messages of a collated block. -/
def Collated.cells (b : Collated Cell) : List Cell := b.dm.messages.map (fun x => x.2.cell)

theorem routerFor_own (qext : QueueDiffTl.Ext) (o : Order) (ho : o.Ok) (ext : Ext Cell) (b : Collated Cell)
    (hb : CollatedOk ext b) : RouterFor b.dm.router (ownDiff qext o b) := by
  constructor
  · intro a p
    show _ ↔ Listed (toPartitions (o.routes b.dm.router.src)) a p
    rw [listed_toPartitions, (ho.routes _).mem_iff, mem_iff_get _ hb.src]
  · intro a p
    show _ ↔ Listed (toPartitions (o.routes b.dm.router.dst)) a p
    rw [listed_toPartitions, (ho.routes _).mem_iff, mem_iff_get _ hb.dst]

theorem own_batch (ext : Ext Cell) (qext : QueueDiffTl.Ext) (o : Order) (ho : o.Ok) (b : Collated Cell)
    (hb : CollatedOk ext b) (hd : DiffFair ext (ownDiff qext o b, b.cells)) :
    ∃ x, ownBatch ext qext o b = some x ∧ BatchFor ext [(ownDiff qext o b, b.cells)] x ∧ x.pointers = [] :=
  prepare_batch ext o ho (ownDiff qext o b) b.dm hd hb.msgs (routerFor_own qext o ho ext b hb) rfl rfl rfl

/-! ### Another node -/

theorem mem_insMsg_self (k : Key) (v : Enq Cell) (l : List (Key × Enq Cell)) (h : ∀ x ∈ l, x.1 ≠ k) :
    (insMsg k v l).Perm ((k, v) :: l) := by
  induction l with
  | nil => exact List.Perm.refl _
  | cons e l ih =>
    unfold insMsg
    split
    · exact List.Perm.refl _
    · rw [if_neg (fun h' => h e (by simp) h'.symm)]
      exact ((ih (fun x hx => h x (by simp [hx]))).cons e).trans (List.Perm.swap _ _ _)

/-- Messages collected from the out messages description, when each hash is found. -/
theorem collect_ok (ext : Ext Cell) (lookup : List Nat → Option Cell) (hs : List (List Nat)) (cells : List Cell)
    (acc : List (Key × Enq Cell))
    (h2 : List.Forall₂ (fun h c => lookup h = some c) hs cells)
    (hm : ∀ c ∈ cells, ∃ m, ext.parse c = .int m)
    (hacc : MsgsOk ext acc) (hdis : ((acc.map (fun x => ext.hash x.2.cell)) ++ cells.map ext.hash).Nodup) :
    ∃ ms, collectMsgs ext lookup hs acc = some ms ∧ MsgsOk ext ms ∧
      (ms.map (fun x => x.2.cell)).Perm (acc.map (fun x => x.2.cell) ++ cells) := by
  induction h2 generalizing acc with
  | nil => exact ⟨acc, rfl, hacc, by simp⟩
  | @cons h c hs cells hc h2 ih =>
    obtain ⟨m, hp⟩ := hm c (by simp)
    rw [collectMsgs, hc]
    dsimp only
    rw [hp]
    dsimp only
    have hnew : ∀ x ∈ acc, x.1 ≠ ⟨m.lt, ext.hash c⟩ := by
      intro x hx he
      rw [(hacc x hx).2] at he
      have he' : ext.hash x.2.cell = ext.hash c := by simpa using congrArg Key.hash he
      rw [List.nodup_append] at hdis
      exact hdis.2.2 _ (List.mem_map.2 ⟨x, hx, rfl⟩) _ (by simp) he'
    have hperm := mem_insMsg_self ⟨m.lt, ext.hash c⟩ ⟨m, c⟩ acc hnew
    obtain ⟨ms, h3, h4, h5⟩ := ih (insMsg ⟨m.lt, ext.hash c⟩ ⟨m, c⟩ acc)
      (fun c' hc' => hm c' (by simp [hc']))
      (by
        intro x hx
        rw [hperm.mem_iff, List.mem_cons] at hx
        rcases hx with rfl | hx
        · exact ⟨hp, rfl⟩
        · exact hacc x hx)
      (by
        refine (List.Perm.nodup_iff ?_).1 hdis
        have e1 : (insMsg ⟨m.lt, ext.hash c⟩ ⟨m, c⟩ acc).map (fun x => ext.hash x.2.cell) |>.Perm
            (ext.hash c :: acc.map (fun x => ext.hash x.2.cell)) := hperm.map _
        refine List.Perm.trans ?_ (e1.symm.append_right _)
        simp only [List.map_cons, List.cons_append]
        exact List.perm_middle)
    refine ⟨ms, h3, h4, h5.trans ?_⟩
    have e1 : (insMsg ⟨m.lt, ext.hash c⟩ ⟨m, c⟩ acc).map (fun x => x.2.cell) |>.Perm
        (c :: acc.map (fun x => x.2.cell)) := hperm.map _
    refine (e1.append_right _).trans ?_
    simp only [List.cons_append]
    exact List.perm_middle.symm

theorem toPartitions_convert (ps : List (Nat × List Addr)) (hc : Canon ps) (h1 : OnePartition ps)
    (l : List (Addr × Nat)) (hl : l.Perm (convert ps)) (hu : Uniq (convert ps)) : toPartitions l = ps := by
  refine canon_ext _ _ (canon_toPartitions l) hc ?_
  intro a p
  rw [listed_toPartitions, hl.mem_iff, mem_iff_get _ hu, get_convert_iff ps h1]

theorem uniq_extend (m : Table Addr Nat) (p : Nat × List Addr) (h : Uniq m) : Uniq (extend m p) := by
  unfold extend
  generalize p.2 = l
  induction l generalizing m with
  | nil => exact h
  | cons a l ih => exact ih _ (uniq_put _ _ _ h)

theorem uniq_convert (ps : List (Nat × List Addr)) : Uniq (convert ps) := by
  unfold convert
  have : ∀ m, Uniq m → Uniq (ps.foldl extend m) := by
    induction ps with
    | nil => exact fun m h => h
    | cons p ps ih => exact fun m h => ih _ (uniq_extend _ _ h)
  exact this [] uniq_nil

theorem diffFair_perm (ext : Ext Cell) (d : Diff) (l l' : List Cell) (h : l.Perm l') (hd : DiffFair ext (d, l)) :
    DiffFair ext (d, l') :=
  ⟨fun c hc => hd.isMsg c (h.mem_iff.2 hc),
   fun c hc c' hc' => hd.anycast c (h.mem_iff.2 hc) c' (h.mem_iff.2 hc'),
   ((h.map ext.hash).nodup_iff).1 hd.distinct, hd.src, hd.dst⟩

theorem other_batch (ext : Ext Cell) (o : Order) (ho : o.Ok) (d : Diff) (lookup : List Nat → Option Cell)
    (cells : List Cell) (hd : DiffFair ext (d, cells))
    (h2 : List.Forall₂ (fun h c => lookup h = some c) d.messages cells)
    (hs : Canon d.partitionsSrc) (ht : Canon d.partitionsDst) :
    ∃ x, otherBatch ext o d lookup = some x ∧ BatchFor ext [(d, cells)] x ∧ x.pointers = [] := by
  obtain ⟨ms, h3, h4, h5⟩ := collect_ok ext lookup d.messages cells [] h2
    (fun c hc => by obtain ⟨src, dst, t, lt, s, hp⟩ := hd.isMsg c hc; exact ⟨_, hp⟩)
    (fun x hx => by simp at hx) (by simpa using hd.distinct)
  simp only [List.map_nil, List.nil_append] at h5
  unfold otherBatch fromQueueDiff
  rw [h3]
  dsimp only
  obtain ⟨x, hx, hb, hp⟩ := prepare_batch ext o ho d ⟨ms, d.processedTo, withPartitions d.partitionsSrc d.partitionsDst⟩
    (diffFair_perm ext d cells _ h5.symm hd) h4 (routerFor_with d hd.src hd.dst) rfl
    (toPartitions_convert _ hs hd.src _ (ho.routes _) (uniq_convert _))
    (toPartitions_convert _ ht hd.dst _ (ho.routes _) (uniq_convert _))
  exact ⟨x, hx, batchFor_perm ext d _ _ h5 x hb, hp⟩

/-! ### Import -/

/-- The route of the import. -/
def importRoute (d : Diff) (m : IntMsg) : Nat :=
  ((firstPartition d.partitionsDst (ra m.dst)).or (firstPartition d.partitionsSrc (ra m.src))).getD 0

theorem importRoute_fn (ext : Ext Cell) (e : Diff × List Cell) (hd : DiffFair ext e) :
    RouteFn ext e.1 e.2 (importRoute e.1) := by
  intro c hc s t src dst lt hp p
  exact route_iff e.1 _ _ src dst p (get_first_iff _ hd.dst dst) (get_first_iff _ hd.src src)

theorem importMsgs_eq (ext : Ext Cell) (d : Diff) (blockShard : Shard) (cells : List Cell)
    (hm : ∀ c ∈ cells, ∃ src dst t lt, IsMsg ext c src dst t lt) (st : Import) (counts : Table Shard Nat) :
    importMsgs ext blockShard d cells st counts = some
      ({ st with
          batch := { st.batch with msgs := st.batch.msgs ++ cells.map (putOf ext blockShard (importRoute d)) }
          stats := (cells.map (fun c => (importRoute d (mi ext c), ra (mi ext c).dst))).foldl bump st.stats },
       (cells.map (fun c => newFull (mi ext c).dst.workchain)).foldl bump counts) := by
  induction cells generalizing st counts with
  | nil => simp [importMsgs]
  | cons c cells ih =>
    obtain ⟨src, dst, t, lt, s, hp⟩ := hm c (by simp)
    have hi := mi_of ext c _ _ _ _ _ hp
    rw [importMsgs]
    have : importMsg ext blockShard d st counts c = some
      ({ st with
          batch := { st.batch with msgs := st.batch.msgs ++ [putOf ext blockShard (importRoute d) c] }
          stats := bump st.stats (importRoute d (mi ext c), ra (mi ext c).dst) },
       bump counts (newFull (mi ext c).dst.workchain)) := by
      unfold importMsg
      rw [hp]
      simp only [putOf, hi, importRoute, ra, msgValue, IAddr.workchain]
    rw [this]
    dsimp only
    rw [ih (fun c hc => hm c (by simp [hc]))]
    simp

theorem importDiff_eq (ext : Ext Cell) (o : Order) (blockShard : Shard) (st : Import) (e : Diff × List Cell)
    (hm : ∀ c ∈ e.2, ∃ src dst t lt, IsMsg ext c src dst t lt) (hst : st.stats = []) :
    importDiff ext o blockShard st e = some
      { batch :=
          { msgs := st.batch.msgs ++ e.2.map (putOf ext blockShard (importRoute e.1))
            stats := st.batch.stats ++
              (o.importStats ((e.2.map (fun c => (importRoute e.1 (mi ext c), ra (mi ext c).dst))).foldl bump [])).map
                (fun x => (⟨e.1.shard, x.1.1, e.1.maxMessage, x.1.2⟩, x.2))
            tails := st.batch.tails ++ [(⟨e.1.shard, e.1.maxMessage⟩, e.1.seqno)]
            infos := st.batch.infos ++ [(⟨e.1.shard, e.1.seqno⟩,
              { min := e.1.minMessage, max := e.1.maxMessage
                counts := (e.2.map (fun c => newFull (mi ext c).dst.workchain)).foldl bump []
                hash := e.1.hash, processedTo := e.1.processedTo, src := e.1.partitionsSrc
                dst := e.1.partitionsDst, seqno := e.1.seqno })]
            pointers := if st.first then st.batch.pointers
              else st.batch.pointers ++ [(e.1.shard, ⟨e.1.maxMessage, e.1.seqno⟩)] }
        stats := []
        first := true } := by
  unfold importDiff
  rw [importMsgs_eq ext e.1 blockShard e.2 hm]
  simp [hst]

theorem import_loop (ext : Ext Cell) (o : Order) (ho : o.Ok) (blockShard : Shard) (ds : List (Diff × List Cell))
    (hd : ∀ e ∈ ds, DiffFair ext e ∧ e.1.shard = blockShard) (done : List (Diff × List Cell)) (st : Import)
    (hst : st.stats = []) (hb : BatchFor ext done st.batch) :
    ∃ st', importDiffs ext o blockShard ds st = some st' ∧ BatchFor ext (done ++ ds) st'.batch ∧
      (st.first = true → st'.batch.pointers = st.batch.pointers) := by
  induction ds generalizing done st with
  | nil => exact ⟨st, rfl, by simpa using hb, fun _ => rfl⟩
  | cons e ds ih =>
    obtain ⟨he, hsh⟩ := hd e (by simp)
    have hfn := importRoute_fn ext e he
    rw [importDiffs, importDiff_eq ext o blockShard st e he.isMsg hst]
    dsimp only
    have key : ∀ (st1 : Import), st1.stats = [] → st1.first = true →
        st1.batch.msgs = st.batch.msgs ++ e.2.map (putOf ext blockShard (importRoute e.1)) →
        st1.batch.stats = st.batch.stats ++
              (o.importStats ((e.2.map (fun c => (importRoute e.1 (mi ext c), ra (mi ext c).dst))).foldl bump [])).map
                (fun x => (⟨e.1.shard, x.1.1, e.1.maxMessage, x.1.2⟩, x.2)) →
        st1.batch.tails = st.batch.tails ++ [(⟨e.1.shard, e.1.maxMessage⟩, e.1.seqno)] →
        (∃ i, st1.batch.infos = st.batch.infos ++ [(⟨e.1.shard, e.1.seqno⟩, i)] ∧ InfoOf ext e i) →
        ∃ st', importDiffs ext o blockShard ds st1 = some st' ∧ BatchFor ext (done ++ e :: ds) st'.batch ∧
          st'.batch.pointers = st1.batch.pointers := by
      intro st1 h1 hfirst h2 h3 h4 ⟨i, h5, hi⟩
      obtain ⟨st', h6, h7, h8⟩ := ih (fun e he => hd e (by simp [he])) (done ++ [e]) st1 h1 (by
        refine ⟨?_, ?_, ?_, ?_⟩
        · intro x
          rw [h2, List.mem_append, hb.msgs, ← hsh, mem_puts ext e _ hfn he.isMsg]
          constructor
          · rintro (⟨e', h, h'⟩ | h)
            · exact ⟨e', by simp [h], h'⟩
            · exact ⟨e, by simp, h⟩
          · rintro ⟨e', h, h'⟩
            rcases List.mem_append.1 h with h | h
            · exact .inl ⟨e', h, h'⟩
            · simp only [List.mem_singleton] at h; subst h; exact .inr h'
        · intro x
          have hx : x ∈ (o.importStats ((e.2.map (fun c => (importRoute e.1 (mi ext c), ra (mi ext c).dst))).foldl bump [])).map
                (fun x => ((⟨e.1.shard, x.1.1, e.1.maxMessage, x.1.2⟩ : StatKey), x.2)) ↔ StatEntry ext e x.1 x.2 := by
            rw [List.mem_map]
            constructor
            · rintro ⟨⟨⟨p, a⟩, n⟩, hm, rfl⟩
              rw [(ho.importStats _).mem_iff, mem_counts, count_goes ext e _ hfn he.isMsg] at hm
              exact ⟨rfl, rfl, hm.1, hm.2⟩
            · rintro ⟨q1, q2, q3, q4⟩
              obtain ⟨⟨sh, p, mx, dest⟩, n⟩ := x
              dsimp only at q1 q2 q3 q4
              subst q1 q2
              refine ⟨((p, dest), n), ?_, rfl⟩
              rw [(ho.importStats _).mem_iff, mem_counts, count_goes ext e _ hfn he.isMsg]
              exact ⟨q3, q4⟩
          rw [h3, List.mem_append, hb.stats, hx]
          constructor
          · rintro (⟨e', h, h'⟩ | h)
            · exact ⟨e', by simp [h], h'⟩
            · exact ⟨e, by simp, h⟩
          · rintro ⟨e', h, h'⟩
            rcases List.mem_append.1 h with h | h
            · exact .inl ⟨e', h, h'⟩
            · simp only [List.mem_singleton] at h; subst h; exact .inr h'
        · rw [h4, hb.tails]; simp
        · rw [h5]
          exact List.rel_append hb.infos (.cons ⟨rfl, hi⟩ .nil))
      refine ⟨st', h6, by simpa using h7, h8 hfirst⟩
    have hinfo : InfoOf ext e
        { min := e.1.minMessage, max := e.1.maxMessage
          counts := (e.2.map (fun c => newFull (mi ext c).dst.workchain)).foldl bump []
          hash := e.1.hash, processedTo := e.1.processedTo, src := e.1.partitionsSrc
          dst := e.1.partitionsDst, seqno := e.1.seqno } := by
      refine ⟨rfl, rfl, rfl, rfl, rfl, rfl, rfl, ?_⟩
      intro s n
      dsimp only
      rw [get_counts, count_wc ext e he.isMsg]
      split
      · rename_i h; simp [h]
      · rename_i h; simp only [h, false_and, iff_false]; omega
    obtain ⟨st', h1, h2, h3⟩ := key
      { batch :=
          { msgs := st.batch.msgs ++ e.2.map (putOf ext blockShard (importRoute e.1))
            stats := st.batch.stats ++
              (o.importStats ((e.2.map (fun c => (importRoute e.1 (mi ext c), ra (mi ext c).dst))).foldl bump [])).map
                (fun x => (⟨e.1.shard, x.1.1, e.1.maxMessage, x.1.2⟩, x.2))
            tails := st.batch.tails ++ [(⟨e.1.shard, e.1.maxMessage⟩, e.1.seqno)]
            infos := st.batch.infos ++ [(⟨e.1.shard, e.1.seqno⟩,
              { min := e.1.minMessage, max := e.1.maxMessage
                counts := (e.2.map (fun c => newFull (mi ext c).dst.workchain)).foldl bump []
                hash := e.1.hash, processedTo := e.1.processedTo, src := e.1.partitionsSrc
                dst := e.1.partitionsDst, seqno := e.1.seqno })]
            pointers := if st.first then st.batch.pointers
              else st.batch.pointers ++ [(e.1.shard, ⟨e.1.maxMessage, e.1.seqno⟩)] }
        stats := []
        first := true } rfl rfl rfl rfl rfl ⟨_, rfl, hinfo⟩
    refine ⟨st', h1, h2, ?_⟩
    intro hf
    rw [h3, hf]; simp

theorem import_batch (ext : Ext Cell) (o : Order) (ho : o.Ok) (blockShard : Shard) (ds : List (Diff × List Cell))
    (hd : ∀ e ∈ ds, DiffFair ext e ∧ e.1.shard = blockShard) :
    ∃ b, importBatch ext o blockShard ds = some b ∧ BatchFor ext ds b := by
  obtain ⟨st', h1, h2, _⟩ := import_loop ext o ho blockShard ds hd [] ⟨Batch.empty, [], false⟩ rfl
    ⟨by simp [Batch.empty], by simp [Batch.empty], rfl, .nil⟩
  exact ⟨st'.batch, by simp [importBatch, h1], by simpa using h2⟩

end Tycho.QueueFill
