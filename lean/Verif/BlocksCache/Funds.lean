import Verif.BlocksCache.Kept
/-! The top shard blocks for the next master block, and the funds reported with them. -/
namespace Tycho.BlocksCache
open Tycho.Table
open Tycho.Table (get)

/-- The own blocks of shard `s` that were stored and whose funds were not reported yet, after one more operation. -/
def unreported1 (s : Nat) (c : Cache) (D : List Block) : Op → List Block
  | .collated b => match (c.storeCollated b).2 with
    | .ok _ false => if b.id.shard = s then D ++ [b] else D
    | _ => D
  | .takeTops n shs => if s ∈ (c.takeTops n shs).2.map (·.id.shard) then [] else D
  | .resetTops => []
  | _ => D

/-- The same over a history. -/
def unreportedFrom (s : Nat) (c : Cache) (D : List Block) : List Op → List Block
  | [] => D
  | o :: os => unreportedFrom s (step c o) (unreported1 s c D o) os

/-- The own blocks of shard `s` whose funds were not reported since the start or the last reset. -/
def unreported (s z : Nat) (ops : List Op) : List Block := unreportedFrom s (Cache.init z) [] ops

theorem unreportedFrom_append (s : Nat) (c : Cache) (D : List Block) (a b : List Op) :
    unreportedFrom s c D (a ++ b) = unreportedFrom s (a.foldl step c) (unreportedFrom s c D a) b := by
  induction a generalizing c D with
  | nil => rfl
  | cons o a ih => simp [unreportedFrom, ih]

theorem unreported_snoc (s z : Nat) (ops : List Op) (o : Op) :
    unreported s z (ops ++ [o]) = unreported1 s (run z ops) (unreported s z ops) o := by
  unfold unreported; rw [unreportedFrom_append]; rfl

/-- The total fees and created amount of some blocks. -/
def total (D : List Block) : Nat × Nat := ((D.map (·.fees)).sum, (D.map (·.created)).sum)

/-- The value flow of the last of some blocks (nothing when there is none). -/
def lastFlow (D : List Block) : Nat := match D.getLast? with
  | some b => b.flow
  | none => 0

/-- This node collated the cached block: it is an own candidate, or was collated after it came from the chain. -/
def Entry.Own (e : Entry) : Prop := e.kind ≠ .received false

theorem own_iff (e : Entry) : e.Own ↔ e.hasInfo = true := by
  unfold Entry.Own Entry.hasInfo
  cases e.kind with
  | collated st r => simp
  | received c => cases c <;> simp

/-- A cached block that counts as own was stored as a candidate by this node. -/
theorem own_was_stored (z : Nat) (ops : List Op) (hw : ∀ o ∈ ops, o.Wf) (k : Nat × Nat) (e : Entry)
    (h : get (run z ops).blocks k = some e) (ho : e.Own) :
    ∃ pre b post, ops = pre ++ .collated b :: post ∧ b.id = e.id := by
  refine hist_ind (P := fun ops => ∀ k e, get (run z ops).blocks k = some e → e.Own →
    ∃ pre b post, ops = pre ++ .collated b :: post ∧ b.id = e.id) z ?_ ?_ ops hw k e h ho
  · simp [run, Cache.init, Table.get]
  · intro ops o _ _ hI ih k e hg ho
    rw [run_snoc] at hg
    have lift : ∀ i, (∃ pre b post, ops = pre ++ Op.collated b :: post ∧ b.id = i) →
        ∃ pre b post, ops ++ [o] = pre ++ Op.collated b :: post ∧ b.id = i := by
      rintro i ⟨pre, b, post, h1, h2⟩
      exact ⟨pre, b, post ++ [o], by rw [h1]; simp, h2⟩
    rcases step_blocks hI o k e hg with hs | ⟨b, h1, h2, h3, h4⟩ | ⟨b, e0, cl, h1, h2, h3, h4, h5, h6⟩ |
      ⟨b, h1, h2, h3, h4, h5⟩ | ⟨b, e0, st, r, h1, h2, h3, h4, h5, h6, h7⟩ | ⟨i, v, e0, st, r, h1, h2, h3, h4, h5, h6⟩
    · exact lift _ (ih k e hs ho)
    · exact ⟨ops, b, [], by rw [h1], by rw [h4]; rfl⟩
    · exact ⟨ops, b, [], by rw [h1], by rw [h6]; exact h5.symm⟩
    · subst h5; exact absurd rfl ho
    · subst h7
      exact lift _ (ih k e0 h4 (by unfold Entry.Own; rw [h5]; simp))
    · subst h6
      exact lift _ (ih k e0 h3 (by unfold Entry.Own; rw [h4]; simp))

/-- What the top block of a shard for the master block `n` is. -/
def IsTop (c : Cache) (n s : Nat) (e : Entry) : Prop :=
  get c.blocks (s, e.id.seqno) = some e ∧ e.ref = n ∧ e.Own ∧
    ∀ m x, get c.blocks (s, m) = some x → x.ref = n → x.Own → m ≤ e.id.seqno

theorem topOf_some {c : Cache} (h : Inv c) {n s m : Nat} (ht : c.topOf n s = some m) :
    ∃ e, get c.blocks (s, m) = some e ∧ e.id.key = (s, m) ∧ IsTop c n s e := by
  unfold Cache.topOf at ht
  rw [List.max?_eq_some_iff] at ht
  obtain ⟨h1, h2⟩ := ht
  obtain ⟨x, hx, rfl⟩ := List.mem_map.mp h1
  obtain ⟨hx1, hx2⟩ := List.mem_filter.mp hx
  simp only [Bool.and_eq_true, decide_eq_true_eq] at hx2
  have hg : get c.blocks (s, x.1.2) = some x.2 := by
    refine get_of_mem _ h.ub _ _ ?_
    rw [← hx2.1]; exact hx1
  have hk := h.keyed _ _ hg
  have hq : x.2.id.seqno = x.1.2 := congrArg Prod.snd hk
  refine ⟨x.2, hg, hk, ?_, hx2.2.1, (own_iff _).mpr hx2.2.2, ?_⟩
  · rw [hq]; exact hg
  · intro m y hy hr hi
    rw [hq]
    apply h2
    refine List.mem_map.mpr ⟨((s, m), y), List.mem_filter.mpr ⟨mem_of_get _ _ _ hy, ?_⟩, rfl⟩
    simp [hr, (own_iff y).mp hi]

theorem topOf_none {c : Cache} {n s : Nat} (ht : c.topOf n s = none) (m : Nat) (x : Entry)
    (hx : get c.blocks (s, m) = some x) : ¬ (x.ref = n ∧ x.Own) := by
  unfold Cache.topOf at ht
  rw [List.max?_eq_none_iff, List.map_eq_nil_iff, List.filter_eq_nil_iff] at ht
  have := ht ((s, m), x) (mem_of_get _ _ _ hx)
  rw [own_iff]
  simpa using this

theorem takeTop_cases {c : Cache} (h : Inv c) (n s : Nat) :
    ((c.takeTop n s) = (c, none) ∧ ∀ e, ¬ IsTop c n s e) ∨
    ∃ e, IsTop c n s e ∧ e.id.shard = s ∧
      c.takeTop n s = ({ c with flow := upd c.flow s 0, funds := upd c.funds s (0, 0) },
        some (TopDescr.mk e.id (c.flow s) (c.funds s))) := by
  unfold Cache.takeTop
  cases ht : c.topOf n s with
  | none =>
    left
    refine ⟨rfl, ?_⟩
    rintro e ⟨h1, h2, h3, _⟩
    exact topOf_none ht _ _ h1 ⟨h2, h3⟩
  | some m =>
    right
    obtain ⟨e, he, hk, htop⟩ := topOf_some h ht
    refine ⟨e, htop, congrArg Prod.fst hk, ?_⟩
    simp only [he]

/-- All shards. -/
theorem takeTops_spec {c : Cache} (h : Inv c) (n : Nat) (shs : List Nat) (hn : shs.Nodup) :
    ((c.takeTops n shs).2.map (·.id.shard)).Sublist shs ∧
    (∀ d ∈ (c.takeTops n shs).2, ∃ e, IsTop c n d.id.shard e ∧ e.id = d.id ∧ d.flow = c.flow d.id.shard ∧
      d.funds = c.funds d.id.shard) ∧
    (∀ s ∈ shs, ∀ e, IsTop c n s e → s ∈ (c.takeTops n shs).2.map (·.id.shard)) ∧
    (∀ s, (c.takeTops n shs).1.funds s = if s ∈ (c.takeTops n shs).2.map (·.id.shard) then (0, 0) else c.funds s) ∧
    (∀ s, (c.takeTops n shs).1.flow s = if s ∈ (c.takeTops n shs).2.map (·.id.shard) then 0 else c.flow s) := by
  induction shs generalizing c with
  | nil => simp [Cache.takeTops]
  | cons s shs ih =>
    rw [List.nodup_cons] at hn
    have hTT : c.takeTops n (s :: shs) = (((c.takeTop n s).1.takeTops n shs).1,
      (c.takeTop n s).2.toList ++ ((c.takeTop n s).1.takeTops n shs).2) := rfl
    rcases takeTop_cases h n s with ⟨ht, hno⟩ | ⟨e, htop, hs, ht⟩
    · rw [ht] at hTT
      rw [hTT]
      obtain ⟨i1, i2, i3, i4, i5⟩ := ih h hn.2
      simp only [Option.toList_none, List.nil_append]
      refine ⟨i1.trans (List.sublist_cons_self _ _), i2, ?_, i4, i5⟩
      intro x hx e he
      rcases List.mem_cons.mp hx with rfl | hx
      · exact absurd he (hno e)
      · exact i3 x hx e he
    · rw [ht] at hTT
      rw [hTT]
      have hI2 := inv_funds h (upd c.flow s 0) (upd c.funds s (0, 0))
      obtain ⟨i1, i2, i3, i4, i5⟩ := ih hI2 hn.2
      generalize hr : Cache.takeTops { c with flow := upd c.flow s 0, funds := upd c.funds s (0, 0) } n shs = r
      rw [hr] at i1 i2 i3 i4 i5
      simp only [Option.toList_some, List.singleton_append, List.map_cons, hs]
      refine ⟨i1.cons_cons s, ?_, ?_, ?_, ?_⟩
      · intro d hd
        rcases List.mem_cons.mp hd with rfl | hd
        · simp only [hs]; exact ⟨e, htop, by simp⟩
        · obtain ⟨x, h1, h2, h3, h4⟩ := i2 d hd
          have hne : d.id.shard ≠ s := by
            intro he
            exact hn.1 (he ▸ i1.subset (List.mem_map_of_mem (f := fun d => d.id.shard) hd))
          refine ⟨x, h1, h2, ?_, ?_⟩
          · rw [h3]; simp [upd, hne]
          · rw [h4]; simp [upd, hne]
      · intro x hx y hy
        rcases List.mem_cons.mp hx with rfl | hx
        · simp
        · exact List.mem_cons_of_mem _ (i3 x hx y hy)
      · intro x
        rw [i4 x]
        by_cases hxs : x = s
        · subst hxs; simp [upd]
        · simp [upd, hxs]
      · intro x
        rw [i5 x]
        by_cases hxs : x = s
        · subst hxs; simp [upd]
        · simp [upd, hxs]

theorem setGc_funds (c : Cache) (ks : List (Nat × Nat)) : (c.setGc ks).funds = c.funds ∧ (c.setGc ks).flow = c.flow := by
  unfold Cache.setGc
  induction ks generalizing c with
  | nil => simp
  | cons k ks ih =>
    simp only [List.foldl_cons]
    obtain ⟨h1, h2⟩ := ih (c.setGc1 k)
    rw [h1, h2]
    unfold Cache.setGc1
    split <;> simp

theorem removeNext_funds (c : Cache) (ks : List (Nat × Nat)) :
    (c.removeNext ks).funds = c.funds ∧ (c.removeNext ks).flow = c.flow := by
  unfold Cache.removeNext
  induction ks generalizing c with
  | nil => simp
  | cons k ks ih =>
    simp only [List.foldl_cons]
    obtain ⟨h1, h2⟩ := ih (c.removeNext1 k)
    rw [h1, h2]
    exact ⟨rfl, rfl⟩

theorem total_snoc (D : List Block) (b : Block) :
    total (D ++ [b]) = ((total D).1 + b.fees, (total D).2 + b.created) := by
  simp [total]

theorem lastFlow_snoc (D : List Block) (b : Block) : lastFlow (D ++ [b]) = b.flow := by simp [lastFlow]

/-- What is assumed additionally: the shards of a request are distinct. -/
def DistinctShards : Op → Prop
  | .takeTops _ shs => shs.Nodup
  | _ => True

theorem funds_step {c : Cache} (h : Inv c) (o : Op) (ho : DistinctShards o) (s : Nat) (hs : s ≠ 0) (D : List Block)
    (hf : c.funds s = total D ∧ c.flow s = lastFlow D) :
    (step c o).funds s = total (unreported1 s c D o) ∧ (step c o).flow s = lastFlow (unreported1 s c D o) := by
  cases o with
  | collated b =>
    simp only [step, unreported1]
    have key : ∀ cc : Cache, cc.funds s = total D ∧ cc.flow s = lastFlow D →
        (cc.onCollated b).funds s = total (if b.id.shard = s then D ++ [b] else D) ∧
        (cc.onCollated b).flow s = lastFlow (if b.id.shard = s then D ++ [b] else D) := by
      intro cc hcc
      unfold Cache.onCollated
      by_cases hb : b.id.shard = s
      · have : b.id.shard ≠ 0 := by rw [hb]; exact hs
        rw [if_neg this, if_pos hb, total_snoc, lastFlow_snoc]
        simp [upd, hb, hcc.1]
      · rw [if_neg hb]
        split
        · exact hcc
        · have : s ≠ b.id.shard := fun h => hb h.symm
          simp [upd, this, hcc.1, hcc.2]
    unfold Cache.storeCollated Cache.putCollated
    simp only
    split
    · split
      · split
        · exact hf
        · exact key _ hf
      · exact hf
    · exact key _ hf
  | received b =>
    simp only [step, unreported1]
    rcases received_cases h b with ⟨_, _, h3⟩ | ⟨_, _, _, h4, h5, _⟩
    · rw [h3]; exact hf
    · rw [h4, h5]; exact hf
  | validation i v =>
    simp only [step, unreported1]
    unfold Cache.storeValidation
    split
    · exact hf
    · split
      · exact hf
      · split
        · exact hf
        · split <;> exact hf
  | pop f g =>
    simp only [step, unreported1]
    rcases popFront_cases h f with ⟨hp, _⟩ | ⟨n, x, _, _, _, _, hp⟩
    · rw [hp]; exact hf
    · rw [hp]
      unfold Cache.afterPop
      simp only
      split
      · rw [(setGc_funds _ _).1, (setGc_funds _ _).2]; exact hf
      · exact hf
  | commit i d =>
    simp only [step, unreported1]
    rcases commit_cases c i d with ⟨_, hp⟩ | ⟨x, _, hp⟩
    · rw [hp]; exact hf
    · rw [hp]
      simp only [Cache.gc]
      rw [(setGc_funds _ _).1, (setGc_funds _ _).2]; exact hf
  | gc => exact hf
  | removeNext ks =>
    simp only [step, unreported1]
    rw [(removeNext_funds _ _).1, (removeNext_funds _ _).2]; exact hf
  | takeTops n shs =>
    simp only [step, unreported1]
    obtain ⟨_, _, _, h4, h5⟩ := takeTops_spec h n shs ho
    rw [h4 s, h5 s]
    split
    · exact ⟨rfl, rfl⟩
    · exact hf
  | resetTops => exact ⟨rfl, rfl⟩

theorem funds_run (z : Nat) (ops : List Op) (hw : ∀ o ∈ ops, o.Wf) (hd : ∀ o ∈ ops, DistinctShards o) (s : Nat)
    (hs : s ≠ 0) : (run z ops).funds s = total (unreported s z ops) ∧
      (run z ops).flow s = lastFlow (unreported s z ops) := by
  have := hist_ind (P := fun ops => (∀ o ∈ ops, DistinctShards o) → (run z ops).funds s = total (unreported s z ops) ∧
      (run z ops).flow s = lastFlow (unreported s z ops)) z ?_ ?_ ops hw
  · exact this hd
  · intro _; exact ⟨rfl, rfl⟩
  · intro ops o _ ho hI ih hd
    rw [run_snoc, unreported_snoc]
    exact funds_step hI o (hd o (by simp)) s hs _ (ih (fun o ho => hd o (by simp [ho])))

/-- The top shard blocks reported for the next master block: at most one per shard, in the order of the request; a shard
is reported exactly when a cached block of it that this node collated is referenced by that master block; the block
reported is the highest such one; and the funds reported with it are those of all own blocks of the shard stored since
the funds of that shard were last reported or reset, each counted once, with the value flow of the last of them. -/
theorem top_shards_exact (z : Nat) (ops : List Op) (hw : ∀ o ∈ ops, o.Wf) (hd : ∀ o ∈ ops, DistinctShards o)
    (n : Nat) (shs : List Nat) (h0 : ∀ s ∈ shs, s ≠ 0) (hn : shs.Nodup) :
    (((run z ops).takeTops n shs).2.map (·.id.shard)).Sublist shs ∧
    (∀ s ∈ shs, s ∈ ((run z ops).takeTops n shs).2.map (·.id.shard) ↔
      ∃ m e, get (run z ops).blocks (s, m) = some e ∧ e.ref = n ∧ e.Own) ∧
    ∀ d ∈ ((run z ops).takeTops n shs).2,
      (∃ e, IsTop (run z ops) n d.id.shard e ∧ e.id = d.id) ∧
      (∃ pre b post, ops = pre ++ .collated b :: post ∧ b.id = d.id) ∧
      d.funds = total (unreported d.id.shard z ops) ∧ d.flow = lastFlow (unreported d.id.shard z ops) := by
  have hI := inv_run z ops hw
  obtain ⟨h1, h2, h3, _, _⟩ := takeTops_spec hI n shs hn
  refine ⟨h1, ?_, ?_⟩
  · intro s hs
    constructor
    · intro hm
      obtain ⟨d, hd, rfl⟩ := List.mem_map.mp hm
      obtain ⟨e, he, _⟩ := h2 d hd
      exact ⟨_, e, he.1, he.2.1, he.2.2.1⟩
    · rintro ⟨m, e, h4, h5, h6⟩
      rcases takeTop_cases hI n s with ⟨ht, hno⟩ | ⟨x, htop, _, _⟩
      · exfalso
        cases ht2 : (run z ops).topOf n s with
        | none => exact topOf_none ht2 m e h4 ⟨h5, h6⟩
        | some m2 =>
          obtain ⟨y, _, _, hy⟩ := topOf_some hI ht2
          exact hno y hy
      · exact h3 s hs x htop
  · intro d hd2
    obtain ⟨e, he, h4, h5, h6⟩ := h2 d hd2
    have hs0 : d.id.shard ≠ 0 := h0 _ (h1.subset (List.mem_map_of_mem (f := fun d => d.id.shard) hd2))
    obtain ⟨h7, h8⟩ := funds_run z ops hw hd d.id.shard hs0
    exact ⟨⟨e, he, h4⟩, h4 ▸ own_was_stored z ops hw _ e he.1 he.2.2.1, by rw [h6, h7], by rw [h5, h8]⟩

end Tycho.BlocksCache
