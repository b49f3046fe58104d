import Verif.QueueFill.Fill
import Verif.QueueFill.Sort
import Verif.QueueDiffTl.Props
import Verif.QueueKey.Props

/-! The three ways to fill the queue agree; the reset of the router. -/
namespace Tycho.QueueFill
open Tycho.Bytes Tycho.Codec Tycho.Table Tycho.QueueKey Tycho.QueueDiffTl

variable {Cell : Type}

/-- Diffs written one after another, each with its own batch. -/
def writeAll {α : Type} (f : α → Option Batch) : List α → Db → Option Db
  | [], db => some db
  | x :: xs, db =>
    match f x with
    | none => none
    | some b => writeAll f xs (db.write b)

/-! ### Composition -/

theorem filled_nil (ext : Ext Cell) (db : Db) : Filled ext [] db db := by
  constructor <;> simp

theorem filled_append (ext : Ext Cell) (ds ds' : List (Diff × List Cell)) (hf : Fair ext (ds ++ ds')) (a b c : Db)
    (h : Filled ext ds a b) (h' : Filled ext ds' b c) : Filled ext (ds ++ ds') a c := by
  refine ⟨?_, ?_, ?_, ?_, ?_, ?_, ?_, ?_⟩
  · intro e he k v hk
    by_cases hx : ∃ e' ∈ ds', ∃ v', MsgEntry ext e' k v'
    · obtain ⟨e', he', v', hk'⟩ := hx
      rw [h'.msg e' he' k v' hk', msgEntry_fun ext _ hf e' e (by simp [he']) he k v' v hk' hk]
    · have hn : ∀ e' ∈ ds', ∀ v', ¬ MsgEntry ext e' k v' := fun e' he' v' hk' => hx ⟨e', he', v', hk'⟩
      rcases List.mem_append.1 he with he | he
      · rw [h'.msgRest k hn]; exact h.msg e he k v hk
      · exact absurd hk (hn e he v)
  · intro k hk
    rw [h'.msgRest k (fun e he => hk e (by simp [he])), h.msgRest k (fun e he => hk e (by simp [he]))]
  · intro e he k v hk
    by_cases hx : ∃ e' ∈ ds', ∃ v', StatEntry ext e' k v'
    · obtain ⟨e', he', v', hk'⟩ := hx
      rw [h'.stat e' he' k v' hk', statEntry_fun ext _ hf e' e (by simp [he']) he k v' v hk' hk]
    · have hn : ∀ e' ∈ ds', ∀ v', ¬ StatEntry ext e' k v' := fun e' he' v' hk' => hx ⟨e', he', v', hk'⟩
      rcases List.mem_append.1 he with he | he
      · rw [h'.statRest k hn]; exact h.stat e he k v hk
      · exact absurd hk (hn e he v)
  · intro k hk
    rw [h'.statRest k (fun e he => hk e (by simp [he])), h.statRest k (fun e he => hk e (by simp [he]))]
  · intro e he
    rcases List.mem_append.1 he with he' | he'
    · rw [h'.tailRest]
      · exact h.tail e he'
      · intro e2 he2 heq
        simp only [TailKey.mk.injEq] at heq
        have ht := hf.tails
        rw [List.map_append, List.nodup_append] at ht
        exact ht.2.2 _ (List.mem_map.2 ⟨e, he', rfl⟩) _ (List.mem_map.2 ⟨e2, he2, rfl⟩) (by rw [heq.1, heq.2])
    · exact h'.tail e he'
  · intro k hk
    rw [h'.tailRest k (fun e he => hk e (by simp [he])), h.tailRest k (fun e he => hk e (by simp [he]))]
  · intro e he
    rcases List.mem_append.1 he with he' | he'
    · rw [h'.infoRest]
      · exact h.info e he'
      · intro e2 he2 heq
        simp only [InfoKey.mk.injEq] at heq
        have ht := hf.infos
        rw [List.map_append, List.nodup_append] at ht
        exact ht.2.2 _ (List.mem_map.2 ⟨e, he', rfl⟩) _ (List.mem_map.2 ⟨e2, he2, rfl⟩) (by rw [heq.1, heq.2])
    · exact h'.info e he'
  · intro k hk
    rw [h'.infoRest k (fun e he => hk e (by simp [he])), h.infoRest k (fun e he => hk e (by simp [he]))]

/-- The same diffs in another order, each with its messages in another order. -/
def Reordered (ds ds' : List (Diff × List Cell)) : Prop :=
  (∀ e' ∈ ds', ∃ e ∈ ds, e.1 = e'.1 ∧ e.2.Perm e'.2) ∧ (∀ e ∈ ds, ∃ e' ∈ ds', e'.1 = e.1 ∧ e'.2.Perm e.2)

theorem filled_reorder (ext : Ext Cell) (ds ds' : List (Diff × List Cell)) (h : Reordered ds ds') (a b : Db)
    (hf : Filled ext ds a b) : Filled ext ds' a b := by
  refine ⟨?_, ?_, ?_, ?_, ?_, ?_, ?_, ?_⟩
  · rintro ⟨d, l'⟩ he k v hk
    obtain ⟨⟨d', l⟩, h1, h2, h3⟩ := h.1 _ he
    dsimp only at h2 h3; subst h2
    exact hf.msg _ h1 k v ((msgEntry_perm ext d' l l' h3 k v).2 hk)
  · intro k hk
    refine hf.msgRest k ?_
    rintro ⟨d, l⟩ he v hv
    obtain ⟨⟨d', l'⟩, h1, h2, h3⟩ := h.2 _ he
    dsimp only at h2 h3; subst h2
    exact hk _ h1 v ((msgEntry_perm ext d' l' l h3 k v).2 hv)
  · rintro ⟨d, l'⟩ he k v hk
    obtain ⟨⟨d', l⟩, h1, h2, h3⟩ := h.1 _ he
    dsimp only at h2 h3; subst h2
    exact hf.stat _ h1 k v ((statEntry_perm ext d' l l' h3 k v).2 hk)
  · intro k hk
    refine hf.statRest k ?_
    rintro ⟨d, l⟩ he v hv
    obtain ⟨⟨d', l'⟩, h1, h2, h3⟩ := h.2 _ he
    dsimp only at h2 h3; subst h2
    exact hk _ h1 v ((statEntry_perm ext d' l' l h3 k v).2 hv)
  · intro e he
    obtain ⟨e', h1, h2, _⟩ := h.1 _ he
    rw [← h2]; exact hf.tail e' h1
  · intro k hk
    refine hf.tailRest k ?_
    intro e he
    obtain ⟨e', h1, h2, _⟩ := h.2 _ he
    rw [← h2]; exact hk e' h1
  · rintro ⟨d, l'⟩ he
    obtain ⟨⟨d', l⟩, h1, h2, h3⟩ := h.1 _ he
    dsimp only at h2 h3; subst h2
    obtain ⟨i, hi, hi'⟩ := hf.info _ h1
    exact ⟨i, hi, infoOf_perm ext d' l l' h3 i hi'⟩
  · intro k hk
    refine hf.infoRest k ?_
    intro e he
    obtain ⟨e', h1, h2, _⟩ := h.2 _ he
    rw [← h2]; exact hk e' h1

theorem counts_same (ext : Ext Cell) (e : Diff × List Cell) (i j : Info) (hi : InfoOf ext e i) (hj : InfoOf ext e j) :
    i.Same j := by
  refine ⟨by rw [hi.min, hj.min], by rw [hi.max, hj.max], by rw [hi.hash, hj.hash],
    by rw [hi.processedTo, hj.processedTo], by rw [hi.src, hj.src], by rw [hi.dst, hj.dst],
    by rw [hi.seqno, hj.seqno], ?_⟩
  intro s
  have : ∀ n, Table.get i.counts s = some n ↔ Table.get j.counts s = some n :=
    fun n => by rw [hi.counts, hj.counts]
  exact Option.ext this

theorem Info.same_refl (i : Info) : i.Same i := ⟨rfl, rfl, rfl, rfl, rfl, rfl, rfl, fun _ => rfl⟩

/-- What the queue holds is determined by the diffs and what was there before. -/
theorem filled_unique (ext : Ext Cell) (ds : List (Diff × List Cell)) (a b c : Db) (h : Filled ext ds a b)
    (h' : Filled ext ds a c) : SameQueue b c := by
  refine ⟨?_, ?_, ?_, ?_⟩
  · intro k
    by_cases hx : ∃ e ∈ ds, ∃ v, MsgEntry ext e k v
    · obtain ⟨e, he, v, hv⟩ := hx
      rw [h.msg e he k v hv, h'.msg e he k v hv]
    · have hn : ∀ e ∈ ds, ∀ v, ¬ MsgEntry ext e k v := fun e he v hv => hx ⟨e, he, v, hv⟩
      rw [h.msgRest k hn, h'.msgRest k hn]
  · intro k
    by_cases hx : ∃ e ∈ ds, ∃ v, StatEntry ext e k v
    · obtain ⟨e, he, v, hv⟩ := hx
      rw [h.stat e he k v hv, h'.stat e he k v hv]
    · have hn : ∀ e ∈ ds, ∀ v, ¬ StatEntry ext e k v := fun e he v hv => hx ⟨e, he, v, hv⟩
      rw [h.statRest k hn, h'.statRest k hn]
  · intro k
    by_cases hx : ∃ e ∈ ds, k = ⟨e.1.shard, e.1.maxMessage⟩
    · obtain ⟨e, he, rfl⟩ := hx
      rw [h.tail e he, h'.tail e he]
    · have hn : ∀ e ∈ ds, k ≠ ⟨e.1.shard, e.1.maxMessage⟩ := fun e he hk => hx ⟨e, he, hk⟩
      rw [h.tailRest k hn, h'.tailRest k hn]
  · intro k
    by_cases hx : ∃ e ∈ ds, k = ⟨e.1.shard, e.1.seqno⟩
    · obtain ⟨e, he, rfl⟩ := hx
      obtain ⟨i, hi, hi'⟩ := h.info e he
      obtain ⟨j, hj, hj'⟩ := h'.info e he
      exact .inr ⟨i, j, hi, hj, counts_same ext e i j hi' hj'⟩
    · have hn : ∀ e ∈ ds, k ≠ ⟨e.1.shard, e.1.seqno⟩ := fun e he hk => hx ⟨e, he, hk⟩
      rw [h.infoRest k hn, h'.infoRest k hn]
      cases Table.get a.infos k with
      | none => exact .inl ⟨rfl, rfl⟩
      | some i => exact .inr ⟨i, i, rfl, rfl, i.same_refl⟩

theorem fair_sublist (ext : Ext Cell) (ds ds' : List (Diff × List Cell)) (h : Fair ext (ds ++ ds')) :
    Fair ext ds ∧ Fair ext ds' := by
  have ht := h.tails; have hi := h.infos
  rw [List.map_append, List.nodup_append] at ht hi
  exact ⟨⟨fun e he => h.each e (by simp [he]), fun e he e' he' => h.hash e (by simp [he]) e' (by simp [he']), ht.1, hi.1⟩,
    ⟨fun e he => h.each e (by simp [he]), fun e he e' he' => h.hash e (by simp [he]) e' (by simp [he']), ht.2.1, hi.2.1⟩⟩

theorem writeAll_filled {α : Type} (ext : Ext Cell) (f : α → Option Batch) (g : α → Diff × List Cell) (xs : List α)
    (hfair : Fair ext (xs.map g))
    (hx : ∀ x ∈ xs, ∃ b, f x = some b ∧ BatchFor ext [g x] b ∧ b.pointers = []) (db : Db) :
    ∃ db', writeAll f xs db = some db' ∧ Filled ext (xs.map g) db db' ∧ db'.pointers = db.pointers := by
  induction xs generalizing db with
  | nil => exact ⟨db, rfl, filled_nil ext db, rfl⟩
  | cons x xs ih =>
    obtain ⟨b, h1, h2, h3⟩ := hx x (by simp)
    have hsub := fair_sublist ext [g x] (xs.map g) hfair
    obtain ⟨db', h4, h5, h6⟩ := ih hsub.2 (fun y hy => hx y (by simp [hy])) (db.write b)
    refine ⟨db', by rw [writeAll, h1]; exact h4, ?_, ?_⟩
    · exact filled_append ext [g x] (xs.map g) hfair db (db.write b) db' (filled_of_batch ext [g x] b hsub.1 h2 db) h5
    · rw [h6]; simp [Db.write, h3, Table.putAll]

/-! ### The statements -/

/-- Hypotheses on collated blocks of one shard: the collators' states are sound, messages are internal with
standard addresses, destinations with the same account have the same anycast, hashes do not collide, no
two blocks have the same seqno or the same maximal message. -/
structure BlocksOk (ext : Ext Cell) (shard : Shard) (blocks : List (Collated Cell)) : Prop where
  ok : ∀ b ∈ blocks, CollatedOk ext b ∧ b.shard = shard
  isMsg : ∀ b ∈ blocks, ∀ c ∈ b.cells, ∃ src dst t lt, IsMsg ext c src dst t lt
  anycast : ∀ b ∈ blocks, ∀ c ∈ b.cells, ∀ c' ∈ b.cells, ∀ src dst t lt src' t' lt', IsMsg ext c src dst t lt →
    IsMsg ext c' src' dst t' lt' → t = t'
  hash : ∀ b ∈ blocks, ∀ b' ∈ blocks, ∀ c ∈ b.cells, ∀ c' ∈ b'.cells, ext.hash c = ext.hash c' → c = c'
  maxMsg : (blocks.map Collated.maxMsg).Nodup
  seqno : (blocks.map Collated.seqno).Nodup

theorem key_lt_irrefl (k : Key) : ¬ k.Lt k := by
  rintro (h | ⟨_, h⟩)
  · omega
  · exact List.lt_irrefl _ h

theorem cells_distinct (ext : Ext Cell) (b : Collated Cell) (hb : CollatedOk ext b)
    (hh : ∀ c ∈ b.cells, ∀ c' ∈ b.cells, ext.hash c = ext.hash c' → c = c') : (b.cells.map ext.hash).Nodup := by
  unfold Collated.cells at hh ⊢
  rw [List.map_map, List.Nodup, List.pairwise_map]
  refine hb.sorted.imp_of_mem ?_
  intro x y hx hy hlt heq
  simp only [Function.comp] at heq
  have hc := hh _ (List.mem_map.2 ⟨x, hx, rfl⟩) _ (List.mem_map.2 ⟨y, hy, rfl⟩) heq
  have hp := (hb.msgs x hx).1
  have hp' := (hb.msgs y hy).1
  rw [hc, hp'] at hp
  simp only [Parsed.int.injEq] at hp
  have : x.1 = y.1 := by rw [(hb.msgs x hx).2, (hb.msgs y hy).2, hc, hp]
  rw [this] at hlt
  exact key_lt_irrefl _ hlt

theorem blocks_fair (ext : Ext Cell) (qext : QueueDiffTl.Ext) (o : Order) (ho : o.Ok) (shard : Shard)
    (blocks : List (Collated Cell)) (h : BlocksOk ext shard blocks) :
    Fair ext (blocks.map (fun b => (ownDiff qext o b, b.cells))) := by
  have hmem : ∀ e ∈ blocks.map (fun b => (ownDiff qext o b, b.cells)), ∃ b ∈ blocks, e = (ownDiff qext o b, b.cells) := by
    intro e he
    obtain ⟨b, hb, rfl⟩ := List.mem_map.1 he
    exact ⟨b, hb, rfl⟩
  refine ⟨?_, ?_, ?_, ?_⟩
  · intro e he
    obtain ⟨b, hb, rfl⟩ := hmem e he
    refine ⟨h.isMsg b hb, h.anycast b hb, ?_, ?_, ?_⟩
    · exact cells_distinct ext b (h.ok b hb).1 (h.hash b hb b hb)
    · exact onePartition_of_map _ _ (ho.routes _) (h.ok b hb).1.src
    · exact onePartition_of_map _ _ (ho.routes _) (h.ok b hb).1.dst
  · intro e he e' he'
    obtain ⟨b, hb, rfl⟩ := hmem e he
    obtain ⟨b', hb', rfl⟩ := hmem e' he'
    exact h.hash b hb b' hb'
  · rw [List.map_map]
    have := h.maxMsg
    rw [List.Nodup, List.pairwise_map] at this ⊢
    exact this.imp (fun hne heq => hne (congrArg Prod.snd heq))
  · rw [List.map_map]
    have := h.seqno
    rw [List.Nodup, List.pairwise_map] at this ⊢
    exact this.imp (fun hne heq => hne (congrArg Prod.snd heq))

theorem forall2_filterMap {α β : Type} (f : α → Option β) (l : List α) (h : ∀ x ∈ l, (f x).isSome) :
    List.Forall₂ (fun x y => f x = some y) l (l.filterMap f) := by
  induction l with
  | nil => exact .nil
  | cons x l ih =>
    obtain ⟨y, hy⟩ := Option.isSome_iff_exists.1 (h x (by simp))
    rw [List.filterMap_cons, hy]
    exact .cons hy (ih (fun x hx => h x (by simp [hx])))

theorem filterMap_lookup (lookup : List Nat → Option Cell) (ms : List (Key × Enq Cell))
    (h : ∀ x ∈ ms, lookup x.1.hash = some x.2.cell) :
    (ms.map (fun e => e.1.hash)).filterMap lookup = ms.map (fun x => x.2.cell) := by
  induction ms with
  | nil => rfl
  | cons x ms ih =>
    rw [List.map_cons, List.filterMap_cons, h x (by simp), List.map_cons, ih (fun x hx => h x (by simp [hx]))]

/-- **The three ways to fill the queue agree.** For blocks of a shard in any number, oldest first, with their
messages and routers: the collator's own writes, the writes of another node from the published diffs and
the out messages of the blocks, and the import of a persistent state with these diffs newest first, all
succeed from the same database and end with the same messages, statistics, tails and records of diffs,
whatever the iteration orders of the hash maps on the three nodes. -/
theorem three_ways_agree (ext : Ext Cell) (qext : QueueDiffTl.Ext) (o o' o'' : Order) (ho : o.Ok) (ho' : o'.Ok)
    (ho'' : o''.Ok) (shard : Shard) (blocks : List (Collated Cell)) (hb : BlocksOk ext shard blocks)
    (lookup : Collated Cell → List Nat → Option Cell)
    (hlook : ∀ b ∈ blocks, ∀ x ∈ b.dm.messages, lookup b x.1.hash = some x.2.cell)
    (imported : Collated Cell → List Cell) (himp : ∀ b ∈ blocks, (imported b).Perm b.cells) (before : Db) :
    ∃ own other batch,
      writeAll (ownBatch ext qext o) blocks before = some own ∧
      writeAll (fun b => otherBatch ext o' (ownDiff qext o b) (lookup b)) blocks before = some other ∧
      importBatch ext o'' shard ((blocks.map (fun b => (ownDiff qext o b, imported b))).reverse) = some batch ∧
      SameQueue own other ∧ SameQueue own (before.write batch) ∧
      Filled ext (blocks.map (fun b => (ownDiff qext o b, b.cells))) before own := by
  have hfair := blocks_fair ext qext o ho shard blocks hb
  have hd : ∀ b ∈ blocks, DiffFair ext (ownDiff qext o b, b.cells) :=
    fun b hb => hfair.each _ (List.mem_map.2 ⟨b, hb, rfl⟩)
  obtain ⟨own, h1, h2, _⟩ := writeAll_filled ext (ownBatch ext qext o) (fun b => (ownDiff qext o b, b.cells)) blocks hfair
    (fun b hb' => own_batch ext qext o ho b (hb.ok b hb').1 (hd b hb')) before
  obtain ⟨other, h3, h4, _⟩ := writeAll_filled ext (fun b => otherBatch ext o' (ownDiff qext o b) (lookup b))
    (fun b => (ownDiff qext o b, b.cells)) blocks hfair
    (by
      intro b hb'
      have hperm : (ownDiff qext o b).messages.Perm (b.dm.messages.map (fun e => e.1.hash)) := List.mergeSort_perm _ _
      have hcells : ((ownDiff qext o b).messages.filterMap (lookup b)).Perm b.cells := by
        refine (hperm.filterMap _).trans ?_
        rw [filterMap_lookup (lookup b) _ (hlook b hb')]
        exact List.Perm.refl _
      obtain ⟨x, hx, hx', hx''⟩ := other_batch ext o' ho' (ownDiff qext o b) (lookup b) _
        (diffFair_perm ext _ _ _ hcells.symm (hd b hb'))
        (forall2_filterMap (lookup b) _ (by
          intro h hh
          rw [hperm.mem_iff] at hh
          obtain ⟨e, he, rfl⟩ := List.mem_map.1 hh
          rw [hlook b hb' e he]; rfl))
        (canon_toPartitions _) (canon_toPartitions _)
      exact ⟨x, hx, batchFor_perm ext _ _ _ hcells x hx', hx''⟩) before
  have hre : Reordered ((blocks.map (fun b => (ownDiff qext o b, imported b))).reverse)
      (blocks.map (fun b => (ownDiff qext o b, b.cells))) := by
    constructor
    · intro e he
      obtain ⟨b, hb', rfl⟩ := List.mem_map.1 he
      exact ⟨(ownDiff qext o b, imported b), by simp only [List.mem_reverse, List.mem_map]; exact ⟨b, hb', rfl⟩, rfl,
        himp b hb'⟩
    · intro e he
      rw [List.mem_reverse] at he
      obtain ⟨b, hb', rfl⟩ := List.mem_map.1 he
      exact ⟨(ownDiff qext o b, b.cells), List.mem_map.2 ⟨b, hb', rfl⟩, rfl, (himp b hb').symm⟩
  have hfair' : Fair ext ((blocks.map (fun b => (ownDiff qext o b, imported b))).reverse) := by
    refine ⟨?_, ?_, ?_, ?_⟩
    · intro e he
      rw [List.mem_reverse] at he
      obtain ⟨b, hb', rfl⟩ := List.mem_map.1 he
      exact diffFair_perm ext _ _ _ (himp b hb').symm (hd b hb')
    · intro e he e' he' c hc c' hc'
      rw [List.mem_reverse] at he he'
      obtain ⟨b, hb', rfl⟩ := List.mem_map.1 he
      obtain ⟨b2, hb2, rfl⟩ := List.mem_map.1 he'
      exact hb.hash b hb' b2 hb2 c ((himp b hb').mem_iff.1 hc) c' ((himp b2 hb2).mem_iff.1 hc')
    · rw [List.map_reverse, (List.reverse_perm _).nodup_iff, List.map_map]
      have := hfair.tails
      rw [List.map_map] at this
      exact this
    · rw [List.map_reverse, (List.reverse_perm _).nodup_iff, List.map_map]
      have := hfair.infos
      rw [List.map_map] at this
      exact this
  obtain ⟨batch, h5, h6⟩ := import_batch ext o'' ho'' shard _ (fun e he => ⟨hfair'.each e he, by
    rw [List.mem_reverse] at he
    obtain ⟨b, hb', rfl⟩ := List.mem_map.1 he
    exact (hb.ok b hb').2⟩)
  have h7 := filled_reorder ext _ _ hre before (before.write batch) (filled_of_batch ext _ batch hfair' h6 before)
  exact ⟨own, other, batch, h1, h3, h5, filled_unique ext _ _ _ _ h2 h4, filled_unique ext _ _ _ _ h2 h7, h2⟩

/-- The import sets the commit pointer of the shard to the newest diff, and no other pointer. -/
theorem import_commits_newest (ext : Ext Cell) (o : Order) (ho : o.Ok) (shard : Shard) (e : Diff × List Cell)
    (ds : List (Diff × List Cell)) (hd : ∀ x ∈ e :: ds, DiffFair ext x ∧ x.1.shard = shard) (before : Db) :
    ∃ batch, importBatch ext o shard (e :: ds) = some batch ∧
      Table.get (before.write batch).pointers shard = some ⟨e.1.maxMessage, e.1.seqno⟩ ∧
      ∀ s, s ≠ shard → Table.get (before.write batch).pointers s = Table.get before.pointers s := by
  obtain ⟨h1, h2⟩ := hd e (by simp)
  have hi := importDiff_eq ext o shard ⟨Batch.empty, [], false⟩ e h1.isMsg rfl
  obtain ⟨b1, hb1, hb2⟩ := import_batch ext o ho shard [e] (fun x hx => hd x (by simp at hx; simp [hx]))
  unfold importBatch at hb1 ⊢
  rw [importDiffs, hi] at hb1 ⊢
  dsimp only at hb1 ⊢
  simp only [importDiffs, Option.map_some, Option.some.injEq] at hb1
  subst hb1
  obtain ⟨st', h3, _, h5⟩ := import_loop ext o ho shard ds (fun x hx => hd x (by simp [hx])) [e]
    { batch := _, stats := [], first := true } rfl hb2
  refine ⟨st'.batch, by rw [h3]; rfl, ?_⟩
  have hp : st'.batch.pointers = [(shard, ⟨e.1.maxMessage, e.1.seqno⟩)] := by
    rw [h5 rfl]; simp [Batch.empty, h2]
  simp only [Db.write, hp, Table.putAll, List.foldl_cons, List.foldl_nil]
  constructor
  · rw [get_put, if_pos rfl]
  · intro s hs; rw [get_put, if_neg hs]

/-- A message with a variable address, or an external one, stops the import with an error. -/
theorem import_rejects (ext : Ext Cell) (o : Order) (shard : Shard) (e : Diff × List Cell)
    (ds : List (Diff × List Cell)) (he : e ∈ ds) (c : Cell) (hc : c ∈ e.2)
    (hbad : ∀ src dst t lt, ¬ IsMsg ext c src dst t lt) : importBatch ext o shard ds = none := by
  have h1 : ∀ (cs : List Cell), c ∈ cs → ∀ d st counts, importMsgs ext shard d cs st counts = none := by
    intro cs hcs
    induction cs with
    | nil => simp at hcs
    | cons x cs ih =>
      intro d st counts
      rw [importMsgs]
      cases hx : importMsg ext shard d st counts x with
      | none => rfl
      | some r =>
        dsimp only
        rcases List.mem_cons.1 hcs with h | h
        · subst h
          exfalso
          unfold importMsg at hx
          split at hx
          · rename_i s src t dst lt hp
            exact hbad src dst t lt ⟨s, hp⟩
          · simp at hx
        · exact ih h _ _ _
  have h2 : ∀ (ds : List (Diff × List Cell)), e ∈ ds → ∀ st, importDiffs ext o shard ds st = none := by
    intro ds hds
    induction ds with
    | nil => simp at hds
    | cons x ds ih =>
      intro st
      rw [importDiffs]
      cases hx : importDiff ext o shard st x with
      | none => rfl
      | some r =>
        dsimp only
        rcases List.mem_cons.1 hds with h | h
        · subst h
          unfold importDiff at hx
          rw [h1 e.2 hc] at hx
          simp at hx
        · exact ih h _
  unfold importBatch
  rw [h2 ds he]; rfl

/-! ### The published diff -/

theorem own_diff_independent (qext : QueueDiffTl.Ext) (ext : Ext Cell) (o o' : Order) (ho : o.Ok) (ho' : o'.Ok)
    (b : Collated Cell) (hb : CollatedOk ext b) : ownDiff qext o b = ownDiff qext o' b := by
  have key : ∀ t : Table Addr Nat, Uniq t → toPartitions (o.routes t) = toPartitions (o'.routes t) := by
    intro t _
    refine canon_ext _ _ (canon_toPartitions _) (canon_toPartitions _) ?_
    intro a p
    rw [listed_toPartitions, listed_toPartitions, (ho.routes t).mem_iff, (ho'.routes t).mem_iff]
  unfold ownDiff
  rw [key _ hb.src, key _ hb.dst]

/-- Sizes the code takes for granted: the diff of a collated block within these bounds is readable. -/
structure CollatedFits (qext : QueueDiffTl.Ext) (b : Collated Cell) : Prop where
  prevHash : b.prevHash.length = 32 ∧ IsBytes b.prevHash
  shard : ShardOk qext b.shard
  seqno : b.seqno < 256 ^ 4
  processedLen : b.dm.processedTo.length ≤ 1000
  processed : ∀ e ∈ b.dm.processedTo, ShardOk qext e.1 ∧ e.2.WF
  processedAsc : Ascending (fun a b => shardLt a.1 b.1) b.dm.processedTo
  keys : ∀ x ∈ b.dm.messages, x.1.WF ∧ x.1.hash ≠ List.replicate 32 0
  count : b.dm.messages.length ≤ 10000000
  lts : b.startLt ≤ b.nextLt ∧ b.nextLt < 256 ^ 8
  src : b.dm.router.src.length ≤ 10000000 ∧ ∀ e ∈ b.dm.router.src, e.1.WF ∧ e.2 < 65536
  dst : b.dm.router.dst.length ≤ 10000000 ∧ ∀ e ∈ b.dm.router.dst, e.1.WF ∧ e.2 < 65536

theorem isChain_of_pairwise {α : Type} (R : α → α → Prop) (l : List α) (h : l.Pairwise R) : l.IsChain R := by
  induction l with
  | nil => simp
  | cons a l ih =>
    rw [List.pairwise_cons] at h
    cases l with
    | nil => simp
    | cons b l => rw [List.isChain_cons_cons]; exact ⟨h.1 b (by simp), ih h.2⟩

theorem length_insAddr (a : Addr) (l : List Addr) : (insAddr a l).length ≤ l.length + 1 := by
  induction l with
  | nil => simp [insAddr]
  | cons b l ih =>
    unfold insAddr
    split
    · simp
    · split
      · simp
      · simp only [List.length_cons]; omega

theorem length_insPart (p : Nat) (a : Addr) (ps : List (Nat × List Addr)) (n : Nat)
    (h : ∀ x ∈ ps, x.2.length ≤ n) : ∀ x ∈ insPart p a ps, x.2.length ≤ n + 1 := by
  induction ps with
  | nil => simp [insPart]
  | cons q ps ih =>
    unfold insPart
    split
    · intro x hx
      rcases List.mem_cons.1 hx with rfl | hx
      · simp
      · have := h x hx; omega
    · split
      · intro x hx
        rcases List.mem_cons.1 hx with rfl | hx
        · have := h q (by simp); have := length_insAddr a q.2; dsimp only; omega
        · have := h x (by simp [hx]); omega
      · intro x hx
        rcases List.mem_cons.1 hx with rfl | hx
        · have := h x (by simp); omega
        · exact ih (fun x hx => h x (by simp [hx])) x hx

theorem length_accounts (m : List (Addr × Nat)) (acc : List (Nat × List Addr)) (n : Nat)
    (h : ∀ x ∈ acc, x.2.length ≤ n) :
    ∀ x ∈ m.foldl (fun acc e => insPart e.2 e.1 acc) acc, x.2.length ≤ n + m.length := by
  induction m generalizing acc n with
  | nil => simpa using h
  | cons e m ih =>
    intro x hx
    have := ih (insPart e.2 e.1 acc) (n + 1) (length_insPart _ _ _ _ h) x hx
    simp only [List.length_cons]; omega

theorem length_of_increasing (l : List Nat) (n : Nat) (h : l.Pairwise (· < ·)) (hl : ∀ x ∈ l, x < n) :
    l.length ≤ n := by
  induction l using List.reverseRecOn generalizing n with
  | nil => simp
  | append_singleton l x ih =>
    rw [List.pairwise_append] at h
    have := ih x h.1 (fun y hy => h.2.2 y hy x (by simp))
    have := hl x (by simp)
    simp; omega

theorem partitions_ok (m : List (Addr × Nat)) (hlen : m.length ≤ 10000000) (hm : ∀ e ∈ m, e.1.WF ∧ e.2 < 65536) :
    (toPartitions m).length ≤ 65536 ∧ Ascending (fun a b => decide (a.1 < b.1)) (toPartitions m) ∧
    ∀ p ∈ toPartitions m, p.1 < 65536 ∧ p.2.length ≤ 10000000 ∧ Ascending addrLt p.2 ∧ ∀ a ∈ p.2, a.WF := by
  have hc := canon_toPartitions m
  have hmem : ∀ p l, (p, l) ∈ toPartitions m → ∀ a ∈ l, (a, p) ∈ m :=
    fun p l h a ha => (listed_toPartitions m a p).1 ⟨l, h, ha⟩
  have hp : ∀ x ∈ toPartitions m, x.1 < 65536 := by
    intro x hx
    obtain ⟨a, ha⟩ := List.exists_mem_of_ne_nil _ (hc.nonempty x hx)
    exact (hm _ (hmem x.1 x.2 hx a ha)).2
  refine ⟨?_, ?_, ?_⟩
  · have h1 : ((toPartitions m).map (·.1)).Pairwise (· < ·) := by
      rw [List.pairwise_map]; exact hc.parts
    have := length_of_increasing _ 65536 h1 (by
      intro x hx
      obtain ⟨y, hy, rfl⟩ := List.mem_map.1 hx
      exact hp y hy)
    simpa using this
  · exact isChain_of_pairwise _ _ (hc.parts.imp (by simp))
  · intro x hx
    refine ⟨hp x hx, ?_, isChain_of_pairwise _ _ (hc.accounts x hx), ?_⟩
    · have := length_accounts m [] 0 (by simp) x hx
      omega
    · intro a ha; exact (hm _ (hmem x.1 x.2 hx a ha)).1

theorem head_not_last (ms : List (Key × Enq Cell)) (h : ms.Pairwise (fun x y => x.1.Lt y.1))
    (hwf : ∀ x ∈ ms, x.1.WF) (a b : Key × Enq Cell) (ha : ms.head? = some a) (hb : ms.getLast? = some b) :
    ¬ b.1.Lt a.1 := by
  cases ms with
  | nil => simp at ha
  | cons x ms =>
    simp only [List.head?_cons, Option.some.injEq] at ha
    subst ha
    rw [List.pairwise_cons] at h
    have hmem : b ∈ x :: ms := List.mem_of_getLast? hb
    rcases List.mem_cons.1 hmem with rfl | hb'
    · exact key_lt_irrefl _
    · exact key_lt_asymm _ _ (hwf x (by simp)) (hwf b hmem) (h.1 b hb')

/-- **What other nodes read is what the collator wrote**: the published diff of a collated block reads back,
with its hash, whatever follows it. -/
theorem own_diff_readable (qext : QueueDiffTl.Ext) (hid : qext.tlId < 256 ^ 4) (ext : Ext Cell) (o : Order) (ho : o.Ok)
    (b : Collated Cell) (hb : CollatedOk ext b) (hfit : CollatedFits qext b)
    (hh : ∀ c ∈ b.cells, ∀ c' ∈ b.cells, ext.hash c = ext.hash c' → c = c') (r : List Nat) :
    readDiff qext (writeDiff qext (ownDiff qext o b) ++ r) = some (ownDiff qext o b, r) := by
  have hmsgs : (ownDiff qext o b).messages.Perm (b.dm.messages.map (fun e => e.1.hash)) := List.mergeSort_perm _ _
  have hhash : ∀ h ∈ (ownDiff qext o b).messages, ∃ x ∈ b.dm.messages, h = x.1.hash := by
    intro h hx
    rw [hmsgs.mem_iff] at hx
    obtain ⟨x, hx', rfl⟩ := List.mem_map.1 hx
    exact ⟨x, hx', rfl⟩
  have hok : DiffOk qext (ownDiff qext o b) := by
    refine ⟨hfit.prevHash, hfit.shard, hfit.seqno, hfit.processedLen, hfit.processed, hfit.processedAsc, ?_, ?_, ?_, ?_, ?_, ?_,
      ?_, ?_⟩
    · show b.minMsg.WF
      unfold Collated.minMsg
      cases hx : b.dm.messages.head? with
      | none => exact ⟨Nat.lt_of_le_of_lt hfit.lts.1 hfit.lts.2, by simp [minForLt], by
          intro y hy; simp only [minForLt, List.mem_replicate] at hy; omega⟩
      | some x => exact (hfit.keys x (List.mem_of_mem_head? hx)).1
    · show b.maxMsg.WF
      unfold Collated.maxMsg
      cases hx : b.dm.messages.getLast? with
      | none => exact ⟨hfit.lts.2, by simp [maxForLt], by
          intro y hy; simp only [maxForLt, List.mem_replicate] at hy; omega⟩
      | some x => exact (hfit.keys x (List.mem_of_getLast? hx)).1
    · show ¬ b.maxMsg.Lt b.minMsg
      unfold Collated.maxMsg Collated.minMsg
      cases hx : b.dm.messages.head? with
      | none =>
        have : b.dm.messages = [] := List.head?_eq_none_iff.1 hx
        rw [this]
        dsimp only [List.getLast?]
        rintro (h | ⟨_, h⟩)
        · have := hfit.lts.1; simp only [maxForLt, minForLt] at h; omega
        · revert h; simp only [maxForLt, minForLt]; decide
      | some x =>
        cases hy : b.dm.messages.getLast? with
        | none => rw [List.getLast?_eq_none_iff.1 hy] at hx; simp at hx
        | some y => exact head_not_last _ hb.sorted (fun x hx => (hfit.keys x hx).1) x y hx hy
    · rw [hmsgs.length_eq]; simpa using hfit.count
    · intro h hx
      obtain ⟨x, hx', rfl⟩ := hhash h hx
      exact ⟨(hfit.keys x hx').1.2.1, (hfit.keys x hx').1.2.2⟩
    · refine isChain_of_pairwise _ _ ?_
      rw [List.pairwise_cons]
      constructor
      · intro h hx
        obtain ⟨x, hx', rfl⟩ := hhash h hx
        obtain ⟨⟨_, hl, hby⟩, hz⟩ := hfit.keys x hx'
        have h0 : (0 : Nat) < 256 ^ 8 := by decide
        simp only [decide_eq_true_eq]
        rcases key_trichotomy ⟨0, List.replicate 32 0⟩ ⟨0, x.1.hash⟩
          ⟨by decide, by simp, by intro y hy; simp only [List.mem_replicate] at hy; omega⟩ ⟨h0, hl, hby⟩ with h | h | h
        · rcases h with h | h
          · simp at h
          · exact h.2
        · exact absurd (by simpa using (congrArg Key.hash h).symm) hz
        · exact absurd h (min_le_key_le_max ⟨0, x.1.hash⟩ ⟨h0, hl, hby⟩).1
      · have hs : (ownDiff qext o b).messages.Pairwise (fun a b => hashLe a b = true) :=
          List.pairwise_mergeSort hashLe_trans hashLe_total _
        have hn : (ownDiff qext o b).messages.Nodup := by
          rw [hmsgs.nodup_iff]
          have := cells_distinct ext b hb hh
          unfold Collated.cells at this
          rw [List.map_map] at this
          have e : b.dm.messages.map (fun e => e.1.hash) = b.dm.messages.map (ext.hash ∘ fun x => x.2.cell) := by
            apply List.map_congr_left
            intro x hx
            rw [(hb.msgs x hx).2]; rfl
          rw [e]; exact this
        exact (hs.and hn).imp (fun h => hashLe_lt _ _ h.1 h.2)
    · exact partitions_ok _ (by rw [(ho.routes _).length_eq]; exact hfit.src.1)
        (fun e he => hfit.src.2 e ((ho.routes _).mem_iff.1 he))
    · exact partitions_ok _ (by rw [(ho.routes _).length_eq]; exact hfit.dst.1)
        (fun e he => hfit.dst.2 e ((ho.routes _).mem_iff.1 he))
  rw [diff_reads_back qext hid _ hok]
  rfl

theorem collectMsgs_some (ext : Ext Cell) (lookup : List Nat → Option Cell) (hs : List (List Nat))
    (acc ms : List (Key × Enq Cell)) (h : collectMsgs ext lookup hs acc = some ms) :
    ∀ x ∈ hs, ∃ c, lookup x = some c ∧ ext.parse c ≠ .bad := by
  induction hs generalizing acc with
  | nil => simp
  | cons y hs ih =>
    rw [collectMsgs] at h
    cases hl : lookup y with
    | none => rw [hl] at h; cases h
    | some c =>
      rw [hl] at h
      dsimp only at h
      intro x hx
      cases hp : ext.parse c with
      | bad => rw [hp] at h; cases h
      | notInt =>
        rw [hp] at h
        rcases List.mem_cons.1 hx with rfl | hx
        · exact ⟨c, hl, by rw [hp]; exact fun h => nomatch h⟩
        · exact ih _ h x hx
      | int m =>
        rw [hp] at h
        rcases List.mem_cons.1 hx with rfl | hx
        · exact ⟨c, hl, by rw [hp]; exact fun h => nomatch h⟩
        · exact ih _ h x hx

/-- A received diff is applied only if the block has every message the diff lists. -/
theorem received_diff_needs_all_messages (ext : Ext Cell) (o : Order) (d : Diff) (lookup : List Nat → Option Cell)
    (b : Batch) (h : otherBatch ext o d lookup = some b) :
    ∀ x ∈ d.messages, ∃ c, lookup x = some c ∧ ext.parse c ≠ .bad := by
  unfold otherBatch fromQueueDiff at h
  cases hc : collectMsgs ext lookup d.messages [] with
  | none => rw [hc] at h; cases h
  | some ms => exact collectMsgs_some ext lookup d.messages [] ms hc

end Tycho.QueueFill
