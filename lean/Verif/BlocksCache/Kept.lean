import Verif.BlocksCache.Range
/-! The blocks of the reported range are in the cache, unless a commit ran ahead; the last collated id; the funds. -/
namespace Tycho.BlocksCache
open Tycho.Table
open Tycho.Table (get)

/-! ### The blocks of the range -/

/-- An operation that cannot remove a waiting block: a commit of an own candidate that is not applied happens only below
all waiting blocks, and own blocks that were applied are not removed as uncommitted ones. -/
def OrderlyOp (c : Cache) (A : List Nat) : Op → Prop
  | .commit i _ => ∀ e, get c.blocks (0, i.seqno) = some e → e.applied = false → ∀ x ∈ A, i.seqno < x
  | .removeNext ks => ∀ n e st r, get c.blocks (0, n) = some e → e.applied = true → e.kind = .collated st r →
      ∀ m, (0, m) ∈ ks → n ≤ m
  | _ => True

/-- All operations of a history are of this kind. -/
def Orderly (z : Nat) (ops : List Op) : Prop :=
  ∀ pre o post, ops = pre ++ o :: post → OrderlyOp (run z pre) (waiting z pre) o

/-- The waiting blocks are cached, and above the gc boundary. -/
structure Held (c : Cache) (A : List Nat) : Prop where
  cached : ∀ x ∈ A, ∃ e, get c.blocks (0, x) = some e ∧ e.applied = true
  gc : ∀ m, c.gcTo 0 = some m → ∀ x ∈ A, m ≤ x

theorem held_gc {c : Cache} {A : List Nat} (h : Held c A) : Held c.gc A := by
  refine ⟨?_, h.gc⟩
  intro x hx
  obtain ⟨e, he, ha⟩ := h.cached x hx
  refine ⟨e, ?_, ha⟩
  simp only [Cache.gc, get_del]
  rw [if_neg]
  · exact he
  · rw [below_iff]
    rintro ⟨b, hb, hlt⟩
    have := h.gc b hb x hx
    simp only at hlt; omega

theorem removeNext_held {c : Cache} (h : Inv c) (ks : List (Nat × Nat)) (n : Nat) (e : Entry)
    (he : get c.blocks (0, n) = some e) (hk : ∀ st r, e.kind = .collated st r → ∀ m, (0, m) ∈ ks → n ≤ m) :
    get (c.removeNext ks).blocks (0, n) = some e ∧ (c.removeNext ks).gcTo = c.gcTo := by
  unfold Cache.removeNext
  induction ks generalizing c with
  | nil => exact ⟨he, rfl⟩
  | cons k ks ih =>
    have h1 : get (c.removeNext1 k).blocks (0, n) = some e := by
      rw [removeNext1_get h.ub, he]
      simp only
      rw [if_neg]
      intro hn
      unfold nextOf at hn
      cases hkk : e.kind with
      | received cl => simp [hkk] at hn
      | collated st r =>
        simp only [hkk, Bool.and_true, Bool.and_eq_true, decide_eq_true_eq] at hn
        have := hk st r hkk k.2 (by rw [hn.1]; simp)
        omega
    have := ih (inv_removeNext1 h k) h1 (fun st r hs m hm => hk st r hs m (by simp [hm]))
    simp only [List.foldl_cons]
    refine ⟨this.1, this.2.trans rfl⟩

theorem removeNext_gcTo (c : Cache) (ks : List (Nat × Nat)) : (c.removeNext ks).gcTo = c.gcTo := by
  unfold Cache.removeNext
  induction ks generalizing c with
  | nil => rfl
  | cons k ks ih => simp only [List.foldl_cons]; rw [ih]; rfl

theorem held_cut {c c' : Cache} {A : List Nat} (h : Held c A) (n : Nat)
    (hb : ∀ x e, n < x → x ∈ A → get c.blocks (0, x) = some e → get c'.blocks (0, x) = some e)
    (hg : ∀ m, c'.gcTo 0 = some m → c.gcTo 0 = some m ∨ m ≤ n + 1) :
    Held c' (A.filter (fun x => decide (n < x))) := by
  constructor
  · intro x hx
    obtain ⟨hx1, hx2⟩ := List.mem_filter.mp hx
    simp only [decide_eq_true_eq] at hx2
    obtain ⟨e, he, ha⟩ := h.cached x hx1
    exact ⟨e, hb x e hx2 hx1 he, ha⟩
  · intro m hm x hx
    obtain ⟨hx1, hx2⟩ := List.mem_filter.mp hx
    simp only [decide_eq_true_eq] at hx2
    rcases hg m hm with h1 | h1
    · exact h.gc m h1 x hx1
    · omega

theorem held_step {c : Cache} (h : Inv c) (o : Op) (A : List Nat) (hA : Held c A) (hr : RangeOf c.range A)
    (hs : ∀ x ∈ A, Below x (c.synced 0)) (ho : OrderlyOp c A o) : Held (step c o) (waiting1 c A o) := by
  cases o with
  | collated b =>
    have hres := collated_result c b
    have hkeep : ∀ x, (∃ e, get c.blocks (0, x) = some e ∧ e.applied = true) →
        ∃ e, get (c.storeCollated b).1.blocks (0, x) = some e ∧ e.applied = true := by
      rintro x ⟨e, he, ha⟩
      by_cases hk : (0, x) = b.id.key
      · rw [hk] at he ⊢
        obtain ⟨e', h1, _, h3⟩ := hres.2.2.2.2.1 e he
        exact ⟨e', h1, h3.trans ha⟩
      · rw [hres.2.2.2.2.2.2 _ hk]; exact ⟨e, he, ha⟩
    have hgc : (c.storeCollated b).1.gcTo = c.gcTo := by
      rcases collated_cases c b with ⟨e0, st, r, h1, h2, h3, h4⟩ | ⟨e0, cl, h1, h2, h3, h4, h5⟩ |
        ⟨e0, cl, h1, h2, h3, h4, h5⟩ | ⟨h1, h2, h3⟩
      · rw [h4]
      · rw [h5]
      · rw [h5]; simp
      · rw [h3]; simp
    have hsub : ∀ x ∈ waiting1 c A (.collated b), x ∈ A := by
      intro x hx
      simp only [waiting1] at hx
      split at hx
      · split at hx
        · exact (List.mem_filter.mp hx).1
        · exact hx
      · exact hx
    refine ⟨fun x hx => hkeep x (hA.cached x (hsub x hx)), ?_⟩
    intro m hm x hx
    simp only [step] at hm
    rw [hgc] at hm
    exact hA.gc m hm x (hsub x hx)
  | received b =>
    simp only [step, waiting1]
    rcases received_cases h b with ⟨_, h2, h3⟩ | ⟨h1, h2, hgc, _, _, hrg, h5⟩
    · rw [h2, h3]; exact ⟨hA.cached, hA.gc⟩
    · have hnew : ∃ e, get (c.storeReceived b).1.blocks b.id.key = some e ∧ e.applied = true := by
        rcases h5 with ⟨_, h7, h8, _⟩ | ⟨e, _, _, _, _, h7, h8, _⟩ | ⟨e, _, _, _, _, h7, h8, _⟩
        · exact ⟨b.chainEntry, by rw [h8, get_put]; simp, rfl⟩
        · exact ⟨b.chainEntry, by rw [h8, get_put]; simp, rfl⟩
        · exact ⟨{ e with kind := .collated .synced true }, by rw [h8, get_put]; simp, rfl⟩
      have hold : ∀ k, k ≠ b.id.key → get (c.storeReceived b).1.blocks k = get c.blocks k := by
        intro k hk
        rcases h5 with ⟨_, h7, h8, _⟩ | ⟨e, _, _, _, _, h7, h8, _⟩ | ⟨e, _, _, _, _, h7, h8, _⟩ <;>
          rw [h8, get_put] <;> simp [hk]
      have hok : ∃ rc mm, (c.storeReceived b).2 = .ok rc mm := by
        rcases h5 with ⟨_, h7, _⟩ | ⟨_, _, _, _, _, h7, _⟩ | ⟨_, _, _, _, _, h7, _⟩ <;> exact ⟨_, _, h7⟩
      obtain ⟨rc, mm, hok⟩ := hok
      rw [hok]
      simp only
      have hkeep : ∀ x ∈ A, ∃ e, get (c.storeReceived b).1.blocks (0, x) = some e ∧ e.applied = true := by
        intro x hx
        by_cases hk : (0, x) = b.id.key
        · rw [hk]; exact hnew
        · rw [hold _ hk]; exact hA.cached x hx
      split
      · rename_i hz
        constructor
        · intro x hx
          rcases List.mem_append.mp hx with hx | hx
          · exact hkeep x hx
          · simp at hx; subst hx
            have hk : b.id.key = (0, b.id.seqno) := by simp [Id.key, hz]
            rw [← hk]; exact hnew
        · intro m hm x hx
          rw [hgc] at hm
          rcases List.mem_append.mp hx with hx | hx
          · exact hA.gc m hm x hx
          · simp at hx; subst hx
            obtain ⟨q, hq, hmq⟩ := h.gcm m hm
            by_cases hlt : m ≤ b.id.seqno
            · exact hlt
            · exact absurd ⟨q, by rw [hz]; exact hq, by omega⟩ h1
      · exact ⟨hkeep, by rw [hgc]; exact hA.gc⟩
  | validation i v =>
    simp only [step, waiting1]
    unfold Cache.storeValidation
    split
    · exact hA
    · rename_i e0 he0
      split
      · exact hA
      · rename_i st r hk
        split
        · exact hA
        · split
          · exact hA
          · refine ⟨?_, hA.gc⟩
            intro x hx
            obtain ⟨e, he, ha⟩ := hA.cached x hx
            simp only [get_put]
            split
            · rename_i hkk
              rw [hkk, he0] at he
              cases he
              refine ⟨_, rfl, ?_⟩
              simp only [Entry.applied, hk] at ha ⊢
              exact ha
            · exact ⟨e, he, ha⟩
  | pop f g =>
    simp only [step, waiting1]
    rcases popFront_cases h f with ⟨hp, _⟩ | ⟨n, x, hf, hx, ha, hn, hp⟩
    · rw [hp]; exact hA
    · rw [hp]
      simp only
      have hm : ((c.takeFront n x).subgraph x).2.master = x := rfl
      have hsh := front_shrunk h hx ha
      rw [hm, hn]
      refine held_cut hA n ?_ ?_
      · intro y e hy _ he
        have : get ((c.takeFront n x).subgraph x).1.blocks (0, y) = some e := by
          rw [hsh.master]
          simp only [Cache.takeFront, get_del]
          rw [if_neg (by simp; omega)]
          exact he
        unfold Cache.afterPop
        simp only
        split
        · rw [(setGc_fields _ _).1]; exact this
        · exact this
      · intro m hgm
        unfold Cache.afterPop at hgm
        simp only at hgm
        split at hgm
        · rcases setGc_master _ _ _ hgm with h1 | h1
          · rw [hsh.gcTo] at h1; exact Or.inl h1
          · rw [hm] at h1
            have := topKeys_master (h.tops _ _ hx) h1
            rw [h.keyed _ _ hx] at this
            cases this
            right; omega
        · rw [hsh.gcTo] at hgm; exact Or.inl hgm
  | commit i d =>
    simp only [step, waiting1]
    rcases commit_cases c i d with ⟨hn, hp⟩ | ⟨x, hx, hp⟩
    · have : (c.extract i).2 = none := by unfold Cache.extract; rw [hn]
      rw [this, hp]; exact held_gc hA
    · have : (c.extract i).2 = some ((c.takeForSync i x).subgraph x).2 := by unfold Cache.extract; rw [hx]
      rw [this, hp]
      have hm : ((c.takeForSync i x).subgraph x).2.master = x := rfl
      have hsh := sync_shrunk h i hx
      simp only [hm]
      have hcut : Held (((c.takeForSync i x).subgraph x).1.setGc x.topKeys)
          (A.filter (fun y => decide (i.seqno < y))) := by
        refine held_cut hA i.seqno ?_ ?_
        · intro y e hy _ he
          rw [(setGc_fields _ _).1, hsh.master]
          simp only [Cache.takeForSync, get_del]
          rw [if_neg (by simp; omega)]
          exact he
        · intro m hgm
          rcases setGc_master _ _ _ hgm with h1 | h1
          · rw [hsh.gcTo] at h1; exact Or.inl h1
          · have := topKeys_master (h.tops _ _ hx) h1
            rw [h.keyed _ _ hx] at this
            cases this
            right; omega
      cases ha : x.applied with
      | true => simp only [if_true]; exact held_gc hcut
      | false =>
        have hall : A.filter (fun y => decide (i.seqno < y)) = A := by
          rw [List.filter_eq_self]
          intro y hy
          have := ho x hx ha y hy
          simp [this]
        rw [hall] at hcut
        simp only [Bool.false_eq_true, if_false]
        exact held_gc hcut
  | gc => exact held_gc hA
  | removeNext ks =>
    simp only [step, waiting1]
    constructor
    · intro x hx
      obtain ⟨e, he, ha⟩ := hA.cached x hx
      exact ⟨e, (removeNext_held h ks x e he (fun st r hk => ho x e st r he ha hk)).1, ha⟩
    · rw [removeNext_gcTo]; exact hA.gc
  | takeTops n shs =>
    simp only [step, waiting1]
    have hf := takeTops_fields c n shs
    constructor
    · rw [hf.1]; exact hA.cached
    · rw [hf.2.2.2.2]; exact hA.gc
  | resetTops => exact ⟨hA.cached, hA.gc⟩

theorem held_run (z : Nat) (ops : List Op) (hw : ∀ o ∈ ops, o.Wf) (ho : Orderly z ops) :
    Held (run z ops) (waiting z ops) := by
  have h := hist_ind (P := fun ops => Orderly z ops → Held (run z ops) (waiting z ops)) z ?_ ?_ ops hw
  · exact h ho
  · intro _; exact ⟨by simp [waiting, waitingFrom], by simp [run, Cache.init]⟩
  · intro ops o hws _ hI ih hor
    have ih := ih (fun pre p post heq => hor pre p (post ++ [o]) (by rw [heq]; simp))
    obtain ⟨h1, h2⟩ := range_run z ops hws
    rw [run_snoc, waiting_snoc]
    exact held_step hI o _ ih h1 h2 (hor ops o [] rfl)

/-- When master blocks arrive one after another and no commit runs ahead of them, every seqno of the reported range is
that of a cached master block that was accepted from the chain: a sync over the range finds all of them. -/
theorem range_is_cached (z : Nat) (ops : List Op) (hw : ∀ o ∈ ops, o.Wf) (hc : Consecutive z ops) (ho : Orderly z ops)
    (a b : Nat) (hr : (run z ops).range = some (a, b)) (n : Nat) (hn : a ≤ n ∧ n ≤ b) :
    ∃ e, get (run z ops).blocks (0, n) = some e ∧ e.applied = true ∧ e.id ∈ acceptedIn z ops ∧ e.id.key = (0, n) := by
  have hx := range_exact z ops hw hc
  rw [hr] at hx
  simp only at hx
  have hm : n ∈ waiting z ops := by rw [hx.2, List.mem_range'_1]; omega
  obtain ⟨e, he, ha⟩ := (held_run z ops hw ho).cached n hm
  obtain ⟨h1, h2, _⟩ := applied_is_accepted z ops hw _ e he ha
  exact ⟨e, he, ha, h2, h1⟩

/-! ### The last collated id -/

theorem lastCollated_spec {c : Cache} (h : Inv c) {i : Id} (hi : c.lastCollated = some i) :
    get c.lastColl i.seqno = some i ∧ ∀ n j, get c.lastColl n = some j → n ≤ i.seqno := by
  unfold Cache.lastCollated at hi
  split at hi
  · cases hi
  · rename_i n hn
    rw [List.max?_eq_some_iff] at hn
    have hk := h.lck _ _ hi
    have : i.seqno = n := congrArg Prod.snd hk
    rw [this]
    refine ⟨hi, ?_⟩
    intro m j hj
    exact hn.2 m (List.mem_map.mpr ⟨(m, j), mem_of_get _ _ _ hj, rfl⟩)

theorem lastCollated_none {c : Cache} (hi : c.lastCollated = none) (h : Inv c) (n : Nat) : get c.lastColl n = none := by
  unfold Cache.lastCollated at hi
  split at hi
  · rename_i hn
    rw [List.max?_eq_none_iff] at hn
    have : c.lastColl = [] := List.map_eq_nil_iff.mp hn
    rw [this]; rfl
  · rename_i m hm
    rw [List.max?_eq_some_iff] at hm
    obtain ⟨x, hx, hxm⟩ := List.mem_map.mp hm.1
    have := get_of_mem c.lastColl h.ul x.1 x.2 hx
    rw [hxm, hi] at this; cases this

theorem lastColl_collated (z : Nat) (ops : List Op) (hw : ∀ o ∈ ops, o.Wf) (n : Nat) (i : Id)
    (h : get (run z ops).lastColl n = some i) : ∃ pre b post, ops = pre ++ .collated b :: post ∧ b.id = i ∧
      ∃ rc, ((run z pre).storeCollated b).2 = .ok rc false := by
  revert n i
  refine hist_ind (P := fun ops => ∀ n i, get (run z ops).lastColl n = some i → ∃ pre b post,
    ops = pre ++ .collated b :: post ∧ b.id = i ∧ ∃ rc, ((run z pre).storeCollated b).2 = .ok rc false) z ?_ ?_ ops hw
  · simp [run, Cache.init, Table.get]
  · intro ops o _ ho hI ih n i hg
    have lift : get (run z ops).lastColl n = some i → ∃ pre b post,
        ops ++ [o] = pre ++ .collated b :: post ∧ b.id = i ∧ ∃ rc, ((run z pre).storeCollated b).2 = .ok rc false := by
      intro h
      obtain ⟨pre, b, post, h1, h2, h3⟩ := ih n i h
      exact ⟨pre, b, post ++ [o], by rw [h1]; simp, h2, h3⟩
    rw [run_snoc] at hg
    cases o with
    | collated b =>
      simp only [step] at hg
      rcases collated_cases (run z ops) b with ⟨e0, st, r, h1, h2, h3, h4⟩ | ⟨e0, cl, h1, h2, h3, h4, h5⟩ |
        ⟨e0, cl, h1, h2, h3, h4, h5⟩ | ⟨h1, h2, h3⟩
      · rw [h4] at hg; exact lift hg
      · rw [h5] at hg; exact lift hg
      · rw [h5] at hg
        simp only [onCollated_lastColl] at hg
        split at hg
        · rw [get_put] at hg
          split at hg
          · cases hg; exact ⟨ops, b, [], rfl, rfl, true, h4⟩
          · exact lift hg
        · exact lift hg
      · rw [h3] at hg
        simp only [onCollated_lastColl] at hg
        split at hg
        · rw [get_put] at hg
          split at hg
          · cases hg; exact ⟨ops, b, [], rfl, rfl, false, h2⟩
          · exact lift hg
        · exact lift hg
    | received b =>
      simp only [step] at hg
      rcases received_cases hI b with ⟨_, h2, h3⟩ | ⟨h1, h2, _, _, _, _, h5⟩
      · rw [h3] at hg; exact lift hg
      · rcases h5 with ⟨_, _, _, h8⟩ | ⟨_, _, _, _, _, _, _, h8⟩ | ⟨_, _, _, _, _, _, _, h8⟩
        · rw [h8] at hg; exact lift hg
        · rw [h8, get_dropFrom] at hg
          by_cases hcut : n ≥ (if b.id.shard = 0 then b.id.seqno else b.ref)
          · rw [if_pos hcut] at hg; cases hg
          · rw [if_neg hcut] at hg; exact lift hg
        · rw [h8] at hg; exact lift hg
    | validation v w =>
      have : ((run z ops).storeValidation v w).1.lastColl = (run z ops).lastColl := by
        unfold Cache.storeValidation
        split
        · rfl
        · split
          · rfl
          · split
            · rfl
            · split <;> rfl
      simp only [step] at hg
      rw [this] at hg; exact lift hg
    | pop f g =>
      simp only [step] at hg
      rcases popFront_cases hI f with ⟨hp, _⟩ | ⟨n, x, hf, hx, ha, hn, hp⟩
      · rw [hp] at hg; exact lift hg
      · rw [hp] at hg
        have hl : (Cache.afterPop ((((run z ops).takeFront n x).subgraph x).1,
            some ((((run z ops).takeFront n x).subgraph x).2, (run z ops).isLast n)) g).lastColl =
            dropBefore (run z ops).lastColl x.id.seqno := by
          unfold Cache.afterPop
          simp only
          split
          · rw [(setGc_fields _ _).2.2.1, (front_shrunk hI hx ha).lastColl]; rfl
          · rw [(front_shrunk hI hx ha).lastColl]; rfl
        rw [hl, get_dropBefore] at hg
        split at hg
        · cases hg
        · exact lift hg
    | commit j d =>
      simp only [step] at hg
      rcases commit_cases (run z ops) j d with ⟨hn, hp⟩ | ⟨x, hx, hp⟩
      · rw [hp] at hg; exact lift (get_fold_dropBefore _ _ _ _ hg).1
      · rw [hp] at hg
        have h1 := (get_fold_dropBefore _ _ _ _ hg).1
        rw [(setGc_fields _ _).2.2.1, (sync_shrunk hI j hx).lastColl] at h1
        simp only [Cache.takeForSync, get_dropBefore] at h1
        split at h1
        · cases h1
        · exact lift h1
    | gc => exact lift (get_fold_dropBefore _ _ _ _ hg).1
    | removeNext ks =>
      simp only [step] at hg
      have : ∀ c : Cache, get (c.removeNext ks).lastColl n = some i → get c.lastColl n = some i := by
        unfold Cache.removeNext
        clear hg lift ho
        induction ks with
        | nil => intro c h; exact h
        | cons k ks ih =>
          intro c h
          exact (get_fold_dropFrom _ _ _ _ (ih _ h)).1
      exact lift (this _ hg)
    | takeTops m shs =>
      simp only [step] at hg
      rw [(takeTops_fields _ m shs).2.2.1] at hg; exact lift hg
    | resetTops => exact lift hg

/-- The reported last collated block is a master block this node collated and stored, and no cached master block of its
seqno is a different block. -/
theorem last_collated_consistent (z : Nat) (ops : List Op) (hw : ∀ o ∈ ops, o.Wf) (i : Id)
    (h : (run z ops).lastCollated = some i) :
    i.shard = 0 ∧ (∃ pre b post, ops = pre ++ .collated b :: post ∧ b.id = i ∧
      ∃ rc, ((run z pre).storeCollated b).2 = .ok rc false) ∧
      ∀ e, get (run z ops).blocks (0, i.seqno) = some e → e.id = i := by
  have hI := inv_run z ops hw
  obtain ⟨h1, _⟩ := lastCollated_spec hI h
  exact ⟨congrArg Prod.fst (hI.lck _ _ h1), lastColl_collated z ops hw _ i h1, fun e he => hI.lcm _ _ _ h1 he⟩

/-- After a mismatch the reported last collated block is below the mismatched master block, or below the master block
that references the mismatched shard block. -/
theorem mismatch_forgets (z : Nat) (ops : List Op) (hw : ∀ o ∈ ops, o.Wf) (b : Block) (hb : b.Wf) (rc : Bool)
    (h : ((run z ops).storeReceived b).2 = .ok rc true) (i : Id)
    (hi : ((run z ops).storeReceived b).1.lastCollated = some i) :
    i.seqno < (if b.id.shard = 0 then b.id.seqno else b.ref) := by
  have hI := inv_run z ops hw
  obtain ⟨h1, _⟩ := lastCollated_spec (inv_storeReceived hI hb) hi
  rcases received_cases hI b with ⟨_, h2, _⟩ | ⟨_, _, _, _, _, _, h5⟩
  · rw [h2] at h; cases h
  · rcases h5 with ⟨_, h7, _⟩ | ⟨_, _, _, _, _, h7, _, h8⟩ | ⟨_, _, _, _, _, h7, _⟩
    · rw [h7] at h; cases h
    · rw [h8, get_dropFrom] at h1
      by_cases hcut : i.seqno ≥ (if b.id.shard = 0 then b.id.seqno else b.ref)
      · rw [if_pos hcut] at h1; cases h1
      · exact Nat.lt_of_not_ge hcut
    · rw [h7] at h; cases h

/-- An own master block that was just stored is the last collated one, unless a higher one is. -/
theorem stored_is_last (z : Nat) (ops : List Op) (hw : ∀ o ∈ ops, o.Wf) (b : Block) (hb : b.Wf) (hz : b.id.shard = 0)
    (rc : Bool) (h : ((run z ops).storeCollated b).2 = .ok rc false) :
    ∃ i, ((run z ops).storeCollated b).1.lastCollated = some i ∧ (i = b.id ∨
      b.id.seqno < i.seqno ∧ (run z ops).lastCollated = some i) := by
  have hI := inv_run z ops hw
  have hI2 := inv_storeCollated hI hb
  have hl : ((run z ops).storeCollated b).1.lastColl = put (run z ops).lastColl b.id.seqno b.id := by
    rcases collated_cases (run z ops) b with ⟨e0, st, r, h1, h2, h3, h4⟩ | ⟨e0, cl, h1, h2, h3, h4, h5⟩ |
        ⟨e0, cl, h1, h2, h3, h4, h5⟩ | ⟨h1, h2, h3⟩
    · rw [h3] at h; cases h
    · rw [h4] at h; cases h
    · rw [h5]; simp [hz]
    · rw [h3]; simp [hz]
  cases hc : ((run z ops).storeCollated b).1.lastCollated with
  | none =>
    have := lastCollated_none hc hI2 b.id.seqno
    rw [hl, get_put] at this
    simp at this
  | some i =>
    refine ⟨i, rfl, ?_⟩
    obtain ⟨h1, h2⟩ := lastCollated_spec hI2 hc
    rw [hl, get_put] at h1
    split at h1
    · cases h1; exact Or.inl rfl
    · rename_i hne
      have h3 := h2 b.id.seqno b.id (by rw [hl, get_put]; simp)
      right
      refine ⟨by omega, ?_⟩
      cases hp : (run z ops).lastCollated with
      | none =>
        have := lastCollated_none hp hI i.seqno
        rw [h1] at this; cases this
      | some j =>
        obtain ⟨h4, h5⟩ := lastCollated_spec hI hp
        have h6 := h5 _ _ h1
        by_cases hjb : j.seqno = b.id.seqno
        · omega
        · have h7 := h2 j.seqno j (by rw [hl, get_put]; simp [hjb, h4])
          have : i.seqno = j.seqno := by omega
          rw [← this, h1] at h4
          exact h4.symm

end Tycho.BlocksCache
