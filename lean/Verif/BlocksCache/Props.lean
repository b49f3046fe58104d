import Verif.BlocksCache.Hist
import Mathlib.Tactic.Tauto
/-! Storing blocks: what the cache reports and keeps, over all histories. -/
namespace Tycho.BlocksCache
open Tycho.Table
open Tycho.Table (get)

/-- The ids of a subgraph: the master block and the shard blocks. -/
def Subgraph.ids (g : Subgraph) : List Id := g.master.id :: g.shards.map (·.id)

/-- The blocks an operation took out of the cache as a master block with its shard blocks. -/
def takes (c : Cache) : Op → List Id
  | .pop f _ => match (c.popFront f).2 with
    | some (g, _) => g.ids
    | none => []
  | .commit i _ => match (c.extract i).2 with
    | some g => g.ids
    | none => []
  | _ => []

/-- All blocks a history accepted from the chain or took out with their master block. -/
def settledIn (zero : Nat) (ops : List Op) : List Id :=
  observe (fun c o => (accepts c o).toList ++ takes c o) (Cache.init zero) ops

/-! ### What the result of a store says -/

/-- Storing a block from the chain never fails, whatever happened before. -/
theorem received_never_fails (z : Nat) (ops : List Op) (hw : ∀ o ∈ ops, o.Wf) (b : Block) :
    ((run z ops).storeReceived b).2 ≠ .error := by
  rcases received_cases (inv_run z ops hw) b with ⟨_, h2, _⟩ | ⟨_, _, _, _, _, _, h5⟩
  · rw [h2]; simp
  · rcases h5 with ⟨_, h7, _⟩ | ⟨_, _, _, _, _, h7, _⟩ | ⟨_, _, _, _, _, h7, _⟩ <;> simp [h7]

/-- A block from the chain that is accepted is in the cache afterwards, marked as applied. The result says whether it met
an own candidate at its place, and whether that one was the same block. -/
theorem received_result (z : Nat) (ops : List Op) (hw : ∀ o ∈ ops, o.Wf) (b : Block) (rc mm : Bool)
    (h : ((run z ops).storeReceived b).2 = .ok rc mm) :
    (∃ e, get ((run z ops).storeReceived b).1.blocks b.id.key = some e ∧ e.id = b.id ∧ e.applied = true) ∧
      (rc = true ↔ ∃ e, get (run z ops).blocks b.id.key = some e ∧ e.id = b.id) ∧
      (mm = true ↔ ∃ e, get (run z ops).blocks b.id.key = some e ∧ e.id ≠ b.id) ∧
      ∀ k, k ≠ b.id.key → get ((run z ops).storeReceived b).1.blocks k = get (run z ops).blocks k := by
  rcases received_cases (inv_run z ops hw) b with ⟨_, h2, _⟩ | ⟨_, _, _, _, _, _, h5⟩
  · rw [h2] at h; cases h
  · rcases h5 with ⟨h6, h7, h8, _⟩ | ⟨e, st, h6, h7, h8, h9, h10, _⟩ | ⟨e, st, h6, h7, h8, h9, h10, _⟩
    · rw [h7] at h; cases h
      refine ⟨⟨b.chainEntry, by rw [h8, get_put]; simp, rfl, rfl⟩, by simp [h6], by simp [h6], ?_⟩
      intro k hk; rw [h8, get_put]; simp [hk]
    · rw [h9] at h; cases h
      refine ⟨⟨b.chainEntry, by rw [h10, get_put]; simp, rfl, rfl⟩, by simp [h6, h8], by simp [h6, h8], ?_⟩
      intro k hk; rw [h10, get_put]; simp [hk]
    · rw [h9] at h; cases h
      refine ⟨⟨{ e with kind := .collated .synced true }, by rw [h10, get_put]; simp, h8, rfl⟩, by simp [h6, h8], by simp [h6, h8], ?_⟩
      intro k hk; rw [h10, get_put]; simp [hk]

/-- What the result of storing an own candidate says: an error when an own candidate is already cached at its place; a
mismatch when a different block from the chain is there, in which case the cached blocks do not change; otherwise the
candidate is (or stays) the cached block. The blocks at all other places are untouched. -/
theorem collated_result (c : Cache) (b : Block) :
    ((c.storeCollated b).2 ≠ .skipped) ∧
    ((c.storeCollated b).2 = .error ↔ ∃ e st r, get c.blocks b.id.key = some e ∧ e.kind = .collated st r) ∧
    ((∃ rc, (c.storeCollated b).2 = .ok rc true) ↔
      ∃ e cl, get c.blocks b.id.key = some e ∧ e.kind = .received cl ∧ e.id ≠ b.id) ∧
    ((∃ mm, (c.storeCollated b).2 = .ok true mm) ↔
      ∃ e cl, get c.blocks b.id.key = some e ∧ e.kind = .received cl ∧ e.id = b.id) ∧
    (∀ e, get c.blocks b.id.key = some e → ∃ e', get (c.storeCollated b).1.blocks b.id.key = some e' ∧ e'.id = e.id ∧
      e'.applied = e.applied) ∧
    (get c.blocks b.id.key = none → get (c.storeCollated b).1.blocks b.id.key = some b.ownEntry) ∧
    ∀ k, k ≠ b.id.key → get (c.storeCollated b).1.blocks k = get c.blocks k := by
  rcases collated_cases c b with ⟨e0, st, r, h1, h2, h3, h4⟩ | ⟨e0, cl, h1, h2, h3, h4, h5⟩ |
      ⟨e0, cl, h1, h2, h3, h4, h5⟩ | ⟨h1, h2, h3⟩
  · rw [h3, h4]; simp [h1, h2]; cases r <;> simp
  · rw [h4, h5]; simp [h1, h2, h3]
  · rw [h4, h5]; simp [h1, h2, h3, get_put, Entry.applied]
    intro a b hk; simp [hk]
  · rw [h2, h3]; simp [h1, get_put]
    intro a b hk; simp [hk]

/-! ### Skipping, order, and the applied blocks -/

theorem acceptedIn_snoc (z : Nat) (ops : List Op) (o : Op) :
    acceptedIn z (ops ++ [o]) = acceptedIn z ops ++ (accepts (run z ops) o).toList := observe_snoc _ _ _ _

theorem settledIn_snoc (z : Nat) (ops : List Op) (o : Op) :
    settledIn z (ops ++ [o]) = settledIn z ops ++ ((accepts (run z ops) o).toList ++ takes (run z ops) o) :=
  observe_snoc _ _ _ _

theorem fold_refresh_exact (ext : List Entry) (sy : Nat → Option Nat) (s m : Nat) :
    Below m ((ext.foldl (fun sy e => refresh sy e.id.shard e.id.seqno) sy) s) ↔
      Below m (sy s) ∨ ∃ e ∈ ext, e.id.shard = s ∧ m ≤ e.id.seqno := by
  induction ext generalizing sy with
  | nil => simp
  | cons e ext ih =>
    simp only [List.foldl_cons]
    rw [ih]
    have : Below m (refresh sy e.id.shard e.id.seqno s) ↔ Below m (sy s) ∨ (e.id.shard = s ∧ m ≤ e.id.seqno) := by
      by_cases hs : s = e.id.shard
      · subst hs
        rw [refresh_same]
        unfold Below
        cases sy e.id.shard with
        | none => simp
        | some k => simp; omega
      · rw [refresh_other _ _ _ _ hs]
        simp [Ne.symm hs]
    rw [this]
    simp only [List.mem_cons, exists_eq_or_imp]
    tauto

theorem subgraph_synced {c : Cache} (hk : Keyed c.blocks) (e : Entry) :
    (c.subgraph e).1.synced = (c.subgraph e).2.shards.reverse.foldl (fun sy e => refresh sy e.id.shard e.id.seqno) c.synced := by
  obtain ⟨ext2, ho2, _, _, _, hs⟩ := drain_order e.id.seqno (steps c.blocks (startTops c.zero e)) c.blocks c.synced
    (startTops c.zero e) [] hk
  simp only [Cache.subgraph, List.reverse_reverse]
  rw [hs, ho2]; simp

theorem refresh_below_iff (sy : Nat → Option Nat) (sh n s m : Nat) :
    Below m (refresh sy sh n s) ↔ Below m (sy s) ∨ (sh = s ∧ m ≤ n) := by
  by_cases hs : s = sh
  · subst hs
    rw [refresh_same]
    unfold Below
    cases sy s with
    | none => simp
    | some k => simp; omega
  · rw [refresh_other _ _ _ _ hs]; simp [Ne.symm hs]

theorem synced_step {c : Cache} (h : Inv c) (o : Op) (s m : Nat) :
    Below m ((step c o).synced s) ↔
      Below m (c.synced s) ∨ ∃ i ∈ (accepts c o).toList ++ takes c o, i.shard = s ∧ m ≤ i.seqno := by
  cases o with
  | collated b =>
    simp only [step, accepts, takes]
    rcases collated_cases c b with ⟨e0, st, r, h1, h2, h3, h4⟩ | ⟨e0, cl, h1, h2, h3, h4, h5⟩ |
      ⟨e0, cl, h1, h2, h3, h4, h5⟩ | ⟨h1, h2, h3⟩
    · rw [h4]; simp
    · rw [h5]; simp
    · rw [h5]; simp
    · rw [h3]; simp
  | received b =>
    simp only [step, takes]
    rcases received_cases h b with ⟨_, h2, h3⟩ | ⟨h1, h2, _, _, _, _, h5⟩
    · rw [h3]; simp [accepts, h2]
    · have hok : accepts c (.received b) = some b.id := by
        simp only [accepts]
        rcases h5 with ⟨_, h7, _⟩ | ⟨_, _, _, _, _, h9, _⟩ | ⟨_, _, _, _, _, h9, _⟩
        · rw [h7]
        · rw [h9]
        · rw [h9]
      rw [h2, hok]
      simp only [Option.toList, List.append_nil, List.mem_singleton, exists_eq_left]
      unfold upd
      by_cases hs : s = b.id.shard
      · subst hs
        simp only [if_true, true_and]
        constructor
        · rintro ⟨k, hk, hm⟩; cases hk; exact Or.inr hm
        · rintro (hb | hm)
          · obtain ⟨k, hk, hm⟩ := hb
            refine ⟨b.id.seqno, rfl, ?_⟩
            by_cases hx : b.id.seqno ≤ k
            · exact absurd ⟨k, hk, hx⟩ h1
            · omega
          · exact ⟨_, rfl, hm⟩
      · simp [hs, Ne.symm hs]
  | validation i v =>
    have : (c.storeValidation i v).1.synced = c.synced := by
      unfold Cache.storeValidation
      split
      · rfl
      · split
        · rfl
        · split
          · rfl
          · split <;> rfl
    simp [step, accepts, takes, this]
  | pop f g =>
    simp only [step, accepts, takes, Option.toList, List.nil_append]
    rcases popFront_cases h f with ⟨hp, _⟩ | ⟨n, x, hf, hx, ha, hn, hp⟩
    · rw [hp]; simp [Cache.afterPop]
    · rw [hp]
      have hs : (Cache.afterPop (((c.takeFront n x).subgraph x).1,
          some (((c.takeFront n x).subgraph x).2, c.isLast n)) g).synced = ((c.takeFront n x).subgraph x).1.synced := by
        unfold Cache.afterPop
        simp only
        split
        · exact (setGc_fields _ _).2.1
        · rfl
      rw [hs, subgraph_synced (inv_takeFront h hx ha).keyed, fold_refresh_exact]
      have hk := h.keyed _ _ hx
      have hbel := h.appl _ _ hx ha
      simp only [Subgraph.ids, List.mem_cons, List.mem_map, exists_eq_or_imp, Cache.takeFront, List.mem_reverse]
      have hmaster : ((c.takeFront n x).subgraph x).2.master = x := rfl
      simp only [Cache.takeFront] at hmaster
      rw [hmaster]
      constructor
      · rintro (h1 | ⟨e, he, h1, h2⟩)
        · exact Or.inl h1
        · exact Or.inr (Or.inr ⟨e.id, ⟨e, he, rfl⟩, h1, h2⟩)
      · rintro (h1 | ⟨h1, h2⟩ | ⟨i, ⟨e, he, rfl⟩, h1, h2⟩)
        · exact Or.inl h1
        · left
          obtain ⟨q, hq, hq2⟩ := hbel
          have hz : x.id.shard = 0 := congrArg Prod.fst hk
          rw [← h1, hz]
          exact ⟨q, hq, by simp only at hq2; omega⟩
        · exact Or.inr ⟨e, he, h1, h2⟩
  | commit i d =>
    simp only [step, accepts, takes, Option.toList, List.nil_append]
    rcases commit_cases c i d with ⟨hn, hp⟩ | ⟨x, hx, hp⟩
    · rw [hp]
      have : (c.extract i).2 = none := by unfold Cache.extract; rw [hn]
      rw [this]; simp [Cache.gc]
    · rw [hp]
      have : (c.extract i).2 = some ((c.takeForSync i x).subgraph x).2 := by unfold Cache.extract; rw [hx]
      rw [this]
      simp only [Cache.gc]
      rw [(setGc_fields _ _).2.1, subgraph_synced (inv_takeForSync h i x).keyed, fold_refresh_exact]
      have hk := h.keyed _ _ hx
      simp only [Subgraph.ids, List.mem_cons, List.mem_map, exists_eq_or_imp, List.mem_reverse]
      have hmaster : ((c.takeForSync i x).subgraph x).2.master = x := rfl
      rw [hmaster]
      have hsy : (c.takeForSync i x).synced = refresh c.synced 0 i.seqno := rfl
      rw [hsy, refresh_below_iff]
      have hz : x.id.shard = 0 := congrArg Prod.fst hk
      have hq : x.id.seqno = i.seqno := congrArg Prod.snd hk
      rw [hz, hq]
      constructor
      · rintro ((h1 | h1) | ⟨e, he, h1, h2⟩)
        · exact Or.inl h1
        · exact Or.inr (Or.inl h1)
        · exact Or.inr (Or.inr ⟨e.id, ⟨e, he, rfl⟩, h1, h2⟩)
      · rintro (h1 | h1 | ⟨i, ⟨e, he, rfl⟩, h1, h2⟩)
        · exact Or.inl (Or.inl h1)
        · exact Or.inl (Or.inr h1)
        · exact Or.inr ⟨e, he, h1, h2⟩
  | gc => simp [step, accepts, takes, Cache.gc]
  | removeNext ks =>
    have : (c.removeNext ks).synced = c.synced := by
      unfold Cache.removeNext
      have : ∀ c : Cache, (ks.foldl Cache.removeNext1 c).synced = c.synced := by
        induction ks with
        | nil => intro c; rfl
        | cons k ks ih => intro c; simp only [List.foldl_cons]; rw [ih]; rfl
      exact this c
    simp [step, accepts, takes, this]
  | takeTops n shs =>
    simp only [step, accepts, takes]
    rw [(takeTops_fields c n shs).2.1]; simp
  | resetTops => simp [step, accepts, takes, Cache.resetTops]

theorem synced_exact (z : Nat) (ops : List Op) (hw : ∀ o ∈ ops, o.Wf) (s m : Nat) :
    Below m ((run z ops).synced s) ↔ ∃ i ∈ settledIn z ops, i.shard = s ∧ m ≤ i.seqno := by
  refine hist_ind (P := fun ops => Below m ((run z ops).synced s) ↔ ∃ i ∈ settledIn z ops, i.shard = s ∧ m ≤ i.seqno)
    z ?_ ?_ ops hw
  · simp [run, Cache.init, Below, settledIn, observe]
  · intro ops o _ ho hI ih
    rw [run_snoc, synced_step hI, ih, settledIn_snoc]
    simp only [List.mem_append, or_and_right, exists_or]

/-- A block from the chain is skipped exactly when a block of its shard at its height or above was accepted before, or
taken out of the cache with its master block. -/
theorem received_skipped_iff (z : Nat) (ops : List Op) (hw : ∀ o ∈ ops, o.Wf) (b : Block) :
    ((run z ops).storeReceived b).2 = .skipped ↔
      ∃ i ∈ settledIn z ops, i.shard = b.id.shard ∧ b.id.seqno ≤ i.seqno := by
  rw [← synced_exact z ops hw]
  rcases received_cases (inv_run z ops hw) b with ⟨h1, h2, _⟩ | ⟨h1, _, _, _, _, _, h5⟩
  · simp [h2, h1]
  · rcases h5 with ⟨_, h7, _⟩ | ⟨_, _, _, _, _, h9, _⟩ | ⟨_, _, _, _, _, h9, _⟩ <;> simp_all

theorem accepted_settled (z : Nat) (ops : List Op) (i : Id) (h : i ∈ acceptedIn z ops) : i ∈ settledIn z ops := by
  induction ops using List.reverseRecOn with
  | nil => simp [acceptedIn, observe] at h
  | append_singleton ops o ih =>
    rw [acceptedIn_snoc] at h
    rw [settledIn_snoc]
    rcases List.mem_append.mp h with h | h
    · simp [ih h]
    · simp [h]

/-- The blocks accepted from the chain have strictly growing seqnos in every shard. -/
theorem accepted_increasing (z : Nat) (ops : List Op) (hw : ∀ o ∈ ops, o.Wf) :
    (acceptedIn z ops).Pairwise (fun i j => i.shard = j.shard → i.seqno < j.seqno) := by
  refine hist_ind (P := fun ops => (acceptedIn z ops).Pairwise (fun i j => i.shard = j.shard → i.seqno < j.seqno))
    z ?_ ?_ ops hw
  · simp [acceptedIn, observe]
  · intro ops o hws ho hI ih
    rw [acceptedIn_snoc, List.pairwise_append]
    refine ⟨ih, ?_, ?_⟩
    · cases accepts (run z ops) o <;> simp
    · intro i hi j hj hs
      cases o with
      | received b =>
        simp only [accepts] at hj
        have hacc : ((run z ops).storeReceived b).2 ≠ .skipped ∧ j = b.id := by
          cases hr : ((run z ops).storeReceived b).2 <;> rw [hr] at hj <;> simp at hj ⊢
          exact hj
        obtain ⟨hns, rfl⟩ := hacc
        by_cases hlt : i.seqno < b.id.seqno
        · exact hlt
        · exfalso
          apply hns
          rw [received_skipped_iff z ops hws]
          exact ⟨i, accepted_settled z ops i hi, hs, by omega⟩
      | _ => simp [accepts] at hj

/-- A cached block that counts as applied is the block that was accepted from the chain at its height. -/
theorem applied_is_accepted (z : Nat) (ops : List Op) (hw : ∀ o ∈ ops, o.Wf) (k : Nat × Nat) (e : Entry)
    (h : get (run z ops).blocks k = some e) (ha : e.applied = true) :
    e.id.key = k ∧ e.id ∈ acceptedIn z ops ∧ ∀ i ∈ acceptedIn z ops, i.key = k → i = e.id := by
  have main : ∀ k e, get (run z ops).blocks k = some e → e.applied = true → e.id ∈ acceptedIn z ops := by
    refine hist_ind (P := fun ops => ∀ k e, get (run z ops).blocks k = some e → e.applied = true →
      e.id ∈ acceptedIn z ops) z ?_ ?_ ops hw
    · simp [run, Cache.init, Table.get]
    · intro ops o _ ho hI ih k e hg ha
      rw [run_snoc] at hg
      rw [acceptedIn_snoc]
      rcases step_blocks hI o k e hg with hs | ⟨b, h1, h2, h3, h4⟩ | ⟨b, e0, cl, h1, h2, h3, h4, h5, h6⟩ |
        ⟨b, h1, h2, h3, h4, h5⟩ | ⟨b, e0, st, r, h1, h2, h3, h4, h5, h6, h7⟩ | ⟨i, v, e0, st, r, h1, h2, h3, h4, h5, h6⟩
      · simp [ih k e hs ha]
      · subst h4; simp [Entry.applied, Block.ownEntry] at ha
      · subst h6
        have := ih k e0 h3 (by simp [Entry.applied, h4])
        simp [this]
      · subst h5; rw [h2]; simp [Block.chainEntry]
      · subst h7; rw [h2]; simp [h6]
      · subst h6
        simp only [Entry.applied] at ha
        have := (hI.stat _ _ _ _ h3 h4).mpr ha
        exact absurd this h5
  have hin := main k e h ha
  have hk := (inv_run z ops hw).keyed k e h
  refine ⟨hk, hin, ?_⟩
  intro i hi hik
  have hinc := accepted_increasing z ops hw
  rw [← hk] at hik
  have h1 : i.shard = e.id.shard := congrArg Prod.fst hik
  have h2 : i.seqno = e.id.seqno := congrArg Prod.snd hik
  clear hik main h hk ha
  generalize acceptedIn z ops = L at hi hin hinc
  induction L with
  | nil => simp at hi
  | cons x L ih =>
    rw [List.pairwise_cons] at hinc
    rcases List.mem_cons.mp hi with rfl | hi
    · rcases List.mem_cons.mp hin with he | he
      · exact he.symm
      · have := hinc.1 _ he h1; omega
    · rcases List.mem_cons.mp hin with he | he
      · rw [← he] at hinc
        have := hinc.1 _ hi h1.symm; omega
      · exact ih hi he hinc.2

end Tycho.BlocksCache
