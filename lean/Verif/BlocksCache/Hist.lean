import Verif.BlocksCache.Steps
import Mathlib.Data.List.Induction
/-! How the cached blocks change, and histories. -/
namespace Tycho.BlocksCache
open Tycho.Table
open Tycho.Table (get)

/-- How a cached block came to be in its slot at one operation. -/
inductive Came (c : Cache) (o : Op) (k : Nat × Nat) (e : Entry) : Prop where
  | stayed : get c.blocks k = some e → Came c o k e
  | own (b : Block) : o = .collated b → b.id.key = k → get c.blocks k = none → e = b.ownEntry → Came c o k e
  | both (b : Block) (e0 : Entry) (cl : Bool) : o = .collated b → b.id.key = k → get c.blocks k = some e0 →
      e0.kind = .received cl → e0.id = b.id → e = { e0 with kind := .received true } → Came c o k e
  | chain (b : Block) : o = .received b → accepts c o = some b.id → b.id.key = k →
      (∀ e0, get c.blocks k = some e0 → (∃ st r, e0.kind = .collated st r) ∧ e0.id ≠ b.id) → e = b.chainEntry → Came c o k e
  | confirmed (b : Block) (e0 : Entry) (st : Status) (r : Bool) : o = .received b → accepts c o = some b.id →
      b.id.key = k → get c.blocks k = some e0 → e0.kind = .collated st r → e0.id = b.id →
      e = { e0 with kind := .collated .synced true } → Came c o k e
  | voted (i : Id) (v : Bool) (e0 : Entry) (st : Status) (r : Bool) : o = .validation i v → k = (0, i.seqno) →
      get c.blocks k = some e0 → e0.kind = .collated st r → st ≠ .synced →
      e = { e0 with kind := .collated (verdict v) r } → Came c o k e

theorem popFront_cases {c : Cache} (h : Inv c) (f : Nat) :
    ((c.popFront f) = (c, none) ∧ c.frontKey f = none) ∨
    ∃ n e, c.frontKey f = some n ∧ get c.blocks (0, n) = some e ∧ e.applied = true ∧ e.id.seqno = n ∧
      c.popFront f = (((c.takeFront n e).subgraph e).1, some (((c.takeFront n e).subgraph e).2, c.isLast n)) := by
  unfold Cache.popFront
  split
  · rename_i hf; exact Or.inl ⟨rfl, hf⟩
  · rename_i n hf
    obtain ⟨_, ⟨e, he, ha⟩, _⟩ := frontKey_spec h.ub hf
    rw [he]
    right
    have := congrArg Prod.snd (h.keyed _ _ he)
    exact ⟨n, e, hf, he, ha, this, rfl⟩

theorem inv_takeFront {c : Cache} (h : Inv c) {n : Nat} {e : Entry} (he : get c.blocks (0, n) = some e)
    (ha : e.applied = true) : Inv (c.takeFront n e) :=
  inv_take h n c.synced (startPast c.range e.id.seqno) (fun _ _ x => x) (h.appl _ _ he ha) e.id.seqno

theorem inv_takeForSync {c : Cache} (h : Inv c) (i : Id) (e : Entry) : Inv (c.takeForSync i e) :=
  inv_take h i.seqno (refresh c.synced 0 i.seqno) (if e.applied then startPast c.range i.seqno else c.range)
    (fun _ _ x => refresh_below _ _ _ _ _ x) (refresh_self _ _ _) i.seqno

theorem front_shrunk {c : Cache} (h : Inv c) {n : Nat} {e : Entry} (he : get c.blocks (0, n) = some e)
    (ha : e.applied = true) : Shrunk (c.takeFront n e) ((c.takeFront n e).subgraph e).1 :=
  subgraph_shrunk (inv_takeFront h he ha).keyed (inv_takeFront h he ha).prevs (h.tops _ _ he)

theorem sync_shrunk {c : Cache} (h : Inv c) (i : Id) {e : Entry} (he : get c.blocks (0, i.seqno) = some e) :
    Shrunk (c.takeForSync i e) ((c.takeForSync i e).subgraph e).1 :=
  subgraph_shrunk (inv_takeForSync h i e).keyed (inv_takeForSync h i e).prevs (h.tops _ _ he)

theorem commit_cases (c : Cache) (i : Id) (d : Option Nat) :
    (get c.blocks (0, i.seqno) = none ∧ c.commit i d = (c.gc, { sent := [], diff := false, notify := d })) ∨
    ∃ e, get c.blocks (0, i.seqno) = some e ∧
      c.commit i d = (((((c.takeForSync i e).subgraph e).1).setGc e.topKeys).gc,
        decideCommit ((c.takeForSync i e).subgraph e).2) := by
  unfold Cache.commit Cache.extract
  cases he : get c.blocks (0, i.seqno) with
  | none => left; simp
  | some e => right; exact ⟨e, rfl, rfl⟩

theorem pop_sub {c : Cache} (h : Inv c) (f : Nat) (g : Bool) (k : Nat × Nat) (e : Entry)
    (hg : get (Cache.afterPop (c.popFront f) g).blocks k = some e) : get c.blocks k = some e := by
  rcases popFront_cases h f with ⟨hp, _⟩ | ⟨n, x, hf, hx, ha, hn, hp⟩
  · rw [hp] at hg; exact hg
  · rw [hp] at hg
    have hg2 : get ((c.takeFront n x).subgraph x).1.blocks k = some e := by
      unfold Cache.afterPop at hg
      simp only at hg
      split at hg
      · rw [(setGc_fields _ _).1] at hg; exact hg
      · exact hg
    have := (front_shrunk h hx ha).sub k e hg2
    simp only [Cache.takeFront, get_del] at this
    split at this
    · cases this
    · exact this

theorem commit_sub {c : Cache} (h : Inv c) (i : Id) (d : Option Nat) (k : Nat × Nat) (e : Entry)
    (hg : get (c.commit i d).1.blocks k = some e) : get c.blocks k = some e := by
  rcases commit_cases c i d with ⟨_, hp⟩ | ⟨x, hx, hp⟩
  · rw [hp] at hg
    simp only [Cache.gc, get_del] at hg
    split at hg
    · cases hg
    · exact hg
  · rw [hp] at hg
    simp only [Cache.gc, get_del] at hg
    split at hg
    · cases hg
    · rw [(setGc_fields _ _).1] at hg
      have := (sync_shrunk h i hx).sub k e hg
      simp only [Cache.takeForSync, get_del] at this
      split at this
      · cases this
      · exact this

theorem removeNext_sub {c : Cache} (h : Inv c) (ks : List (Nat × Nat)) (k : Nat × Nat) (e : Entry)
    (hg : get (c.removeNext ks).blocks k = some e) : get c.blocks k = some e := by
  unfold Cache.removeNext at hg
  induction ks generalizing c with
  | nil => exact hg
  | cons j ks ih =>
    have := ih (inv_removeNext1 h j) hg
    rw [removeNext1_get h.ub] at this
    cases hj : get c.blocks k with
    | none => rw [hj] at this; cases this
    | some v => rw [hj] at this; simp only at this; split at this <;> simp_all

theorem takeTops_fields (c : Cache) (n : Nat) (shs : List Nat) :
    (c.takeTops n shs).1.blocks = c.blocks ∧ (c.takeTops n shs).1.synced = c.synced ∧
      (c.takeTops n shs).1.lastColl = c.lastColl ∧ (c.takeTops n shs).1.range = c.range ∧
      (c.takeTops n shs).1.gcTo = c.gcTo := by
  induction shs generalizing c with
  | nil => simp [Cache.takeTops]
  | cons s shs ih =>
    have h1 := ih (c.takeTop n s).1
    have h2 : (c.takeTop n s).1.blocks = c.blocks ∧ (c.takeTop n s).1.synced = c.synced ∧
        (c.takeTop n s).1.lastColl = c.lastColl ∧ (c.takeTop n s).1.range = c.range ∧
        (c.takeTop n s).1.gcTo = c.gcTo := by
      unfold Cache.takeTop
      split
      · simp
      · split <;> simp
    simp only [Cache.takeTops]
    grind

/-- Exactly how a stored received block changes the cached blocks. -/
theorem received_cases {c : Cache} (h : Inv c) (b : Block) :
    (Below b.id.seqno (c.synced b.id.shard) ∧ (c.storeReceived b).2 = .skipped ∧
      (c.storeReceived b).1 = { c with known := upd c.known b.id.shard true }) ∨
    (¬ Below b.id.seqno (c.synced b.id.shard) ∧ (c.storeReceived b).1.synced = upd c.synced b.id.shard (some b.id.seqno) ∧
      (c.storeReceived b).1.gcTo = c.gcTo ∧ (c.storeReceived b).1.funds = c.funds ∧
      (c.storeReceived b).1.flow = c.flow ∧
      (c.storeReceived b).1.range = (if b.id.shard = 0 then endAt c.range b.id.seqno else c.range) ∧
      ((get c.blocks b.id.key = none ∧ (c.storeReceived b).2 = .ok false false ∧
          (c.storeReceived b).1.blocks = put c.blocks b.id.key b.chainEntry ∧
          (c.storeReceived b).1.lastColl = c.lastColl) ∨
        (∃ e st, get c.blocks b.id.key = some e ∧ e.kind = .collated st false ∧ e.id ≠ b.id ∧
          (c.storeReceived b).2 = .ok false true ∧
          (c.storeReceived b).1.blocks = put c.blocks b.id.key b.chainEntry ∧
          (c.storeReceived b).1.lastColl =
            dropFrom c.lastColl (if b.id.shard = 0 then b.id.seqno else b.ref)) ∨
        (∃ e st, get c.blocks b.id.key = some e ∧ e.kind = .collated st false ∧ e.id = b.id ∧
          (c.storeReceived b).2 = .ok true false ∧
          (c.storeReceived b).1.blocks = put c.blocks b.id.key { e with kind := .collated .synced true } ∧
          (c.storeReceived b).1.lastColl = c.lastColl))) := by
  unfold Cache.storeReceived
  simp only
  have hnn : (({ c with known := upd c.known b.id.shard true } : Cache).notNewer b.id.shard b.id.seqno = true) ↔
      Below b.id.seqno (c.synced b.id.shard) := notNewer_iff _ _ _
  split
  · rename_i hn
    exact Or.inl ⟨hnn.mp hn, rfl, rfl⟩
  · rename_i hn
    have hb : ¬ Below b.id.seqno (c.synced b.id.shard) := fun x => hn (hnn.mpr x)
    right
    refine ⟨hb, ?_⟩
    unfold Cache.putReceived
    simp only
    cases he : get c.blocks b.id.key with
    | none => simp [Cache.forgetMismatched]
    | some e =>
      cases hk : e.kind with
      | received cl =>
        exact absurd (h.appl _ _ he (by simp [Entry.applied, hk])) hb
      | collated st r =>
        have hr : r = false := by
          cases r
          · rfl
          · exact absurd (h.appl _ _ he (by simp [Entry.applied, hk])) hb
        subst hr
        simp only
        by_cases hid : e.id = b.id
        · simp [Cache.forgetMismatched, hid, hk]
        · simp [Cache.forgetMismatched, hid, hk]

/-- Exactly how a stored own candidate changes the cache. -/
theorem collated_cases (c : Cache) (b : Block) :
    (∃ e st r, get c.blocks b.id.key = some e ∧ e.kind = .collated st r ∧ (c.storeCollated b).2 = .error ∧
      (c.storeCollated b).1 = { c with known := upd c.known b.id.shard true }) ∨
    (∃ e cl, get c.blocks b.id.key = some e ∧ e.kind = .received cl ∧ e.id ≠ b.id ∧
      (c.storeCollated b).2 = .ok false true ∧
      (c.storeCollated b).1 = { c with known := upd c.known b.id.shard true }) ∨
    (∃ e cl, get c.blocks b.id.key = some e ∧ e.kind = .received cl ∧ e.id = b.id ∧
      (c.storeCollated b).2 = .ok true false ∧
      (c.storeCollated b).1 = ({ c with
        known := upd c.known b.id.shard true
        blocks := put c.blocks b.id.key { e with kind := .received true } } : Cache).onCollated b) ∨
    (get c.blocks b.id.key = none ∧ (c.storeCollated b).2 = .ok false false ∧
      (c.storeCollated b).1 = ({ c with
        known := upd c.known b.id.shard true
        blocks := put c.blocks b.id.key b.ownEntry } : Cache).onCollated b) := by
  unfold Cache.storeCollated Cache.putCollated
  simp only
  cases he : get c.blocks b.id.key with
  | none => simp
  | some e =>
    cases hk : e.kind with
    | collated st r => left; exact ⟨e, st, r, rfl, hk, by simp [hk], by simp [hk]⟩
    | received cl =>
      by_cases hid : e.id = b.id
      · right; right; left; exact ⟨e, cl, rfl, hk, hid, by simp [hk, hid], by simp [hk, hid]⟩
      · right; left; exact ⟨e, cl, rfl, hk, hid, by simp [hk, hid], by simp [hk, hid]⟩

theorem step_blocks {c : Cache} (h : Inv c) (o : Op) (k : Nat × Nat) (e : Entry)
    (hg : get (step c o).blocks k = some e) : Came c o k e := by
  cases o with
  | collated b =>
    simp only [step] at hg
    rcases collated_cases c b with ⟨e0, st, r, h1, h2, h3, h4⟩ | ⟨e0, cl, h1, h2, h3, h4, h5⟩ |
      ⟨e0, cl, h1, h2, h3, h4, h5⟩ | ⟨h1, h2, h3⟩
    · rw [h4] at hg; exact .stayed hg
    · rw [h5] at hg; exact .stayed hg
    · rw [h5] at hg
      simp only [onCollated_blocks, get_put] at hg
      split at hg
      · rename_i hk; subst hk
        cases hg
        exact .both b e0 cl rfl rfl h1 h2 h3 rfl
      · exact .stayed hg
    · rw [h3] at hg
      simp only [onCollated_blocks, get_put] at hg
      split at hg
      · rename_i hk; subst hk
        cases hg
        exact .own b rfl rfl h1 rfl
      · exact .stayed hg
  | received b =>
    simp only [step] at hg
    rcases received_cases h b with ⟨_, h2, h3⟩ | ⟨h1, h2, _, _, _, _, h5⟩
    · rw [h3] at hg; exact .stayed hg
    · rcases h5 with ⟨h6, h7, h8, _⟩ | ⟨e0, st, h6, h7, h8, h9, h10, _⟩ | ⟨e0, st, h6, h7, h8, h9, h10, _⟩
      · rw [h8, get_put] at hg
        split at hg
        · rename_i hk; subst hk; cases hg
          exact .chain b rfl (by simp [accepts, h7]) rfl (by simp [h6]) rfl
        · exact .stayed hg
      · rw [h10, get_put] at hg
        split at hg
        · rename_i hk; subst hk; cases hg
          exact .chain b rfl (by simp [accepts, h9]) rfl
            (by intro e1 he1; rw [h6] at he1; cases he1; exact ⟨⟨st, false, h7⟩, h8⟩) rfl
        · exact .stayed hg
      · rw [h10, get_put] at hg
        split at hg
        · rename_i hk; subst hk; cases hg
          exact .confirmed b e0 st false rfl (by simp [accepts, h9]) rfl h6 h7 h8 rfl
        · exact .stayed hg
  | validation i v =>
    simp only [step, Cache.storeValidation] at hg
    split at hg
    · exact .stayed hg
    · rename_i e0 he0
      split at hg
      · exact .stayed hg
      · rename_i st r hk
        split at hg
        · exact .stayed hg
        · rename_i hst
          split at hg
          · exact .stayed hg
          · simp only [get_put] at hg
            split at hg
            · rename_i hkk; subst hkk; cases hg
              exact .voted i v e0 st r rfl rfl he0 hk hst rfl
            · exact .stayed hg
  | pop f g => exact .stayed (pop_sub h f g k e hg)
  | commit i d => exact .stayed (commit_sub h i d k e hg)
  | gc =>
    simp only [step, Cache.gc, get_del] at hg
    split at hg
    · cases hg
    · exact .stayed hg
  | removeNext ks => exact .stayed (removeNext_sub h ks k e hg)
  | takeTops n shs =>
    simp only [step] at hg
    rw [(takeTops_fields c n shs).1] at hg
    exact .stayed hg
  | resetTops => exact .stayed hg

/-- Induction over histories of well-formed operations: the last operation is applied to a state that keeps the
invariant. -/
theorem hist_ind {P : List Op → Prop} (z : Nat) (h0 : P [])
    (h1 : ∀ ops o, (∀ x ∈ ops, x.Wf) → o.Wf → Inv (run z ops) → P ops → P (ops ++ [o]))
    (ops : List Op) (h : ∀ o ∈ ops, o.Wf) : P ops := by
  induction ops using List.reverseRecOn with
  | nil => exact h0
  | append_singleton ops o ih =>
    have hw : ∀ x ∈ ops, x.Wf := fun x hx => h x (by simp [hx])
    exact h1 ops o hw (h o (by simp)) (inv_run z ops hw) (ih hw)

end Tycho.BlocksCache
