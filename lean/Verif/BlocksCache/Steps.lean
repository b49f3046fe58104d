import Verif.BlocksCache.Inv
/-! Every operation keeps the invariant. -/
namespace Tycho.BlocksCache
open Tycho.Table
open Tycho.Table (get)

@[simp] theorem onCollated_blocks (c : Cache) (b : Block) : (c.onCollated b).blocks = c.blocks := by
  unfold Cache.onCollated; split <;> rfl
@[simp] theorem onCollated_synced (c : Cache) (b : Block) : (c.onCollated b).synced = c.synced := by
  unfold Cache.onCollated; split <;> rfl
@[simp] theorem onCollated_gcTo (c : Cache) (b : Block) : (c.onCollated b).gcTo = c.gcTo := by
  unfold Cache.onCollated; split <;> rfl
@[simp] theorem onCollated_lastColl (c : Cache) (b : Block) :
    (c.onCollated b).lastColl = if b.id.shard = 0 then put c.lastColl b.id.seqno b.id else c.lastColl := by
  unfold Cache.onCollated; split <;> rfl
@[simp] theorem onCollated_range (c : Cache) (b : Block) :
    (c.onCollated b).range = if b.id.shard = 0 then startPast c.range b.id.seqno else c.range := by
  unfold Cache.onCollated; split <;> rfl
@[simp] theorem onReceived_blocks (c : Cache) (b : Block) : (c.onReceived b).blocks = c.blocks := by
  unfold Cache.onReceived; split <;> rfl
@[simp] theorem onReceived_synced (c : Cache) (b : Block) : (c.onReceived b).synced = c.synced := by
  unfold Cache.onReceived; split <;> rfl
@[simp] theorem onReceived_gcTo (c : Cache) (b : Block) : (c.onReceived b).gcTo = c.gcTo := by
  unfold Cache.onReceived; split <;> rfl
@[simp] theorem onReceived_lastColl (c : Cache) (b : Block) : (c.onReceived b).lastColl = c.lastColl := by
  unfold Cache.onReceived; split <;> rfl
@[simp] theorem onReceived_range (c : Cache) (b : Block) :
    (c.onReceived b).range = if b.id.shard = 0 then endAt c.range b.id.seqno else c.range := by
  unfold Cache.onReceived; split <;> rfl
@[simp] theorem onReceived_funds (c : Cache) (b : Block) : (c.onReceived b).funds = c.funds := by
  unfold Cache.onReceived; split <;> rfl
@[simp] theorem onReceived_flow (c : Cache) (b : Block) : (c.onReceived b).flow = c.flow := by
  unfold Cache.onReceived; split <;> rfl

theorem inv_known {c : Cache} (h : Inv c) (f : Nat → Bool) : Inv { c with known := f } :=
  ⟨h.ub, h.ul, h.keyed, h.tops, h.prevs, h.appl, h.gcm, h.lck, h.lcm, h.lcn, h.stat, h.shst⟩

theorem inv_range {c : Cache} (h : Inv c) (r : Option (Nat × Nat)) : Inv { c with range := r } :=
  ⟨h.ub, h.ul, h.keyed, h.tops, h.prevs, h.appl, h.gcm, h.lck, h.lcm, h.lcn, h.stat, h.shst⟩

theorem inv_funds {c : Cache} (h : Inv c) (f : Nat → Nat) (g : Nat → Nat × Nat) : Inv { c with flow := f, funds := g } :=
  ⟨h.ub, h.ul, h.keyed, h.tops, h.prevs, h.appl, h.gcm, h.lck, h.lcm, h.lcn, h.stat, h.shst⟩

/-- Forgetting own ids keeps the invariant. -/
theorem inv_forget {c : Cache} (h : Inv c) (t : Table Nat Id) (hu : Uniq t)
    (hs : ∀ n i, get t n = some i → get c.lastColl n = some i) : Inv { c with lastColl := t } :=
  ⟨h.ub, hu, h.keyed, h.tops, h.prevs, h.appl, h.gcm, fun n i hn => h.lck n i (hs n i hn),
    fun n i e hn => h.lcm n i e (hs n i hn), fun n i hn => h.lcn n i (hs n i hn), h.stat, h.shst⟩

theorem inv_putCollated {c : Cache} (h : Inv c) {b : Block} (hb : b.Wf) : Inv (c.putCollated b).1 := by
  unfold Cache.putCollated
  split
  · rename_i e he
    split
    · rename_i cl hk
      split
      · exact h
      · rename_i hid
        have hid : e.id = b.id := by simpa using hid
        have h1 := h.keyed _ _ he
        have ha := h.appl _ _ he (by simp [Entry.applied, hk])
        constructor
        · simp; exact uniq_put _ _ _ h.ub
        · simp; split
          · exact uniq_put _ _ _ h.ul
          · exact h.ul
        · intro k x hg; simp [get_put] at hg
          have := h.keyed k x; grind
        · intro k x hg; simp [get_put] at hg
          have := h.tops k x; have := h.tops _ _ he; grind
        · intro k x hg; simp [get_put] at hg
          have := h.prevs k x; have := h.prevs _ _ he; grind
        · intro k x hg hx; simp [get_put] at hg; simp
          have := h.appl k x; grind
        · simp; exact h.gcm
        · intro n i; simp
          have := h.lck n i
          split
          · rw [get_put]; intro hg; split at hg
            · cases hg; simp_all [Id.key]
            · exact this hg
          · exact this
        · intro n i x; simp [get_put]
          have := h.lcm n i x; have := h.lcm n i e
          split
          · rw [get_put]; grind [Id.key]
          · grind [Id.key]
        · intro n i; simp [get_put]
          have := h.lcn n i
          split
          · rw [get_put]; grind [Id.key]
          · grind [Id.key]
        · intro k x st r; simp [get_put]
          have := h.stat k x st r; grind
        · intro k x st; simp [get_put]
          have := h.shst k x st; grind
    · exact h
  · rename_i he
    constructor
    · simp; exact uniq_put _ _ _ h.ub
    · simp; split
      · exact uniq_put _ _ _ h.ul
      · exact h.ul
    · intro k x hg; simp [get_put] at hg
      have := h.keyed k x; grind [Block.ownEntry]
    · intro k x hg; simp [get_put] at hg
      have := h.tops k x; have := hb.1; grind [Block.ownEntry]
    · intro k x hg; simp [get_put] at hg
      have := h.prevs k x; have := hb.2; grind [Block.ownEntry, Id.key]
    · intro k x hg hx; simp [get_put] at hg; simp
      have := h.appl k x; grind [Block.ownEntry, Entry.applied]
    · simp; exact h.gcm
    · intro n i; simp
      have := h.lck n i
      split
      · rw [get_put]; intro hg; split at hg
        · cases hg; simp_all [Id.key]
        · exact this hg
      · exact this
    · intro n i x; simp [get_put]
      have := h.lcm n i x
      split
      · rw [get_put]; grind [Id.key, Block.ownEntry]
      · grind [Id.key]
    · intro n i; simp [get_put]
      have := h.lcn n i
      split
      · rw [get_put]; grind [Id.key]
      · grind [Id.key]
    · intro k x st r; simp [get_put]
      have := h.stat k x st r; grind [Block.ownEntry]
    · intro k x st; simp [get_put]
      have := h.shst k x st; grind [Block.ownEntry]

theorem inv_storeCollated {c : Cache} (h : Inv c) {b : Block} (hb : b.Wf) : Inv (c.storeCollated b).1 :=
  inv_putCollated (inv_known h _) hb

theorem notNewer_iff (c : Cache) (s n : Nat) : c.notNewer s n = true ↔ Below n (c.synced s) := by
  unfold Cache.notNewer Below
  cases c.synced s <;> simp

theorem inv_synced {c : Cache} (h : Inv c) (s n : Nat) (hn : ¬ Below n (c.synced s)) :
    Inv { c with synced := upd c.synced s (some n) } ∧
      ∀ k m, Below m (c.synced k) → Below m (upd c.synced s (some n) k) := by
  have key : ∀ k m, Below m (c.synced k) → Below m (upd c.synced s (some n) k) := by
    intro k m hb
    unfold upd
    split
    · rename_i hk; subst hk
      obtain ⟨q, hq, hm⟩ := hb
      refine ⟨n, rfl, ?_⟩
      by_cases hqn : n ≤ q
      · exact absurd ⟨q, hq, hqn⟩ hn
      · omega
    · exact hb
  exact ⟨⟨h.ub, h.ul, h.keyed, h.tops, h.prevs, fun k e hg ha => key _ _ (h.appl k e hg ha),
    fun m hm => key _ _ (h.gcm m hm), h.lck, h.lcm, fun n i hn hg => key _ _ (h.lcn n i hn hg), h.stat, h.shst⟩, key⟩

/-- Storing a received block after the synced seqno was raised to it. On a mismatch the ids from it on are forgotten, so
the clause that ties the remembered ids to the cached blocks is only claimed below. -/
theorem inv_received {c : Cache} (h : Inv c) {b : Block} (hb : b.Wf) (hs : Below b.id.seqno (c.synced b.id.shard))
    (hv : b.id.shard = 0 → get c.blocks b.id.key = none → get c.lastColl b.id.seqno = none) :
    Inv ((c.putReceived b).1.forgetMismatched b (c.putReceived b).2) := by
  unfold Cache.putReceived
  split
  · rename_i e he
    split
    · exact h
    · rename_i st r hk
      have h1 := h.keyed _ _ he
      split
      · rename_i hid
        constructor
        · simp [Cache.forgetMismatched]; exact uniq_put _ _ _ h.ub
        · simp [Cache.forgetMismatched]; exact uniq_del _ _ h.ul
        · intro k x hg; simp [get_put, Cache.forgetMismatched] at hg
          have := h.keyed k x; grind [Block.chainEntry]
        · intro k x hg; simp [get_put, Cache.forgetMismatched] at hg
          have := h.tops k x; have := hb.1; grind [Block.chainEntry]
        · intro k x hg; simp [get_put, Cache.forgetMismatched] at hg
          have := h.prevs k x; have := hb.2; grind [Block.chainEntry, Id.key]
        · intro k x hg hx; simp [get_put, Cache.forgetMismatched] at hg; simp [Cache.forgetMismatched]
          have := h.appl k x; grind [Id.key]
        · simp [Cache.forgetMismatched]; exact h.gcm
        · intro n i; simp [Cache.forgetMismatched, get_dropFrom]
          have := h.lck n i; grind
        · intro n i x; simp [Cache.forgetMismatched, get_dropFrom, get_put]
          have := h.lcm n i x; grind [Id.key]
        · intro n i; simp [Cache.forgetMismatched, get_dropFrom, get_put]
          have := h.lcn n i; grind
        · intro k x st r; simp [Cache.forgetMismatched, get_put]
          have := h.stat k x st r; grind [Block.chainEntry]
        · intro k x st; simp [Cache.forgetMismatched, get_put]
          have := h.shst k x st; grind [Block.chainEntry]
      · rename_i hid
        have hid : e.id = b.id := by simpa using hid
        constructor
        · simp [Cache.forgetMismatched]; exact uniq_put _ _ _ h.ub
        · simp [Cache.forgetMismatched]; exact h.ul
        · intro k x hg; simp [get_put, Cache.forgetMismatched] at hg
          have := h.keyed k x; grind
        · intro k x hg; simp [get_put, Cache.forgetMismatched] at hg
          have := h.tops k x; have := h.tops _ _ he; grind
        · intro k x hg; simp [get_put, Cache.forgetMismatched] at hg
          have := h.prevs k x; have := h.prevs _ _ he; grind
        · intro k x hg hx; simp [get_put, Cache.forgetMismatched] at hg; simp [Cache.forgetMismatched]
          have := h.appl k x; grind [Id.key]
        · simp [Cache.forgetMismatched]; exact h.gcm
        · intro n i; simp [Cache.forgetMismatched]
          exact h.lck n i
        · intro n i x; simp [Cache.forgetMismatched, get_put]
          have := h.lcm n i x; have := h.lcm n i e; grind [Id.key]
        · intro n i; simp [Cache.forgetMismatched, get_put]
          have := h.lcn n i; grind
        · intro k x st r; simp [Cache.forgetMismatched, get_put]
          have := h.stat k x st r; grind
        · intro k x st; simp [Cache.forgetMismatched, get_put]
          have := h.shst k x st; grind
  · rename_i he
    constructor
    · simp [Cache.forgetMismatched]; exact uniq_put _ _ _ h.ub
    · simp [Cache.forgetMismatched]; exact h.ul
    · intro k x hg; simp [get_put, Cache.forgetMismatched] at hg
      have := h.keyed k x; grind [Block.chainEntry]
    · intro k x hg; simp [get_put, Cache.forgetMismatched] at hg
      have := h.tops k x; have := hb.1; grind [Block.chainEntry]
    · intro k x hg; simp [get_put, Cache.forgetMismatched] at hg
      have := h.prevs k x; have := hb.2; grind [Block.chainEntry, Id.key]
    · intro k x hg hx; simp [get_put, Cache.forgetMismatched] at hg; simp [Cache.forgetMismatched]
      have := h.appl k x; grind [Id.key]
    · simp [Cache.forgetMismatched]; exact h.gcm
    · intro n i; simp [Cache.forgetMismatched]
      exact h.lck n i
    · intro n i x; simp [Cache.forgetMismatched, get_put]
      have := h.lcm n i x; grind [Id.key]
    · intro n i; simp [Cache.forgetMismatched, get_put]
      have := h.lcn n i; grind
    · intro k x st r; simp [Cache.forgetMismatched, get_put]
      have := h.stat k x st r; grind [Block.chainEntry]
    · intro k x st; simp [Cache.forgetMismatched, get_put]
      have := h.shst k x st; grind [Block.chainEntry]

theorem inv_storeReceived {c : Cache} (h : Inv c) {b : Block} (hb : b.Wf) : Inv (c.storeReceived b).1 := by
  unfold Cache.storeReceived
  simp only
  split
  · exact inv_known h _
  · rename_i hn
    rw [notNewer_iff] at hn
    simp only at hn
    have h0 := inv_known h (upd c.known b.id.shard true)
    obtain ⟨h1, _⟩ := inv_synced h0 b.id.shard b.id.seqno hn
    refine inv_received h1 hb ?_ ?_
    · exact ⟨b.id.seqno, by simp [upd], Nat.le_refl _⟩
    · intro hz hg
      cases hl : get c.lastColl b.id.seqno with
      | none => rfl
      | some i =>
        exfalso
        have hk : b.id.key = (0, b.id.seqno) := by simp [Id.key, hz]
        have := h.lcn _ _ hl (by rw [← hk]; exact hg)
        rw [hz] at hn
        exact hn this

theorem inv_storeValidation {c : Cache} (h : Inv c) (i : Id) (v : Bool) : Inv (c.storeValidation i v).1 := by
  unfold Cache.storeValidation
  split
  · exact h
  · rename_i e he
    split
    · exact h
    · rename_i st r hk
      split
      · exact h
      · rename_i hst
        split
        · exact h
        · have hr : r = false := by
            have := h.stat _ _ _ _ he hk
            cases r
            · rfl
            · simp at this; exact absurd this hst
          constructor
          · exact uniq_put _ _ _ h.ub
          · exact h.ul
          · intro k x hg; simp [get_put] at hg
            have := h.keyed k x; have := h.keyed _ _ he; grind
          · intro k x hg; simp [get_put] at hg
            have := h.tops k x; have := h.tops _ _ he; grind
          · intro k x hg; simp [get_put] at hg
            have := h.prevs k x; grind
          · intro k x hg hx; simp [get_put] at hg
            have := h.appl k x; grind [Entry.applied]
          · exact h.gcm
          · exact h.lck
          · intro n j x; simp [get_put]
            have := h.lcm n j x; have := h.lcm n j e; grind
          · intro n j; simp [get_put]
            have := h.lcn n j; grind
          · intro k x st r; simp [get_put]
            have := h.stat k x st r; grind [verdict]
          · intro k x st; simp [get_put]
            have := h.shst k x st; grind

theorem frontKey_spec {c : Cache} (h : Uniq c.blocks) {f n : Nat} (hf : c.frontKey f = some n) :
    f ≤ n ∧ (∃ e, get c.blocks (0, n) = some e ∧ e.applied = true) ∧
      ∀ m e, f ≤ m → get c.blocks (0, m) = some e → e.applied = true → n ≤ m := by
  unfold Cache.frontKey at hf
  rw [List.min?_eq_some_iff] at hf
  obtain ⟨hm, hmin⟩ := hf
  obtain ⟨x, hx, rfl⟩ := List.mem_map.mp hm
  obtain ⟨hx1, hx2⟩ := List.mem_filter.mp hx
  simp only [isAppliedMc, Bool.and_eq_true, decide_eq_true_eq] at hx2
  refine ⟨hx2.1.2, ⟨x.2, ?_, hx2.2⟩, ?_⟩
  · apply get_of_mem _ h
    have : x = ((0, x.1.2), x.2) := by rw [← hx2.1.1]
    rw [← this]; exact hx1
  · intro m e hfm hg ha
    apply hmin
    refine List.mem_map.mpr ⟨((0, m), e), List.mem_filter.mpr ⟨mem_of_get _ _ _ hg, ?_⟩, rfl⟩
    simp [isAppliedMc, hfm, ha]

theorem frontKey_none {c : Cache} {f : Nat} (hf : c.frontKey f = none) :
    ∀ m e, f ≤ m → get c.blocks (0, m) = some e → e.applied = false := by
  unfold Cache.frontKey at hf
  rw [List.min?_eq_none_iff] at hf
  intro m e hfm hg
  cases ha : e.applied with
  | false => rfl
  | true =>
    have : (m : Nat) ∈ ((c.blocks.filter (isAppliedMc (fun n => decide (f ≤ n)))).map (·.1.2)) := by
      refine List.mem_map.mpr ⟨((0, m), e), List.mem_filter.mpr ⟨mem_of_get _ _ _ hg, ?_⟩, rfl⟩
      simp [isAppliedMc, hfm, ha]
    rw [hf] at this; simp at this

/-- Removing one master block that is synced, with the ids before it. -/
theorem inv_take {c : Cache} (h : Inv c) (n : Nat) (sy : Nat → Option Nat) (r : Option (Nat × Nat))
    (hsy : ∀ s m, Below m (c.synced s) → Below m (sy s)) (hn : Below n (sy 0)) (m : Nat) :
    Inv { c with
      blocks := del c.blocks (fun k => decide (k = (0, n))), lastColl := dropBefore c.lastColl m, range := r
      synced := sy } := by
  constructor
  · exact uniq_del c.blocks (fun k => decide (k = (0, n))) h.ub
  · exact uniq_del c.lastColl (fun k => decide (k < m)) h.ul
  · exact keyed_del h.keyed (fun k => decide (k = (0, n)))
  · intro k x hg; simp [get_del] at hg
    exact h.tops k x hg.2
  · intro k x hg; simp [get_del] at hg
    exact h.prevs k x hg.2
  · intro k x hg hx; simp [get_del] at hg
    exact hsy _ _ (h.appl k x hg.2 hx)
  · intro g hg; exact hsy _ _ (h.gcm g hg)
  · intro j i; simp only [get_dropBefore]
    have := h.lck j i; grind
  · intro j i x; simp only [get_dropBefore, get_del]
    have := h.lcm j i x; grind
  · intro j i; simp only [get_dropBefore, get_del]
    intro h1 h2
    by_cases hj : j = n
    · subst hj; exact hn
    · have := h.lcn j i (by grind) (by simpa [hj] using h2)
      exact hsy _ _ this
  · intro k x st r hg; simp [get_del] at hg
    exact h.stat k x st r hg.2
  · intro k x st hg; simp [get_del] at hg
    exact h.shst k x st hg.2

theorem subgraph_inv {c : Cache} (h : Inv c) {e : Entry} (ht : ∀ t ∈ e.tops, t.id.shard ≠ 0) :
    Inv (c.subgraph e).1 := inv_shrunk h (subgraph_shrunk h.keyed h.prevs ht)

theorem inv_popFront {c : Cache} (h : Inv c) (f : Nat) : Inv (c.popFront f).1 := by
  unfold Cache.popFront
  split
  · exact h
  · rename_i n hf
    split
    · exact h
    · rename_i e he
      obtain ⟨_, ⟨e', he', ha⟩, _⟩ := frontKey_spec h.ub hf
      rw [he] at he'; cases he'
      have hb := h.appl _ _ he ha
      exact subgraph_inv (c := c.takeFront n e) (inv_take h n c.synced (startPast c.range e.id.seqno)
        (fun _ _ x => x) hb e.id.seqno) (h.tops _ _ he)

theorem inv_extract {c : Cache} (h : Inv c) (i : Id) : Inv (c.extract i).1 := by
  unfold Cache.extract
  split
  · exact h
  · rename_i e he
    exact subgraph_inv (c := c.takeForSync i e) (inv_take h i.seqno (refresh c.synced 0 i.seqno) _
      (fun s m x => refresh_below _ _ _ _ _ x) (refresh_self _ _ _) i.seqno) (h.tops _ _ he)

theorem setGc1_fields (c : Cache) (k : Nat × Nat) :
    (c.setGc1 k).blocks = c.blocks ∧ (c.setGc1 k).synced = c.synced ∧ (c.setGc1 k).lastColl = c.lastColl ∧
      (c.setGc1 k).range = c.range ∧ (c.setGc1 k).funds = c.funds ∧ (c.setGc1 k).flow = c.flow ∧
      (c.setGc1 k).zero = c.zero ∧ (c.setGc1 k).known = c.known := by
  unfold Cache.setGc1; split <;> simp

theorem setGc_fields (c : Cache) (ks : List (Nat × Nat)) :
    (c.setGc ks).blocks = c.blocks ∧ (c.setGc ks).synced = c.synced ∧ (c.setGc ks).lastColl = c.lastColl ∧
      (c.setGc ks).range = c.range ∧ (c.setGc ks).funds = c.funds ∧ (c.setGc ks).flow = c.flow ∧
      (c.setGc ks).zero = c.zero ∧ (c.setGc ks).known = c.known := by
  unfold Cache.setGc
  induction ks generalizing c with
  | nil => simp
  | cons k ks ih =>
    have h1 := setGc1_fields c k
    have h2 := ih (c.setGc1 k)
    simp only [List.foldl_cons]
    grind

theorem setGc_master (c : Cache) (ks : List (Nat × Nat)) (m : Nat) (h : (c.setGc ks).gcTo 0 = some m) :
    c.gcTo 0 = some m ∨ (0, m) ∈ ks := by
  unfold Cache.setGc at h
  induction ks generalizing c with
  | nil => exact Or.inl h
  | cons k ks ih =>
    rcases ih (c.setGc1 k) h with h1 | h1
    · unfold Cache.setGc1 at h1
      split at h1
      · simp only [upd] at h1
        split at h1
        · rename_i hk; cases h1
          right; simp [hk]
        · exact Or.inl h1
      · exact Or.inl h1
    · right; simp [h1]

theorem inv_gcTo {c : Cache} (h : Inv c) (g : Nat → Option Nat) (hg : ∀ m, g 0 = some m → Below m (c.synced 0)) :
    Inv { c with gcTo := g } :=
  ⟨h.ub, h.ul, h.keyed, h.tops, h.prevs, h.appl, hg, h.lck, h.lcm, h.lcn, h.stat, h.shst⟩

theorem inv_setGc {c : Cache} (h : Inv c) (ks : List (Nat × Nat)) (hk : ∀ m, (0, m) ∈ ks → Below m (c.synced 0)) :
    Inv (c.setGc ks) := by
  have hf := setGc_fields c ks
  have heq : c.setGc ks = { c with gcTo := (c.setGc ks).gcTo } := by
    cases hc : c.setGc ks
    rw [hc] at hf
    simp only at hf
    obtain ⟨a, b, d, e, f, g, i, j⟩ := hf
    subst a; subst b; subst d; subst e; subst f; subst g; subst i; subst j
    rfl
  rw [heq]
  apply inv_gcTo h
  intro m hm
  rcases setGc_master c ks m hm with h1 | h1
  · exact h.gcm m h1
  · exact hk m h1

theorem below_iff (c : Cache) (k : Nat × Nat) : c.below k = true ↔ ∃ b, c.gcTo k.1 = some b ∧ k.2 < b := by
  unfold Cache.below
  cases c.gcTo k.1 <;> simp

theorem inv_gc {c : Cache} (h : Inv c) : Inv c.gc := by
  constructor
  · exact uniq_del _ _ h.ub
  · exact uniq_fold_dropBefore _ _ h.ul
  · exact keyed_del h.keyed _
  · intro k x hg; simp [Cache.gc, get_del] at hg
    exact h.tops k x hg.2
  · intro k x hg; simp [Cache.gc, get_del] at hg
    exact h.prevs k x hg.2
  · intro k x hg hx; simp [Cache.gc, get_del] at hg
    exact h.appl k x hg.2 hx
  · exact h.gcm
  · intro n i hn; exact h.lck n i (get_fold_dropBefore _ _ _ _ hn).1
  · intro n i x hn hg; simp [Cache.gc, get_del] at hg
    exact h.lcm n i x (get_fold_dropBefore _ _ _ _ hn).1 hg.2
  · intro n i hn hg
    have h1 := (get_fold_dropBefore _ _ _ _ hn).1
    simp only [Cache.gc, get_del] at hg
    split at hg
    · rename_i hb
      rw [below_iff] at hb
      obtain ⟨b, hb1, hb2⟩ := hb
      obtain ⟨m, hm1, hm2⟩ := h.gcm b hb1
      exact ⟨m, hm1, by simp only at hb2; omega⟩
    · exact h.lcn n i h1 hg
  · intro k x st r hg; simp [Cache.gc, get_del] at hg
    exact h.stat k x st r hg.2
  · intro k x st hg; simp [Cache.gc, get_del] at hg
    exact h.shst k x st hg.2

theorem removeNext1_get {c : Cache} (h : Uniq c.blocks) (k j : Nat × Nat) :
    get (c.removeNext1 k).blocks j = match get c.blocks j with
      | some v => if nextOf k (j, v) then none else some v
      | none => none := by
  simp only [Cache.removeNext1]
  rw [get_filter_val _ h]
  cases get c.blocks j with
  | none => rfl
  | some v => simp only; cases nextOf k (j, v) <;> simp

theorem inv_removeNext1 {c : Cache} (h : Inv c) (k : Nat × Nat) : Inv (c.removeNext1 k) := by
  have hsub : ∀ j x, get (c.removeNext1 k).blocks j = some x → get c.blocks j = some x := by
    intro j x hg
    rw [removeNext1_get h.ub] at hg
    cases hj : get c.blocks j with
    | none => rw [hj] at hg; cases hg
    | some v => rw [hj] at hg; simp only at hg; split at hg <;> simp_all
  constructor
  · exact uniq_filter _ h.ub _
  · exact uniq_fold_dropFrom _ _ h.ul
  · intro j x hg; exact h.keyed j x (hsub j x hg)
  · intro j x hg; exact h.tops j x (hsub j x hg)
  · intro j x hg; exact h.prevs j x (hsub j x hg)
  · intro j x hg; exact h.appl j x (hsub j x hg)
  · exact h.gcm
  · intro n i hn; exact h.lck n i (get_fold_dropFrom _ _ _ _ hn).1
  · intro n i x hn hg
    exact h.lcm n i x (get_fold_dropFrom _ _ _ _ hn).1 (hsub _ _ hg)
  · intro n i hn hg
    obtain ⟨h1, h2⟩ := get_fold_dropFrom _ _ _ _ hn
    cases hb : get c.blocks (0, n) with
    | none => exact h.lcn n i h1 hb
    | some v =>
      exfalso
      rw [removeNext1_get h.ub, hb] at hg
      simp only at hg
      split at hg
      · rename_i hnx
        have := h2 n (List.mem_map.mpr ⟨((0, n), v), List.mem_filter.mpr ⟨mem_of_get _ _ _ hb, by simp [hnx]⟩, rfl⟩)
        omega
      · cases hg
  · intro j x st r hg; exact h.stat j x st r (hsub j x hg)
  · intro j x st hg; exact h.shst j x st (hsub j x hg)

theorem inv_removeNext {c : Cache} (h : Inv c) (ks : List (Nat × Nat)) : Inv (c.removeNext ks) := by
  unfold Cache.removeNext
  induction ks generalizing c with
  | nil => exact h
  | cons k ks ih => exact ih (inv_removeNext1 h k)

theorem inv_takeTop {c : Cache} (h : Inv c) (n s : Nat) : Inv (c.takeTop n s).1 := by
  unfold Cache.takeTop
  split
  · exact h
  · split
    · exact h
    · exact inv_funds h _ _

theorem inv_takeTops {c : Cache} (h : Inv c) (n : Nat) (shs : List Nat) : Inv (c.takeTops n shs).1 := by
  induction shs generalizing c with
  | nil => exact h
  | cons s shs ih => exact ih (inv_takeTop h n s)

/-- The keys of a master block's top blocks name one master block: itself. -/
theorem topKeys_master {e : Entry} (ht : ∀ t ∈ e.tops, t.id.shard ≠ 0) {m : Nat} (h : (0, m) ∈ e.topKeys) :
    e.id.key = (0, m) := by
  unfold Entry.topKeys at h
  rcases List.mem_cons.mp h with h | h
  · exact h.symm
  · obtain ⟨t, ht2, hk⟩ := List.mem_map.mp h
    exact absurd (congrArg Prod.fst hk) (ht t ht2)

theorem inv_afterPop {c : Cache} (h : Inv c) (f : Nat) (g : Bool) : Inv (Cache.afterPop (c.popFront f) g) := by
  have h1 := inv_popFront h f
  unfold Cache.afterPop
  split
  · rename_i c' G l heq
    rw [heq] at h1
    simp only at h1
    split
    · apply inv_setGc h1
      intro m hm
      unfold Cache.popFront at heq
      split at heq
      · cases heq
      · rename_i n hf
        split at heq
        · cases heq
        · rename_i e he
          simp only [Prod.mk.injEq, Option.some.injEq] at heq
          obtain ⟨hc, hG, _⟩ := heq
          obtain ⟨_, ⟨e', he', ha⟩, _⟩ := frontKey_spec h.ub hf
          rw [he] at he'; cases he'
          have hb := h.appl _ _ he ha
          rw [← hG] at hm
          have hkey := topKeys_master (e := e) (h.tops _ _ he) hm
          rw [h.keyed _ _ he] at hkey
          simp only [Prod.mk.injEq, true_and] at hkey
          have hs := subgraph_shrunk (c := c.takeFront n e) (e := e)
            (inv_take h n c.synced (startPast c.range e.id.seqno) (fun _ _ x => x) hb e.id.seqno).keyed
            (inv_take h n c.synced (startPast c.range e.id.seqno) (fun _ _ x => x) hb e.id.seqno).prevs
            (h.tops _ _ he)
          rw [← hc, hs.sync0, ← hkey]
          exact hb
    · exact h1
  · rename_i c' heq
    rw [heq] at h1; exact h1

theorem inv_commit {c : Cache} (h : Inv c) (i : Id) (d : Option Nat) : Inv (c.commit i d).1 := by
  have h1 := inv_extract h i
  unfold Cache.commit
  split
  · rename_i c' heq
    rw [heq] at h1
    exact inv_gc h1
  · rename_i c' G heq
    rw [heq] at h1
    simp only at h1
    apply inv_gc
    apply inv_setGc h1
    intro m hm
    unfold Cache.extract at heq
    split at heq
    · cases heq
    · rename_i e he
      simp only [Prod.mk.injEq, Option.some.injEq] at heq
      obtain ⟨hc, hG⟩ := heq
      rw [← hG] at hm
      have hkey := topKeys_master (e := e) (h.tops _ _ he) hm
      rw [h.keyed _ _ he] at hkey
      simp only [Prod.mk.injEq, true_and] at hkey
      have hI := inv_take h i.seqno (refresh c.synced 0 i.seqno) (if e.applied then startPast c.range i.seqno else c.range)
        (fun s m x => refresh_below _ _ _ _ _ x) (refresh_self _ _ _) i.seqno
      have hs := subgraph_shrunk (c := c.takeForSync i e) (e := e) hI.keyed hI.prevs (h.tops _ _ he)
      rw [← hc, hs.sync0, ← hkey]
      exact refresh_self _ _ _

theorem inv_step {c : Cache} (h : Inv c) {o : Op} (ho : o.Wf) : Inv (step c o) := by
  cases o with
  | collated b => exact inv_storeCollated h ho
  | received b => exact inv_storeReceived h ho
  | validation i v => exact inv_storeValidation h i v
  | pop f g => exact inv_afterPop h f g
  | commit i d => exact inv_commit h i d
  | gc => exact inv_gc h
  | removeNext ks => exact inv_removeNext h ks
  | takeTops n shs => exact inv_takeTops h n shs
  | resetTops => exact inv_funds h _ _

theorem inv_run (z : Nat) (ops : List Op) (h : ∀ o ∈ ops, o.Wf) : Inv (run z ops) := by
  unfold run
  have : ∀ c, Inv c → Inv (ops.foldl step c) := by
    induction ops with
    | nil => intro c hc; exact hc
    | cons o ops ih =>
      intro c hc
      exact ih (fun x hx => h x (by simp [hx])) _ (inv_step hc (h o (by simp)))
  exact this _ (inv_init z)

end Tycho.BlocksCache
