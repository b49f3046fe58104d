import Verif.BlocksCache.Funds
/-! Concrete histories of the blocks cache: the hypotheses of the theorems are met by them, and witnesses that the
hypotheses cannot be dropped. -/
namespace Tycho.BlocksCache.Examples
open Tycho.Table
open Tycho.Table (get)

/-- Shard block 1 of shard 1. -/
def s1 : Block := { id := ⟨1, 1, 11⟩, prevs := [⟨1, 0, 10⟩], tops := [], anchor := none, ref := 1, fees := 5, created := 7, flow := 3 }
/-- Shard block 2 of shard 1. -/
def s2 : Block := { id := ⟨1, 2, 12⟩, prevs := [⟨1, 1, 11⟩], tops := [], anchor := none, ref := 1, fees := 2, created := 1, flow := 4 }
/-- A different shard block 2. -/
def s2x : Block := { s2 with id := ⟨1, 2, 92⟩ }
/-- The master block 1 that references both. -/
def m1 : Block :=
  { id := ⟨0, 1, 1⟩, prevs := [⟨0, 0, 0⟩], tops := [⟨⟨1, 2, 12⟩, true, 1⟩], anchor := some 100, ref := 1 }
/-- A different master block 1. -/
def m1x : Block := { m1 with id := ⟨0, 1, 91⟩ }
/-- A master block with no new shard blocks. -/
def mc (n : Nat) : Block := { id := ⟨0, n, n⟩, prevs := [⟨0, n - 1, n - 1⟩], tops := [], anchor := some (100 * n), ref := n }

/-- An own master block with its shard blocks, before the validation. -/
def own : List Op := [.collated s1, .collated s2, .takeTops 1 [1], .collated m1]

theorem own_wf : ∀ o ∈ own, o.Wf := by
  simp [own, Op.Wf, Block.Wf, s1, s2, m1]

theorem own_distinct : ∀ o ∈ own, DistinctShards o := by
  simp [own, DistinctShards]

/-! ### The normal course of an own master block -/

example : ((run 0 [.collated s1, .collated s2]).takeTops 1 [1]).2 =
    [{ id := ⟨1, 2, 12⟩, flow := 4, funds := (7, 8) }] := by decide +kernel

/-- The funds are those of both blocks, as `top_shards_exact` says. -/
example : total (unreported 1 0 [.collated s1, .collated s2]) = (7, 8) := by decide +kernel

/-- They are reported once. -/
example : ((run 0 own).takeTops 1 [1]).2 = [{ id := ⟨1, 2, 12⟩, flow := 0, funds := (0, 0) }] := by decide +kernel

example : ((run 0 (own ++ [.validation m1.id true])).commit m1.id none).2 =
    { sent := [m1.id, s1.id, s2.id], diff := false, notify := none } := by decide +kernel

example : ValidatedIn (own ++ [.validation m1.id true]) m1.id :=
  (sent_was_validated 0 (own ++ [.validation m1.id true]) (by
    intro o ho
    rcases List.mem_append.mp ho with h | h
    · exact own_wf o h
    · simp at h; subst h; trivial) m1.id none m1.id [s1.id, s2.id] (by decide +kernel)).2.1

/-- Sent once, added once; a second commit sends nothing. -/
example : sentIn 0 (own ++ [.validation m1.id true, .commit m1.id none, .commit m1.id none]) = [m1.id, s1.id, s2.id] := by
  decide +kernel

/-- Without the validation nothing is sent. -/
example : ((run 0 own).commit m1.id none).2.sent = [] := by decide +kernel

/-- When the block came from the chain meanwhile, the queue diffs are committed instead. -/
example : ((run 0 (own ++ [.received s1, .received s2, .received m1])).commit m1.id none).2 =
    { sent := [], diff := true, notify := some 100 } := by decide +kernel

example : (run 0 own).lastCollated = some m1.id := by decide +kernel

/-! ### Blocks from the chain -/

example : ((run 0 own).storeReceived m1).2 = .ok true false := by decide +kernel
example : ((run 0 own).storeReceived m1x).2 = .ok false true := by decide +kernel
example : ((run 0 own).storeReceived m1x).1.lastCollated = none := by decide +kernel
example : ((run 0 own).storeReceived s2x).1.lastCollated = none := by decide +kernel
example : ((run 0 [.received m1x]).storeCollated m1).2 = .ok false true := by decide +kernel
example : ((run 0 [.received m1]).storeCollated m1).2 = .ok true false := by decide +kernel
example : ((run 0 own).storeCollated m1x).2 = .error := by decide +kernel
example : ((run 0 [.received (mc 2)]).storeReceived (mc 1)).2 = .skipped := by decide +kernel

/-- A block that was taken out by a commit is skipped when it arrives. -/
example : ((run 0 (own ++ [.validation m1.id true, .commit m1.id none])).storeReceived m1).2 = .skipped ∧
    ((run 0 (own ++ [.validation m1.id true, .commit m1.id none])).storeReceived s2).2 = .skipped := by decide +kernel

example : acceptedIn 0 [.received (mc 1), .received (mc 1), .received (mc 2)] = [(mc 1).id, (mc 2).id] := by decide +kernel

/-- Three applied master blocks, consecutive: the range covers them. -/
def chain : List Op := [.received (mc 1), .received (mc 2), .received (mc 3)]

theorem chain_wf : ∀ o ∈ chain, o.Wf := by
  simp [chain, Op.Wf, Block.Wf, mc]

theorem chain_consecutive : Consecutive 0 chain := by
  intro pre b post h hz ha x hx
  match pre with
  | [] => simp [waiting, waitingFrom] at hx
  | [a] =>
    simp only [chain, List.cons_append, List.nil_append, List.cons.injEq, Op.received.injEq] at h
    obtain ⟨rfl, rfl, _⟩ := h
    have : x = 1 := by
      have : (waiting 0 [Op.received (mc 1)]).getLast? = some 1 := by decide +kernel
      rw [this] at hx; cases hx; rfl
    subst this; rfl
  | [a, c] =>
    simp only [chain, List.cons_append, List.nil_append, List.cons.injEq, Op.received.injEq] at h
    obtain ⟨rfl, rfl, rfl, _⟩ := h
    have : x = 2 := by
      have : (waiting 0 [Op.received (mc 1), Op.received (mc 2)]).getLast? = some 2 := by decide +kernel
      rw [this] at hx; cases hx; rfl
    subst this; rfl
  | a :: c :: d :: pre =>
    simp [chain] at h

theorem chain_orderly : Orderly 0 chain := by
  intro pre o post h
  have : o ∈ chain := by rw [h]; simp
  simp only [chain, List.mem_cons, List.not_mem_nil, or_false] at this
  rcases this with rfl | rfl | rfl <;> trivial

example : (run 0 chain).range = some (1, 3) := by decide +kernel

example : ∃ e, get (run 0 chain).blocks (0, 2) = some e ∧ e.applied = true ∧ e.id ∈ acceptedIn 0 chain ∧ e.id.key = (0, 2) :=
  range_is_cached 0 chain chain_wf chain_consecutive chain_orderly 1 3 (by decide +kernel) 2 (by omega)

example : waiting 0 (chain ++ [.pop 0 true]) = [2, 3] := by decide +kernel
example : (run 0 (chain ++ [.pop 0 true])).range = some (2, 3) := by decide +kernel
example : waiting 0 (chain ++ [.collated (mc 2)]) = [3] := by decide +kernel

/-! ### Popping -/

/-- A master block from the chain with its shard blocks. -/
def applied1 : List Op := [.received s1, .received s2, .received m1, .received (mc 2)]

example : ((run 0 applied1).popFront 0).2 =
    some ({ master := m1.chainEntry, shards := [s1.chainEntry, s2.chainEntry] }, false) := by decide +kernel
example : ((run 0 applied1).popFront 2).2.map (·.2) = some true := by decide +kernel
example : ((run 0 applied1).popFront 3).2 = none := by decide +kernel
example : (run 0 applied1).peekFront 0 = some { master := m1.id, tops := [s2.id], missing := none } := by decide +kernel
example : (run 0 [.received s1, .received m1]).peekFront 0 = some { master := m1.id, tops := [], missing := some (1, 2) } := by
  decide +kernel

/-- The hypotheses of `parents_first` hold of it. -/
example : ∃ a b d, [s1.chainEntry, s2.chainEntry] = a ++ s1.chainEntry :: (b ++ s2.chainEntry :: d) := by
  have hpop : ((run 0 applied1).popFront 0).2 =
    some ({ master := m1.chainEntry, shards := [s1.chainEntry, s2.chainEntry] }, false) := by decide +kernel
  have hw : ∀ o ∈ applied1, o.Wf := by simp [applied1, Op.Wf, Block.Wf, s1, s2, m1, mc]
  have hTO := ((pop_front_exact 0 applied1 hw 0).2 _ _ hpop).2.2.2.2
  refine parents_first hTO ?_ ?_ s2.chainEntry s1.chainEntry (by simp) (by simp) ⟨1, 1, 11⟩ (by simp [s2, Block.chainEntry]) rfl
  · simp [s1, s2, Block.chainEntry, Id.key]
  · simp [s1, s2, m1, Block.chainEntry, Id.key, startTops]

/-! ### Witnesses: what is not guaranteed -/

/-- A validation result is matched by its seqno only: completing the validation of the different block `m1x` makes a
commit send the candidate `m1`. -/
theorem validation_matched_by_seqno : ((run 0 (own ++ [.validation m1x.id true])).commit m1.id none).2.sent = [m1.id, s1.id, s2.id] := by
  decide +kernel

/-- A commit of an own candidate that runs ahead of a received block removes that block but not its seqno from the range:
block 3 is in the range (3, 6) and is not cached. `Orderly` excludes this. -/
def ahead : List Op :=
  [.collated (mc 3), .collated (mc 4), .collated (mc 5), .received (mc 3), .validation (mc 5).id true,
    .commit (mc 5).id none, .received (mc 6)]

theorem dangling_range : (run 0 ahead).range = some (3, 6) ∧ get (run 0 ahead).blocks (0, 3) = none := by decide +kernel

/-- Removing the own blocks above a key removes an applied one too, and leaves its seqno in the range. -/
def removed : List Op := [.collated (mc 3), .received (mc 3), .removeNext [(0, 2)]]

theorem removed_applied_block : (run 0 removed).range = some (3, 3) ∧ get (run 0 removed).blocks (0, 3) = none := by decide +kernel

/-- The front applied block may be an own candidate that came from the chain too. -/
example : ((run 0 [.collated (mc 3), .received (mc 3)]).popFront 0).2.map (·.1.master.kind) =
    some (.collated .synced true) := by decide +kernel

/-- Two tops, one of them two blocks ahead: shard 2 and 3 both come from block 1 of shard 1, but shard 3 has one more
block. -/
def a1 : Block := { id := ⟨1, 1, 11⟩, prevs := [], tops := [], anchor := none, ref := 1 }
/-- The one-block branch. -/
def b2 : Block := { id := ⟨2, 2, 22⟩, prevs := [⟨1, 1, 11⟩], tops := [], anchor := none, ref := 1 }
/-- The two-block branch. -/
def c2 : Block := { id := ⟨3, 2, 32⟩, prevs := [⟨1, 1, 11⟩], tops := [], anchor := none, ref := 1 }
/-- Its second block. -/
def c3 : Block := { id := ⟨3, 3, 33⟩, prevs := [⟨3, 2, 32⟩], tops := [], anchor := none, ref := 1 }
/-- Their master block. -/
def split : Block :=
  { id := ⟨0, 1, 1⟩, prevs := [], tops := [⟨⟨2, 2, 22⟩, true, 1⟩, ⟨⟨3, 3, 33⟩, true, 1⟩], anchor := none, ref := 1 }

/-- With an uneven split the order is not a chain order: block 2 of shard 3 comes before its previous block. The
hypotheses of `parents_first` exclude this. -/
theorem uneven_split_order : ((run 0 [.received a1, .received b2, .received c2, .received c3, .received split]).popFront 0).2.map
    (fun r => r.1.shards.map (·.id)) = some [c2.id, a1.id, c3.id, b2.id] := by decide +kernel

/-- A late own candidate is stored at a height that was accepted and taken out before. -/
theorem late_candidate_stored : ((run 0 [.received (mc 1), .pop 0 true]).storeCollated (mc 1)).2 = .ok false false := by decide +kernel

/-- The funds of a removed candidate stay until they are reset. -/
theorem removed_funds_stay : (run 0 [.collated s1, .removeNext [(1, 0)]]).funds 1 = (5, 7) := by decide +kernel

end Tycho.BlocksCache.Examples
