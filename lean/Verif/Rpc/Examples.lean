import Verif.Rpc.TxMain
import Verif.Rpc.TxRerun
import Verif.Rpc.CodeMain
import Verif.Rpc.Codec
import Verif.Rpc.BlockTxs

/-! Cases which meet the hypotheses of the theorems of this component, and defects of the code found by them. -/
namespace Tycho.Rpc
open Tycho.Table

/-! ### Transactions -/

def exTx (a lt h : Nat) (m : Option Nat) : BlockTx := ⟨⟨a, lt⟩, ⟨h, m, h⟩⟩

/-- two blocks; a collection between them which is stopped after two iterations -/
def exEvs : List Ev :=
  [.block (fun _ => false) 1 1 [exTx 7 10 100 (some 1), exTx 7 20 101 (some 2), exTx 7 30 102 none, exTx 9 15 103 (some 3)],
   .gcBegin 3 1 25, .gcStep 0, .gcStep 0,
   .block (fun a => a = 8) 2 2 [exTx 7 40 104 (some 4), exTx 8 41 105 none],
   .gcStep 0, .gcStep 0, .gcStep 0]

theorem exStored (t : BlockTx) (h : Stored exEvs t) : t = exTx 7 10 100 (some 1) ∨ t = exTx 7 20 101 (some 2) ∨ t = exTx 7 30 102 none ∨
    t = exTx 9 15 103 (some 3) ∨ t = exTx 7 40 104 (some 4) := by
  obtain ⟨black, b, mc, l, h1, h2, h3⟩ := h
  simp only [exEvs, List.mem_cons, List.not_mem_nil, or_false, reduceCtorEq, false_or, Ev.block.injEq] at h1
  rcases h1 with ⟨rfl, rfl, rfl, rfl⟩ | ⟨rfl, rfl, rfl, rfl⟩
  · simp only [List.mem_cons, List.not_mem_nil, or_false] at h2
    rcases h2 with h | h | h | h <;> simp [h]
  · simp only [List.mem_cons, List.not_mem_nil, or_false] at h2
    rcases h2 with rfl | rfl
    · simp
    · simp [exTx] at h3

/-- the history has the properties assumed of it -/
theorem exProper : Proper exEvs ∧ MessagesOnce exEvs := by
  refine ⟨⟨?_, ?_⟩, ?_⟩
  · intro a b ha hb h
    rcases exStored a ha with rfl | rfl | rfl | rfl | rfl <;> rcases exStored b hb with rfl | rfl | rfl | rfl | rfl <;> simp_all [exTx]
  · intro a b ha hb h
    rcases exStored a ha with rfl | rfl | rfl | rfl | rfl <;> rcases exStored b hb with rfl | rfl | rfl | rfl | rfl <;> simp_all [exTx]
  · intro a b m ha hb h1 h2
    rcases exStored a ha with rfl | rfl | rfl | rfl | rfl <;> rcases exStored b hb with rfl | rfl | rfl | rfl | rfl <;> simp [exTx] at h1 h2 ⊢ <;> omega

/-- a transaction which every collection has to keep -/
theorem exKept : Stored exEvs (exTx 7 30 102 none) ∧ ToKeep exEvs (exTx 7 30 102 none).key := by
  refine ⟨⟨_, 1, 1, _, .head _, by simp, rfl⟩, ?_⟩
  intro size keep minLt h
  simp only [exEvs, List.mem_cons, List.not_mem_nil, or_false, reduceCtorEq, false_or, Ev.gcBegin.injEq] at h
  obtain ⟨rfl, rfl, rfl⟩ := h
  left; simp [exTx]

/-- and the tables at the end: rows 10 and 20 of account 7 are removed -/
example : (Sys.exec exEvs).db.txs = [(⟨7, 30⟩, ⟨102, none, 102⟩), (⟨7, 40⟩, ⟨104, some 4, 104⟩), (⟨9, 15⟩, ⟨103, some 3, 103⟩)] ∧
    (Sys.exec exEvs).db.getTransaction 100 = none ∧ (Sys.exec exEvs).db.getTransaction 102 = some ⟨102, none, 102⟩ ∧
    (Sys.exec exEvs).db.getDst 4 = some ⟨104, some 4, 104⟩ ∧ (Sys.exec exEvs).db.getTransaction 105 = none ∧
    (Sys.exec exEvs).db.getTransactions 7 (some 20) none true = [(⟨7, 40⟩, ⟨104, some 4, 104⟩), (⟨7, 30⟩, ⟨102, none, 102⟩)] ∧
    (Sys.exec exEvs).db.getSrc 7 40 = some ⟨102, none, 102⟩ := by decide +kernel

/-- rows for collections -/
def exRows : Rows := [(⟨7, 10⟩, ⟨100, some 1, 100⟩), (⟨7, 20⟩, ⟨101, some 2, 101⟩), (⟨7, 30⟩, ⟨102, none, 102⟩), (⟨9, 15⟩, ⟨103, some 3, 103⟩)]

theorem exRows_ordered : Ordered exRows := by unfold Ordered; decide +kernel

def exDb : Db := ⟨exRows, [(100, ⟨⟨7, 10⟩, 1, 1⟩), (101, ⟨⟨7, 20⟩, 1, 1⟩), (102, ⟨⟨7, 30⟩, 1, 1⟩), (103, ⟨⟨9, 15⟩, 1, 1⟩)], [(1, ⟨7, 10⟩), (2, ⟨7, 20⟩), (3, ⟨9, 15⟩)]⟩

/-- batches of three: two rows are removed -/
example : Ordered exDb.txs ∧ gcRun 3 1 25 5 exRows = some [[.hash 101, .msg 2, .hash 100, .msg 1, .range ⟨7, 10⟩ ⟨7, 20⟩, .tx ⟨7, 20⟩]] ∧
    oldCount exRows 1 25 exRows % 3 ≠ 0 := by
  exact ⟨exRows_ordered, by decide +kernel, by decide +kernel⟩

/-- the rerun after an interruption before the batch -/
example : gcRun 3 1 25 5 (exDb.writes []).txs ≠ none ∧ oldCount exRows 1 25 exRows = 2 := by decide +kernel

/-- **Finding**: with batches of two the number of removed rows is a multiple of the size of a batch. The loop writes the batch with the entries of the
indices, the deletions of the rows are added after it, and the last batch is not written as its counter is zero: the transactions stay in the main table
without entries in the indices. -/
theorem gc_leaves_rows : (exDb.writes ((gcRun 2 1 25 5 exRows).getD [])).txs = exRows ∧
    (exDb.writes ((gcRun 2 1 25 5 exRows).getD [])).getTransaction 100 = none ∧ gcRun 2 1 25 5 exRows ≠ none ∧ Old exRows 1 25 ⟨7, 10⟩ := by decide +kernel

/-- **Finding**: a transaction exactly at the bound, and not among the newest ones of its account: the collection never ends. -/
theorem gc_never_ends (fuel : Nat) : gcRun 3 1 20 fuel exRows = none := by
  cases h : gcRun 3 1 20 fuel exRows with
  | none => rfl
  | some bs =>
    exfalso
    refine (gc_ends_iff exRows 3 1 20 exRows_ordered (by decide)).1 ⟨fuel, bs, h⟩ ⟨(⟨7, 20⟩, ⟨101, some 2, 101⟩), by simp [exRows], by decide, rfl, ?_⟩
    decide +kernel

/-- **Finding**: the same message hash in two transactions (external messages): the collection of the older one removes the entry of the newer one. -/
def exTwice : List Ev :=
  [.block (fun _ => false) 1 1 [exTx 7 10 100 (some 1), exTx 7 20 101 none, exTx 9 50 102 (some 1)], .gcBegin 3 1 25, .gcStep 0, .gcStep 0, .gcStep 0, .gcStep 0]

theorem gc_removes_other_entry : (Sys.exec exTwice).db.getTransaction 102 = some ⟨102, some 1, 102⟩ ∧ (Sys.exec exTwice).db.getDst 1 = none := by decide +kernel

/-! ### Accounts by code hash -/

/-- account 5 is created with the code 1, account 6 with the code 1, then account 5 changes its code -/
def exBlock1 : List AccBlock := [⟨5, [⟨false, true, false⟩], .found (some 1)⟩, ⟨6, [⟨false, false, false⟩, ⟨false, true, false⟩], .found (some 1)⟩]
def exBlock2 : List AccBlock := [⟨5, [⟨true, true, false⟩, ⟨true, true, true⟩], .found (some 2)⟩]

def exW0 : World := fun _ => (false, none)
def exW1 : World := fun a => if a = 5 ∨ a = 6 then (true, some 1) else (false, none)
def exW2 : World := fun a => if a = 5 then (true, some 2) else if a = 6 then (true, some 1) else (false, none)

theorem exReach : CReach ((Codes.block ⟨[], []⟩ exBlock1).block exBlock2) exW2 := by
  refine .block exBlock2 exW2 (w := exW1) (.block exBlock1 exW1 (w := exW0) .init ⟨by decide, ?_, ?_⟩) ⟨by decide, ?_, ?_⟩
  · intro a ha
    simp only [exBlock1, List.mem_cons, List.not_mem_nil, or_false] at ha
    rcases ha with rfl | rfl
    · exact ⟨.cons (f := true) (c' := some 1) (by simp) (by simp) (.nil _), rfl⟩
    · exact ⟨.cons (f := false) (c' := none) (by simp) (by simp) (.cons (f := true) (c' := some 1) (by simp) (by simp) (.nil _)), rfl⟩
  · intro a ha
    have h5 := ha ⟨5, [⟨false, true, false⟩], .found (some 1)⟩ (by simp [exBlock1])
    have h6 := ha ⟨6, [⟨false, false, false⟩, ⟨false, true, false⟩], .found (some 1)⟩ (by simp [exBlock1])
    simp only [exW0, exW1]
    rw [if_neg]
    rintro (h | h)
    · exact h5 h.symm
    · exact h6 h.symm
  · intro a ha
    simp only [exBlock2, List.mem_cons, List.not_mem_nil, or_false] at ha
    subst ha
    exact ⟨.cons (f := true) (c' := some 1) (by simp) (by simp) (.cons (f := true) (c' := some 2) (by simp) (by simp) (.nil _)), rfl⟩
  · intro a ha
    have h5 := ha ⟨5, [⟨true, true, false⟩, ⟨true, true, true⟩], .found (some 2)⟩ (by simp [exBlock2])
    simp only [exW1, exW2]
    by_cases h : a = 6
    · simp [h]
    · have h5' : a ≠ 5 := fun h => h5 h.symm
      simp [h, h5']

example : ((Codes.block ⟨[], []⟩ exBlock1).block exBlock2).accounts 1 none = [6] ∧ ((Codes.block ⟨[], []⟩ exBlock1).block exBlock2).accounts 2 none = [5] := by
  decide +kernel

/-- **Finding**: a page continues after an account by dropping the first row at or after it. If the account has changed its code between two pages, the
row dropped is that of the next account: account 6 is never listed. -/
theorem continuation_skips_account : (Codes.block ⟨[], []⟩ exBlock1).accounts 1 none = [5, 6] ∧
    ((Codes.block ⟨[], []⟩ exBlock1).block exBlock2).accounts 1 (some 5) = [] ∧
    ((Codes.block ⟨[], []⟩ exBlock1).block exBlock2).accounts 1 none = [6] := by decide +kernel

/-- **Finding**: the address with all bits one is the bound of the iterator and is never listed. -/
theorem last_address_not_listed : (Codes.block ⟨[], []⟩ [⟨maxAddr, [⟨false, true, false⟩], .found (some 1)⟩]).accounts 1 none = [] := by decide +kernel

/-- a reset of the shard with prefix `2^63` (the whole workchain 0): account 6 has another code, account 5 has none -/
example : (((Codes.block ⟨[], []⟩ exBlock1).block exBlock2).reset 0 (2 ^ 63 * (2 * 0 + 1)) [(6, some 3), (5, none)]).accounts 3 none = [6] ∧
    (((Codes.block ⟨[], []⟩ exBlock1).block exBlock2).reset 0 (2 ^ 63 * (2 * 0 + 1)) [(6, some 3), (5, none)]).accounts 2 none = [] ∧
    InShard 0 0 63 6 := by
  refine ⟨by decide +kernel, by decide +kernel, by unfold InShard; decide +kernel⟩

/-! ### Transactions of a block -/

def exKeys : List Key := [⟨7, 10⟩, ⟨7, 20⟩, ⟨9, 15⟩]

example : KOrdered exKeys ∧ (∀ k ∈ exKeys, k.before maxKey = true) ∧ blockPages exKeys 2 4 none = exKeys ∧
    blockIds exKeys false (some ⟨7, 20⟩) = [⟨9, 15⟩] := by
  refine ⟨by unfold KOrdered; decide +kernel, by decide +kernel, by decide +kernel, by decide +kernel⟩

/-- **Finding**: backwards, the second page after `⟨7, 20⟩` starts from the end again and never reaches `⟨7, 10⟩`. -/
theorem reverse_page_repeats : blockIds exKeys true none = [⟨9, 15⟩, ⟨7, 20⟩, ⟨7, 10⟩] ∧ blockIds exKeys true (some ⟨7, 20⟩) = [⟨9, 15⟩, ⟨7, 20⟩] := by
  decide +kernel

/-! ### Rows as bytes -/

def exHash (n : Nat) : List Nat := List.replicate 32 n

/-- a block of the shard with prefix `2^62` (left half of the workchain 0) after a merge, with a reference to the masterchain -/
def exBrief : Brief := ⟨2 ^ 32 - 239, 0, 1, true, false, true, false, true, 77, 5, 100, true, 90, 1000000, 1000010, 1700000000, 0, exHash 3, 12,
  some ⟨101, exHash 1, exHash 2⟩, [⟨2 ^ 61, 8, exHash 4, exHash 5⟩, ⟨3 * 2 ^ 61, 9, exHash 6, exHash 7⟩]⟩

example : exBrief.Ok := by
  refine ⟨by decide, by decide, by decide, by decide, by decide, by decide, by decide, by decide, by decide, by decide, by decide, by decide, by decide, ?_,
    by decide, ?_⟩
  · intro m hm
    cases hm
    exact ⟨by decide, by decide, by decide⟩
  · intro p hp
    simp only [exBrief, List.mem_cons, List.not_mem_nil, or_false] at hp
    rcases hp with rfl | rfl <;> exact ⟨by decide, by decide, by decide, by decide, by decide⟩

example : rdBrief exBrief.enc = some (exBrief, []) := by decide +kernel

/-- an account of the shard with prefix `3 * 2^62` (`11` and the tag) of the workchain 0 -/
example : InShard 0 3 61 (0b111 * 2 ^ 253) ∧
    rdInfo (encInfo (0b111 * 2 ^ 253) 5 (63 - 61) 8 (exHash 1) (exHash 2) 9) = some (⟨0b111 * 2 ^ 253, 5, 2 ^ 61 * (2 * 3 + 1), 8, exHash 1, exHash 2, 9⟩, []) := by
  refine ⟨by unfold InShard; decide +kernel, by decide +kernel⟩

end Tycho.Rpc
