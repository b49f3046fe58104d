import Verif.QueueFill.Props
import Verif.QueueFill.Reset

/-! Concrete cases: the hypotheses are met, and where they fail the ways differ. -/
namespace Tycho.QueueFill
open Tycho.Bytes Tycho.Codec Tycho.Table Tycho.QueueKey Tycho.QueueDiffTl

def acc (n : Nat) : Addr := ⟨0, List.replicate 31 0 ++ [n]⟩
def std (n : Nat) : IAddr := .std none (acc n)

/-- Cells are numbers: message `c` goes from account `c % 2` to account `c / 10` at `lt = c`. -/
def xext : Ext Nat where
  hash c := List.replicate 31 0 ++ [c]
  boc c := [c]
  parse c := .int ⟨std (c % 2), std (c / 10), c⟩
  pfx _ := 0

def xq : QueueDiffTl.Ext := { tlId := 77, fileHash := fun l => [l.length], validShard := fun _ _ => true }

/-- Order of iteration: as stored. -/
def oId : Order := ⟨id, id, id⟩
/-- Order of iteration: reversed. -/
def oRev : Order := ⟨List.reverse, List.reverse, List.reverse⟩

theorem oId_ok : oId.Ok := ⟨fun _ => List.Perm.refl _, fun _ => List.Perm.refl _, fun _ => List.Perm.refl _⟩
theorem oRev_ok : oRev.Ok := ⟨fun t => List.reverse_perm t, fun t => List.reverse_perm t, fun t => List.reverse_perm t⟩

def msgOf (c : Nat) : Key × Enq Nat := (⟨c, xext.hash c⟩, ⟨⟨std (c % 2), std (c / 10), c⟩, c⟩)

/-- Three messages; account 2 is routed to partition 1, source 1 to partition 3. -/
def blockA : Collated Nat :=
  ⟨⟨[msgOf 20, msgOf 21, msgOf 31], [(newFull 0, ⟨5, List.replicate 32 0⟩)],
    ⟨[(acc 1, 3)], [(acc 2, 1)], []⟩⟩, newFull 0, 7, List.replicate 32 9, 18, 40⟩
/-- One message, no routes. -/
def blockB : Collated Nat :=
  ⟨⟨[msgOf 50], [(newFull 0, ⟨25, List.replicate 32 0⟩)], Router.empty⟩, newFull 0, 8, List.replicate 32 8, 45, 60⟩

theorem collatedA : CollatedOk xext blockA := by
  refine ⟨?_, by simp [blockA, msgOf, Key.Lt], by simp [Uniq, blockA], by simp [Uniq, blockA]⟩
  intro x hx
  simp only [blockA, List.mem_cons, List.not_mem_nil, or_false] at hx
  rcases hx with rfl | rfl | rfl <;> exact ⟨rfl, rfl⟩

theorem collatedB : CollatedOk xext blockB := by
  refine ⟨?_, by simp [blockB], by simp [Uniq, blockB, Router.empty], by simp [Uniq, blockB, Router.empty]⟩
  intro x hx
  simp only [blockB, List.mem_singleton] at hx
  subst hx; exact ⟨rfl, rfl⟩

theorem xhash_inj (c c' : Nat) (h : xext.hash c = xext.hash c') : c = c' := by
  simpa [xext] using h

theorem xblocks_ok : BlocksOk xext (newFull 0) [blockA, blockB] := by
  refine ⟨?_, ?_, ?_, fun _ _ _ _ c _ c' _ h => xhash_inj c c' h, by decide, by decide⟩
  · intro b hb
    simp only [List.mem_cons, List.not_mem_nil, or_false] at hb
    rcases hb with rfl | rfl
    · exact ⟨collatedA, rfl⟩
    · exact ⟨collatedB, rfl⟩
  · intro b _ c _
    exact ⟨_, _, _, _, none, rfl⟩
  · rintro b _ c _ c' _ src dst t lt src' t' lt' ⟨s, h⟩ ⟨s', h'⟩
    simp only [xext, std, Parsed.int.injEq, IntMsg.mk.injEq, IAddr.std.injEq] at h h'
    rw [← h.2.1.1, ← h'.2.1.1]

/-- Three nodes with different iteration orders. -/
example := three_ways_agree xext xq oId oRev oRev oId_ok oRev_ok oRev_ok (newFull 0) [blockA, blockB] xblocks_ok
  (fun b h => (b.cells.find? (fun c => decide (xext.hash c = h))))
  (by
    intro b hb x hx
    simp only [List.mem_cons, List.not_mem_nil, or_false] at hb
    rcases hb with rfl | rfl
    · simp only [blockA, List.mem_cons, List.not_mem_nil, or_false] at hx
      rcases hx with rfl | rfl | rfl <;> decide +kernel
    · simp only [blockB, List.mem_singleton] at hx
      subst hx; decide +kernel)
  (fun b => b.cells.reverse) (fun b _ => List.reverse_perm _) ⟨[], [], [], [], []⟩

/-- The batch of the collator: 20 goes to account 2 (partition 1), 21 too, 31 from source 1 to partition 3. -/
example : ((ownBatch xext xq oId blockA).map (fun b => (b.msgs.map (fun x => (x.1.partition, x.1.key.lt)),
    b.stats.map (fun x => (x.1.partition, x.1.dest.account.getLast?, x.2))))) =
    some ([(1, 20), (1, 21), (3, 31)], [(3, some 3, 1), (1, some 2, 2)]) := by decide +kernel

/-- The import of both diffs. -/
def ximport : Option Batch := importBatch xext oId (newFull 0)
  [(ownDiff xq oId blockB, blockB.cells), (ownDiff xq oId blockA, blockA.cells)]

example : ximport.map (fun b => b.msgs.map (fun x => (x.1.partition, x.1.key.lt))) =
    some [(0, 50), (1, 20), (1, 21), (3, 31)] := by decide +kernel
example : ximport.map (fun b => b.pointers.map (fun x => (x.2.key.lt, x.2.seqno))) = some [(50, 8)] := by
  decide +kernel
example : ximport.map (fun b => b.stats.map (fun x => (x.1.partition, x.1.dest.account.getLast?, x.2))) =
    some [(0, some 5, 1), (3, some 3, 1), (1, some 2, 2)] := by decide +kernel

example := import_commits_newest xext oRev oRev_ok (newFull 0) (ownDiff xq oId blockB, blockB.cells)
  [(ownDiff xq oId blockA, blockA.cells)]
  (by
    have hf := blocks_fair xext xq oId oId_ok (newFull 0) _ xblocks_ok
    intro x hx
    simp only [List.mem_cons, List.not_mem_nil, or_false] at hx
    rcases hx with rfl | rfl
    · exact ⟨hf.each _ (by simp), rfl⟩
    · exact ⟨hf.each _ (by simp), rfl⟩) ⟨[], [], [], [], []⟩

theorem acc_wf (n : Nat) (h : n < 256) : (acc n).WF := by
  refine ⟨by simp [acc], by simp [acc], by simp [acc], ?_⟩
  intro x hx
  simp only [acc, List.mem_append, List.mem_replicate, List.mem_singleton] at hx
  omega

theorem blockA_fits : CollatedFits xq blockA := by
  have hz : IsBytes (List.replicate 32 0) := by intro x hx; simp only [List.mem_replicate] at hx; omega
  have h9 : IsBytes (List.replicate 32 9) := by intro x hx; simp only [List.mem_replicate] at hx; omega
  have hs : ShardOk xq (newFull 0) := ⟨⟨by decide, by decide, by decide⟩, rfl⟩
  refine ⟨⟨by simp [blockA], h9⟩, hs, by decide, by decide, ?_, by simp [blockA, Ascending], ?_, by decide, by decide,
    ⟨by decide, ?_⟩, ⟨by decide, ?_⟩⟩
  · intro e he
    simp only [blockA, List.mem_singleton] at he
    subst he
    exact ⟨hs, by decide, by simp, hz⟩
  · intro x hx
    have hb : ∀ c, c < 256 → IsBytes (xext.hash c) := by
      intro c hc y hy
      simp only [xext, List.mem_append, List.mem_replicate, List.mem_singleton] at hy
      omega
    simp only [blockA, List.mem_cons, List.not_mem_nil, or_false] at hx
    rcases hx with rfl | rfl | rfl
    · exact ⟨⟨by decide, by decide, hb 20 (by omega)⟩, by decide⟩
    · exact ⟨⟨by decide, by decide, hb 21 (by omega)⟩, by decide⟩
    · exact ⟨⟨by decide, by decide, hb 31 (by omega)⟩, by decide⟩
  · intro e he
    simp only [blockA, List.mem_singleton] at he
    subst he
    exact ⟨acc_wf 1 (by omega), by decide⟩
  · intro e he
    simp only [blockA, List.mem_singleton] at he
    subst he
    exact ⟨acc_wf 2 (by omega), by decide⟩

example := own_diff_readable xq (by decide) xext oId oId_ok blockA collatedA blockA_fits
  (fun c _ c' _ h => xhash_inj c c' h) [1, 2, 3]

example := own_diff_independent xq xext oId oRev oId_ok oRev_ok blockA collatedA

/-! ### Where the hypotheses fail -/

/-- Messages to one account with two different anycasts. -/
def aext : Ext Nat where
  hash c := [c]
  boc c := [c]
  parse c := .int ⟨std 1, .std (some (List.replicate c true)) (acc 2), c⟩
  pfx _ := 0

def amsg (c : Nat) : Key × Enq Nat :=
  (⟨c, aext.hash c⟩, ⟨⟨std 1, .std (some (List.replicate c true)) (acc 2), c⟩, c⟩)
def ablock : Collated Nat :=
  ⟨⟨[amsg 1, amsg 2], [], Router.empty⟩, newFull 0, 7, [], 0, 5⟩

/-- Two messages to the account: the collator stores the count 1 (the second put overwrites), the import
stores 2. -/
theorem anycast_counts_differ :
    ((ownBatch aext xq oId ablock).map (fun b => (Table.putAll [] b.stats).map (·.2)) = some [1]) ∧
    ((importBatch aext oId (newFull 0) [(ownDiff xq oId ablock, ablock.cells)]).map
      (fun b => (Table.putAll [] b.stats).map (·.2)) = some [2]) := by
  constructor <;> decide +kernel

/-- A received diff that lists account 2 in partitions 1 and 4 (the reader of diffs accepts it). -/
def ddiff : Diff :=
  { hash := [], prevHash := [], shard := newFull 0, seqno := 1, processedTo := []
    minMessage := ⟨20, []⟩, maxMessage := ⟨20, []⟩, messages := [xext.hash 20]
    partitionsSrc := [], partitionsDst := [(1, [acc 2]), (4, [acc 2])] }

/-- A node that applies the block puts the message into partition 4, a node that imports the state into 1. -/
theorem double_listing_differs :
    ((otherBatch xext oId ddiff (fun _ => some 20)).map (fun b => b.msgs.map (·.1.partition)) = some [4]) ∧
    ((importBatch xext oId (newFull 0) [(ddiff, [20])]).map (fun b => b.msgs.map (·.1.partition)) = some [1]) := by
  constructor <;> decide +kernel

/-! ### Reset -/

def xcontains : Contains
  | s, .std _ a => decide (s.workchain = a.workchain)
  | _, .var _ _ => false

def other (wc : Int) (n : Nat) : IAddr := .std none ⟨wc, List.replicate 31 0 ++ [n]⟩

/-- Own account 1 over the limit, own account 2 not; in workchain -1: account 3 routed to partition 5 there,
account 4 over the limit together with the messages there, account 5 not. -/
def resetStats : List (IAddr × Nat) := [(std 1, 11), (std 2, 10), (other (-1) 3, 1), (other (-1) 4, 6), (other (-1) 5, 6)]
def resetRemote : List (Shard × Remote) :=
  [(newFull (-1), ⟨⟨[], [(⟨-1, List.replicate 31 0 ++ [3]⟩, 5)], []⟩, some [(other (-1) 4, 5), (other (-1) 5, 4)]⟩)]

theorem reset_hyps : ResetOk xcontains resetRemote resetStats := by
  refine ⟨?_, by decide, ?_⟩
  · intro e he
    simp only [resetStats, List.mem_cons, List.not_mem_nil, or_false] at he
    rcases he with rfl | rfl | rfl | rfl | rfl <;> exact ⟨_, _, rfl⟩
  · intro x hx y hy _ _ _
    simp only [resetRemote, List.mem_singleton] at hx hy
    rw [hx, hy]

example := reset_routes xcontains 10 (newFull 0) resetRemote resetStats reset_hyps Router.empty []
example := reset_order_independent xcontains 10 (newFull 0) resetRemote resetRemote resetStats resetStats.reverse reset_hyps
  (List.Perm.refl _) (List.reverse_perm _).symm Router.empty

example : ((resetRouter xcontains 10 (newFull 0) resetRemote resetStats (Router.empty, [])).map
    (fun x => x.1.dst.map (fun e => (e.1.account.getLast?, e.2)))) =
    some [(some 4, 1), (some 3, 5), (some 1, 1)] := by decide +kernel

end Tycho.QueueFill
