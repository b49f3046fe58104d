import Verif.BlocksGc.Props
import Verif.BlocksGc.TailProps
import Verif.BlocksGc.SaveProps

namespace Tycho.BlocksGc
open Tycho.Table Tycho.BlockMeta

/-! ### Removal -/

/-- masterchain: shard 9; the top block of shard 4 is 12, target masterchain block 5 -/
def exP : Params := ⟨fun s => s == 9, fun s n => s == 4 && decide (12 ≤ n), 5, some 2⟩

def exDb : Db where
  ids := [⟨4, 0, 1⟩, ⟨4, 9, 2⟩, ⟨4, 10, 3⟩, ⟨4, 11, 4⟩, ⟨4, 12, 5⟩, ⟨9, 2, 6⟩, ⟨9, 3, 7⟩, ⟨9, 4, 8⟩, ⟨9, 5, 9⟩]
  conns := [⟨4, 9, 2⟩, ⟨4, 10, 3⟩, ⟨4, 12, 5⟩, ⟨9, 4, 8⟩]
  handles := [(1, 0), (2, 0), (3, SKIP_BLOCKS_GC), (4, 0), (5, 0), (6, IS_KEY_BLOCK), (7, 0), (8, 0), (9, 0)]
  data := [⟨⟨4, 9, 2⟩, 0⟩, ⟨⟨4, 9, 2⟩, 2⟩, ⟨⟨4, 10, 3⟩, 0⟩, ⟨⟨4, 11, 4⟩, 1⟩, ⟨⟨4, 12, 5⟩, 0⟩, ⟨⟨9, 3, 7⟩, 1⟩]

instance (j k : Key) : Decidable (Before j k) := by unfold Before; infer_instance

theorem exDb_wf : Wf exDb := ⟨by decide, by decide, by decide, by decide⟩

example : (run exP exDb).db.ids = [⟨4, 0, 1⟩, ⟨4, 10, 3⟩, ⟨4, 12, 5⟩, ⟨9, 2, 6⟩, ⟨9, 5, 9⟩] := by decide +kernel
example : (run exP exDb).db.data = [⟨⟨4, 10, 3⟩, 0⟩, ⟨⟨4, 12, 5⟩, 0⟩] := by decide +kernel

/-- Between the removal of data and the next write, handles say `HAS_DATA` for blocks whose data is gone; the next run
removes them. -/
example : ∃ d ∈ (run exP exDb).trace, get d.handles 2 = some 0 ∧ ⟨4, 9, 2⟩ ∈ d.ids ∧ (∀ e ∈ d.data, e.key ≠ ⟨4, 9, 2⟩) := by
  decide +kernel

/-- Why one block per shard and seqno is assumed: a key block with the seqno of an outdated block goes with it, although its
flag says it stays. -/
theorem sibling_lost : ∃ (p : Params) (db : Db) (k : Key), k ∈ db.ids ∧ keeps p db k = true ∧ k ∉ (run p db).db.ids ∧
    get (run p db).db.handles k.root = get db.handles k.root :=
  ⟨exP, ⟨[⟨9, 2, 6⟩, ⟨9, 2, 7⟩], [], [(6, 0), (7, IS_KEY_BLOCK)], []⟩, ⟨9, 2, 7⟩, by decide +kernel, by decide +kernel,
    by decide +kernel, by decide +kernel⟩

/-! ### Target -/

def exB : McBlock := ⟨1200, 3, [(1, 20), (1, 21), (2, 5)]⟩

example : (Cache.empty.handle exB).tailLen 1200 = some 21 := by decide
example : gcTarget 1200 1000 21 = some 200 := by decide
example : gcTarget 1200 100 150 = some 1049 := by decide
example : InTail (fun m => m) 1200 21 1190 := by unfold InTail; simp
example : gcTarget 100 100 3 = none := by decide

/-- Finding: a shard without a block in the last masterchain block is not accounted for. Shard 1 has one block per masterchain
block up to 1199 and a queue tail of 500 diffs; block 1200 has a block of shard 2 only. 400 needed diffs are removed. -/
theorem idle_shard_tail_lost : ∃ (b : McBlock) (h : Nat → Nat) (v t : Nat), (Cache.empty.handle b).tailLen b.seqno = some v ∧
    gcTarget b.seqno 100 v = some t ∧ (∀ m, h m ≤ h (m + 1)) ∧ h (b.seqno - 1) = h b.seqno ∧
    ∃ n, InTail h b.seqno 500 n ∧ ¬ Kept h t n := by
  refine ⟨⟨1200, 1, [(2, 1)]⟩, fun m => min m 1199, 1, 1100, by decide, by decide, by intro m; simp only; omega, by simp, 700, ?_, ?_⟩
  · unfold InTail; simp
  · unfold Kept; simp

/-- Finding: masterchain blocks without shard blocks make the distance too short. One shard, a block in every second masterchain block,
and a tail of 150 diffs, which are those of 300 masterchain blocks; the distance is 151. -/
theorem sparse_shard_tail_lost : ∃ (b : McBlock) (h : Nat → Nat) (v t : Nat), (Cache.empty.handle b).tailLen b.seqno = some v ∧
    gcTarget b.seqno 100 v = some t ∧ (∀ m, h m ≤ h (m + 1)) ∧ (1, 150) ∈ b.shards ∧ h (b.seqno - 1) < h b.seqno ∧
    ∃ n, InTail h b.seqno 150 n ∧ ¬ Kept h t n := by
  refine ⟨⟨1000, 1, [(1, 150)]⟩, fun m => m / 2, 150, 849, by decide, by decide, by intro m; simp only; omega, by decide, by decide, 351, ?_, ?_⟩
  · unfold InTail; simp
  · unfold Kept; simp

/-! ### Saving -/

/-- saves 1 and 2 both need item 7 -/
def exDeps (m : Nat) : List Nat := if m = 1 then [6, 7] else if m = 2 then [7, 8] else []

/-- save 1 up to the release of its first item -/
theorem ex_saving : ∃ s, SaveExec exDeps s ∧ s.phase = .finishing 1 [7] ∧ s.pending = some 1 ∧ s.completed = [1] ∧
    s.fin 6 = true ∧ s.outdated 6 = true ∧ s.live 6 = true ∧ s.skip 7 = true ∧ s.fin 7 = false ∧ s.live 7 = true ∧ s.outdated 7 = false ∧
    s.skip 6 = true ∧ s.live 8 = true ∧ s.outdated 8 = false ∧ s.skip 8 = false ∧ s.fin 8 = false := by
  have e0 := SaveExec.init (deps := exDeps)
  have e1 := SaveExec.step _ _ e0 (SaveStep.begin _ 1 rfl (by decide))
  have e2 := SaveExec.step _ _ e1 (SaveStep.flag _ 1 6 [7] rfl rfl)
  have e3 := SaveExec.step _ _ e2 (SaveStep.flag _ 1 7 [] rfl rfl)
  have e4 := SaveExec.step _ _ e3 (SaveStep.save _ 1 rfl)
  have e5 := SaveExec.step _ _ e4 (SaveStep.advance _ (fun x => x == 6) (fun _ _ h => nomatch h) (fun h => nomatch h) (fun b h => by cases h))
  have e6 := SaveExec.step _ _ e5 (SaveStep.saved _ 1 rfl)
  have e7 := SaveExec.step _ _ e6 (SaveStep.finish _ 1 6 [7] rfl)
  exact ⟨_, e7, rfl, rfl, rfl, rfl, rfl, rfl, rfl, rfl, rfl, rfl, rfl, rfl, rfl, rfl, rfl⟩

/-- Finding: the pending id is taken off the disk only after all items are released. If the collection removes a released item and the
node stops before that, the node does not start again. -/
theorem stuck_reachable : ∃ s, SaveExec exDeps s ∧ s.phase = .stopped ∧ s.pending = some 1 ∧ ∃ b ∈ exDeps 1, s.live b = false := by
  obtain ⟨s, h, _, h2, _, h4, h5, _⟩ := ex_saving
  have e1 := SaveExec.step _ _ h (SaveStep.gc s 6 h5 (by rw [h4]; simp))
  have e2 := SaveExec.step _ _ e1 (SaveStep.stop _)
  exact ⟨_, e2, rfl, h2, 6, by decide, by simp [set]⟩

/-- Finding: an item needed by two persistent states is not protected the second time, because the flag that releases it is never
taken back. -/
theorem second_save_unprotected : ∃ s, SaveExec exDeps s ∧ s.phase = .saving 2 ∧ ∃ b ∈ exDeps 2, s.live b = false := by
  obtain ⟨s, h, h1, h2, h3, h4, h5, h6, h7, h8, h9, h10, h11, h12, h13, h14, h15⟩ := ex_saving
  have e1 := SaveExec.step _ _ h (SaveStep.finish _ 1 7 [] h1)
  have e2 := SaveExec.step _ _ e1 (SaveStep.done _ 1 rfl)
  have e3 := SaveExec.step _ _ e2 (SaveStep.begin _ 2 rfl (by
    intro b hb
    have : b = 7 ∨ b = 8 := by simpa [exDeps] using hb
    rcases this with rfl | rfl
    · exact ⟨h9, h10⟩
    · exact ⟨h12, h13⟩))
  have e4 := SaveExec.step _ _ e3 (SaveStep.flag _ 2 7 [8] rfl h9)
  have e5 := SaveExec.step _ _ e4 (SaveStep.flag _ 2 8 [] rfl h12)
  have e6 := SaveExec.step _ _ e5 (SaveStep.save _ 2 rfl)
  have e7 := SaveExec.step _ _ e6 (SaveStep.advance _ (fun x => s.outdated x || x == 7) (fun _ _ h => nomatch h) (fun h => nomatch h)
    (fun b h => by simp only at h; simp [h]))
  have e8 := SaveExec.step _ _ e7 (SaveStep.gc _ 7 (by simp) (by simp [set]))
  exact ⟨_, e8, rfl, 7, by decide, by simp [set]⟩

end Tycho.BlocksGc
