import Verif.ExtReader.Props
/-! A concrete run: messages read over three blocks, a restart, the refill. -/
namespace Tycho.ExtReader.Examples

/-- Buffers are lists of messages, full with four, a group can be filled with three. -/
def ops : Ops (List Item) := ⟨[], fun b _ i => b ++ [i], List.length, fun b => decide (4 ≤ b.length), fun b => decide (3 ≤ b.length)⟩
def cfg : Cfg (List Item) := ⟨fun d => decide (d < 10), 100, fun d => d % 2, ops⟩
/-- One message is taken from each buffer. -/
def take1 : Collect (List Item) := fun _ l => l.map (fun x => x.2.2.drop 1)
def takeAll : Collect (List Item) := fun _ l => l.map (fun _ => [])

theorem fair : cfg.Fair take1 := ⟨fun _ _ _ _ => rfl, rfl⟩

def a1 : Anchor := ⟨5, 50, [⟨1, 0⟩, ⟨20, 1⟩]⟩
def a2 : Anchor := ⟨7, 60, [⟨2, 2⟩, ⟨30, 3⟩, ⟨3, 4⟩, ⟨4, 5⟩, ⟨30, 6⟩]⟩
def a3 : Anchor := ⟨8, 70, [⟨30, 7⟩]⟩
def a4 : Anchor := ⟨9, 80, [⟨5, 8⟩, ⟨6, 9⟩, ⟨7, 10⟩, ⟨5, 12⟩, ⟨40, 13⟩, ⟨6, 14⟩, ⟨7, 15⟩]⟩
def a5 : Anchor := ⟨10, 90, [⟨8, 11⟩]⟩

def imp (a : Anchor) (h : H (List Item)) : H (List Item) := ⟨importAnchor cfg.ours a h.st, h.anchors ++ [a], h.log⟩
def grp (f : Collect (List Item)) (h : H (List Item)) : H (List Item) :=
  ⟨(group (cfg.env 10 false) .continue_ true f h.st).st, h.anchors, h.log ++ (group (cfg.env 10 false) .continue_ true f h.st).put.map (·.2)⟩
def blk (b ct : Nat) (h : H (List Item)) : H (List Item) := ⟨newBlock b ct (finalize h.st), h.anchors, h.log⟩

/-- The first anchor is read and collected. -/
def h0 : H (List Item) := grp takeAll (imp a1 (start 1 55))
/-- The run after it: three blocks. -/
def r1 := blk 2 65 h0
def r2 := imp a2 r1
def r3 := grp take1 r2
def r4 := blk 3 75 r3
def r5 := imp a3 r4
def r6 := imp a4 r5
def r7 := grp take1 r6
def r8 := grp take1 r7
def r9 := blk 4 85 r8
def r10 := grp take1 r9

theorem reach0 : Reach cfg.ours cfg.timeout h0 := by
  refine Reach.step (Reach.step (Reach.start 1 55) (Step.imp _ a1 (by intro c hc; cases hc))) (Step.group _ (cfg.env 10 false) true takeAll rfl rfl)

theorem clean0 : Clean cfg.ops h0.st := by
  have hr : Reach cfg.ours cfg.timeout (imp a1 (start 1 55)) := Reach.step (Reach.start 1 55) (Step.imp _ a1 (by intro c hc; cases hc))
  exact (ext_collected hr (cfg.env 10 false) rfl rfl (fun b hb => List.eq_nil_of_length_eq_zero hb) true takeAll
    (by intro h; have := congrArg List.length h; revert this; decide +kernel) (by decide +kernel)).1

theorem seg : Seg cfg take1 ⟨h0, true⟩ ⟨r10, true⟩ := by
  refine Seg.head (SegStep.block ⟨h0, true⟩ 2 65 (by decide +kernel) (by decide +kernel)) ?_
  refine Seg.head (SegStep.imp ⟨r1, true⟩ a2 (by decide +kernel) (by decide +kernel)) ?_
  refine Seg.head (SegStep.group ⟨r2, true⟩ 10 false true (fun _ => rfl) (by decide +kernel)) ?_
  refine Seg.head (SegStep.block ⟨r3, true⟩ 3 75 (by decide +kernel) (by decide +kernel)) ?_
  refine Seg.head (SegStep.imp ⟨r4, true⟩ a3 (by decide +kernel) (by decide +kernel)) ?_
  refine Seg.head (SegStep.imp ⟨r5, true⟩ a4 (by decide +kernel) (by decide +kernel)) ?_
  refine Seg.head (SegStep.group ⟨r6, true⟩ 10 false true (fun _ => rfl) (by decide +kernel)) ?_
  refine Seg.head (SegStep.group ⟨r7, true⟩ 10 false true (fun _ => rfl) (by decide +kernel)) ?_
  refine Seg.head (SegStep.block ⟨r8, true⟩ 4 85 (by decide +kernel) (by decide +kernel)) ?_
  refine Seg.head (SegStep.group ⟨r9, true⟩ 10 false true (fun _ => rfl) (by decide +kernel)) ?_
  exact Seg.refl _

/-- The theorem applies, with one anchor that was not imported before the restart. -/
example : ∃ m R k, (∀ n, m ≤ n → refill (cfg.env 10 false) take1 n (restart (cfg.env 10 false) (r10.anchors ++ [a5]) 5 95 (finalize r10.st)) = R) ∧
      k ≤ 1 ∧ R.ranges.map stat = ((finalize r10.st).ranges.drop k).map stat ∧
      R.ranges.map Range.buf = (r10.st.ranges.drop k).map Range.buf := by
  obtain ⟨m, R, k, h1, h2, h3, h4, _⟩ := ext_refill fair seg reach0 clean0 [a5] (by unfold Sorted; decide +kernel) (by decide +kernel) 10 false 5 95 (by decide +kernel)
  exact ⟨m, R, k, h1, h2, h3, h4⟩

/-- What was read, in order, and what is in the buffers at the end. -/
example : r10.log.map (fun i => (i.key.a, i.key.o, i.msg.tag)) =
    [(5, 1, 0), (7, 1, 2), (7, 3, 4), (7, 4, 5), (9, 1, 8), (9, 2, 9), (9, 3, 10), (9, 4, 12), (9, 6, 14), (9, 7, 15)] := by decide +kernel
example : r10.st.ranges.map (fun r => (r.seqno, r.lo, r.to, r.buf.map (·.msg.tag))) =
    [(1, ⟨5, 2⟩, ⟨5, 2⟩, []), (2, ⟨5, 2⟩, ⟨7, 4⟩, []), (3, ⟨7, 4⟩, ⟨9, 4⟩, [12]), (4, ⟨9, 4⟩, ⟨9, 7⟩, [15])] := by decide +kernel
/-- The restarted collator after ten groups at most. -/
example : (refill (cfg.env 10 false) take1 10 (restart (cfg.env 10 false) (r10.anchors ++ [a5]) 5 95 (finalize r10.st))).ranges.map
      (fun r => (r.seqno, r.lo, r.to, r.buf.map (·.msg.tag))) =
    [(1, ⟨5, 2⟩, ⟨5, 2⟩, []), (2, ⟨5, 2⟩, ⟨7, 4⟩, []), (3, ⟨7, 4⟩, ⟨9, 4⟩, [12]), (4, ⟨9, 4⟩, ⟨9, 7⟩, [15])] := by decide +kernel

/-- The other theorems at this state. -/
example : (group (cfg.env 10 false) .continue_ true take1 h0.st).stuck = false :=
  (ext_group reach0 (cfg.env 10 false) rfl rfl true take1).1
example : Reach cfg.ours cfg.timeout r3 := by
  refine Reach.step (Reach.step (Reach.step reach0 (Step.block _ 2 65 (by decide +kernel) (by decide +kernel)))
    (Step.imp _ a2 (by decide +kernel))) (Step.group _ (cfg.env 10 false) true take1 rfl rfl)
/-- A message that is not read yet is ahead of the position. -/
example : r7.st.cache = [a4] ∧ r7.st.pos = ⟨9, 3⟩ := by decide +kernel
/-- The hypotheses of `ext_eager` hold there. -/
example : r2.st.allFully = false ∧ r2.st.ranges.length < (cfg.env 10 false).limit ∧ lastSeqno r2.st.ranges < r2.st.block := by decide +kernel

end Tycho.ExtReader.Examples
