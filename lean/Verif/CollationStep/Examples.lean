import Verif.CollationStep.Live

namespace Tycho.CollationStep
open Tycho.Table

/-- Reports one after another, each by a collator at work. -/
def replay (active : List Sid) : Sync → List (Sid × Ctx) → Option Sync
  | s, [] => some s
  | s, (sid, c) :: l =>
    if sid ∈ active ∧ (stateOf s sid).status = .attempts then replay active (detect s active sid c).1 l
    else none

theorem replay_hist {active minI maxI} {ok : Sync → Sid → Ctx → Prop} (hok : ∀ s sid c, ok s sid c) :
    ∀ {l : List (Sid × Ctx)} {s s'}, Hist active minI maxI ok s →
      (∀ e ∈ l, e.2.minInt = minI ∧ e.2.maxInt = maxI) → replay active s l = some s' →
      Hist active minI maxI ok s'
  | [], s, s', h, _, hr => by cases hr; exact h
  | (sid, c) :: l, s, s', h, hi, hr => by
    unfold replay at hr
    by_cases hc : sid ∈ active ∧ (stateOf s sid).status = .attempts
    · rw [if_pos hc] at hr
      have h1 : c.minInt = minI := (hi (sid, c) List.mem_cons_self).1
      have h2 : c.maxInt = maxI := (hi (sid, c) List.mem_cons_self).2
      have h3 : Hist active minI maxI ok (detect s active sid c).1 :=
        Hist.report h hc.1 hc.2 h1 h2 (hok s sid c)
      exact replay_hist hok h3 (fun e he => hi e (List.mem_cons_of_mem _ he)) hr
    · rw [if_neg hc] at hr; cases hr

/-- A report with intervals 100 and 200. -/
def rep (ct : Nat) (f : Force := .no) (b : Option Blk := none) : Ctx := ⟨ct, f, 100, 200, b⟩

/-- The usual course: the master and a shard report, the shard has a block with external messages,
after the minimal interval both agree and the master block is collated at 110. -/
def usual : List (Sid × Ctx) :=
  [(0, rep 10), (1, rep 10), (1, rep 60 .no (some ⟨0, true⟩)), (0, rep 110)]

example : (replay [0, 1] init usual).map (fun s => (detect s [0, 1] 1 (rep 110 .no (some ⟨0, false⟩))).2) =
    some (.collate 110) := by decide +kernel

/-- The hypotheses of `never_stuck` are met there. -/
theorem usual_hist : Hist [0, 1] 100 200 NoOldExt (detect (detect init [0, 1] 0 (rep 10)).1 [0, 1] 1
    (rep 60 .no (some ⟨0, true⟩))).1 := by
  refine .report (.report .init (by decide) (by decide +kernel) rfl rfl ?_) (by decide)
    (by decide +kernel) rfl rfl ?_
  · intro b hb; cases hb
  · intro b _ e he
    have : (stateOf (detect init [0, 1] 0 (rep 10)).1 1).events = [] := by decide +kernel
    rw [this] at he; cases he

example : AtWork (detect (detect init [0, 1] 0 (rep 10)).1 [0, 1] 1 (rep 60 .no (some ⟨0, true⟩))).1 [0, 1] :=
  never_stuck (by decide) (.inr (by decide)) usual_hist

/-- The shard runs ahead of a forced master block: its block of anchor 15 with external messages
stays remembered. Then the master becomes ready after the minimal interval because of that block, the
shard collates a block without external messages on the new master block - which makes the manager
forget the old one, so that the master is no longer agreed - and goes on to the maximal interval. -/
def stuckReports : List (Sid × Ctx) :=
  [(0, rep 10), (1, rep 9), (1, rep 15 .no (some ⟨5, true⟩)), (0, rep 12 .byUnprocessedMessages),
   (0, rep 120), (1, rep 121 .no (some ⟨6, false⟩)), (1, rep 220)]

/-- **Finding.** Without the condition of `never_stuck` on old reports the collators can end up all
waiting for each other: here the masterchain and a single shard, with intervals 100 and 200. Both
are `ready`, the master block is not collated, and no collator is left to report. -/
theorem all_can_wait :
    ∃ s, Hist [0, 1] 100 200 (fun _ _ _ => True) s ∧ ¬ AtWork s [0, 1] := by
  cases h : replay [0, 1] init stuckReports with
  | none =>
    exfalso
    have : (replay [0, 1] init stuckReports).isSome = true := by decide +kernel
    rw [h] at this; cases this
  | some s =>
    refine ⟨s, replay_hist (fun _ _ _ => trivial) .init (by decide) h, ?_⟩
    have hs : (replay [0, 1] init stuckReports).map (fun s => [0, 1].map (fun k => (stateOf s k).status)) =
        some [.ready, .ready] := by decide +kernel
    rw [h] at hs
    simp only [Option.map_some, List.map_cons, List.map_nil, Option.some.injEq, List.cons.injEq,
      and_true] at hs
    rintro ⟨k, hk, hka⟩
    simp only [List.mem_cons, List.not_mem_nil, or_false] at hk
    rcases hk with rfl | rfl
    · rw [hs.1] at hka; cases hka
    · rw [hs.2] at hka; cases hka

/-- A report with the minimal interval above the maximal one. -/
def odd (ct : Nat) (b : Option Blk := none) : Ctx := ⟨ct, .no, 300, 100, b⟩

/-- The condition on the intervals is needed as well. -/
theorem all_can_wait_odd_intervals :
    ∃ s, Hist [0, 1, 2] 300 100 (fun _ _ _ => True) s ∧ ¬ AtWork s [0, 1, 2] := by
  cases h : replay [0, 1, 2] init [(0, odd 10), (1, odd 150), (2, odd 90 (some ⟨0, true⟩)), (0, odd 310), (2, odd 320)] with
  | none =>
    exfalso
    have : (replay [0, 1, 2] init [(0, odd 10), (1, odd 150), (2, odd 90 (some ⟨0, true⟩)), (0, odd 310), (2, odd 320)]).isSome = true := by
      decide +kernel
    rw [h] at this; cases this
  | some s =>
    refine ⟨s, replay_hist (fun _ _ _ => trivial) .init (by decide) h, ?_⟩
    have hs : (replay [0, 1, 2] init [(0, odd 10), (1, odd 150), (2, odd 90 (some ⟨0, true⟩)), (0, odd 310), (2, odd 320)]).map
        (fun s => [0, 1, 2].map (fun k => (stateOf s k).status)) = some [.ready, .ready, .ready] := by
      decide +kernel
    rw [h] at hs
    simp only [Option.map_some, List.map_cons, List.map_nil, Option.some.injEq, List.cons.injEq,
      and_true] at hs
    rintro ⟨k, hk, hka⟩
    simp only [List.mem_cons, List.not_mem_nil, or_false] at hk
    rcases hk with rfl | rfl | rfl
    · rw [hs.1] at hka; cases hka
    · rw [hs.2.1] at hka; cases hka
    · rw [hs.2.2] at hka; cases hka

/-- **Finding.** The states of shards are never removed: a shard without a collation session any more
which was not ready keeps the master waiting for it although every active shard is ready. (Shards
cannot go away yet: splits and merges are not supported.) -/
theorem gone_shard_stops_master :
    let s : Sync := ⟨0, false, none, [(5, {}), (1, ⟨.ready, [⟨200, false, none⟩]⟩)]⟩
    (detect s [0, 1] 0 (rep 50)).2 = .waitForShardStatus ∧ ¬ AtWork (detect s [0, 1] 0 (rep 50)).1 [0, 1] := by
  refine ⟨by decide +kernel, ?_⟩
  have h0 : (stateOf (detect ⟨0, false, none, [(5, {}), (1, ⟨.ready, [⟨200, false, none⟩]⟩)]⟩ [0, 1] 0 (rep 50)).1 0).status
      = .waitShard := by decide +kernel
  have h1 : (stateOf (detect ⟨0, false, none, [(5, {}), (1, ⟨.ready, [⟨200, false, none⟩]⟩)]⟩ [0, 1] 0 (rep 50)).1 1).status
      = .ready := by decide +kernel
  rintro ⟨k, hk, hka⟩
  simp only [List.mem_cons, List.not_mem_nil, or_false] at hk
  rcases hk with rfl | rfl
  · rw [h0] at hka; cases hka
  · rw [h1] at hka; cases hka

end Tycho.CollationStep
