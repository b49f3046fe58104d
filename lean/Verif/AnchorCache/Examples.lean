import Verif.AnchorCache.Keeper
/-!
Concrete cases: the hypotheses are met, and what happens where they are not.
-/
namespace Tycho.AnchorCache

/-- An anchor with little in it. -/
def mkA (id : Nat) (prev : Option Nat) : Anchor := ⟨id, prev, 7, id * 10, [id, id + 1]⟩

/-- Three anchors, closed at 6. -/
def c3 : Cache := ⟨[mkA 4 none, mkA 6 (some 4), mkA 9 (some 6)], false, some 6, 0, 0⟩

example : Ordered c3.anchors := by simp [c3, Ordered, mkA]

example : [c3.byId 6, c3.byId 5, c3.byId 9, c3.byId 3, c3.next 4, c3.next 5, c3.next 6, c3.next 1] =
    [.some (mkA 6 (some 4)), .none, .wait, .none, .some (mkA 6 (some 4)), .none, .wait, .some (mkA 4 none)] := by
  decide +kernel

example : ((c3.reopen false).1.next 6, (c3.reopen true).1.next 6, (c3.clear 6).next 4, (c3.clear 6).next 3) =
    (Answer.some (mkA 9 (some 6)), Answer.wait, Answer.err .firstRemoved, Answer.none) := by decide +kernel

example : ((c3.push (mkA 6 none)).2, (c3.push (mkA 6 (some 5))).2, (c3.push { mkA 6 (some 4) with exts := [6] }).2) =
    (true, false, false) := by decide +kernel

/-- A reader that has to wait twice. -/
def waits : List Step :=
  [.call (.next 4), .subscribe 0, .push (mkA 4 none), .attempt 0, .notify, .wake 0, .subscribe 0, .attempt 0, .close 4,
    .push (mkA 6 (some 4)), .notify, .notify, .wake 0, .subscribe 0, .attempt 0, .reopen false, .notify]

example : runOk .new waits := by
  simp [runOk, waits, Step.ok, Sys.step, Sys.new, Cache.new, Cache.push, Cache.close, Cache.reopen, find, mkA]

example : (Sys.new.run waits).readers = [(.next 4, .waiting 3)] ∧ (Sys.new.run waits).cache.owed = 0 ∧
    (Sys.new.run waits).cache.answer (.next 4) = .some (mkA 6 (some 4)) := by decide +kernel

/-- A feed with everything in it. -/
def feedOps : List FeedOp :=
  [.push (mkA 4 none), .push (mkA 6 (some 4)), .first 4, .push (mkA 6 none), .push (mkA 9 (some 6)), .close 6, .read, .read,
    .clear 6, .push (mkA 12 (some 9)), .reopen true, .read, .push (mkA 14 none), .read, .push (mkA 16 (some 14)), .clear 14]

example : feedOk .new feedOps := by
  simp [feedOk, feedOps, FeedOp.ok, Feed.step, Feed.new, Cache.new, Cache.push, Cache.close, Cache.reopen, Cache.clear, find,
    mkA, Feed.logPush, Feed.logReopen, Feed.take, Cache.byId, Cache.byIdFrom, Cache.byIdAt, Cache.next, Cache.nextFrom,
    Cache.nextOfKnown, Cache.isOff, pos, Anchor.follows, List.takeWhile, maxId]

example : ((Feed.new.run feedOps).got.map (·.id), (Feed.new.run feedOps).log.map (·.id), (Feed.new.run feedOps).bad) =
    ([4, 6, 14], [4, 6, 14, 16], false) := by decide +kernel

/-- Updates and signatures. -/
def qOps : List QOp :=
  [.push ⟨0, 1, 0⟩, .push ⟨3, 1, 0⟩, .push ⟨2, 1, 0⟩, .push ⟨3, 1, 1⟩, .sign 3, .push ⟨2, 1, 5⟩, .sign 6, .push ⟨5, 1, 0⟩,
    .push ⟨4, 1, 0⟩, .push ⟨8, 2, 0⟩, .sign 7]

example : (Hist.new.run qOps).out = [⟨0, 1, 0⟩, ⟨2, 1, 0⟩, ⟨3, 1, 1⟩, ⟨5, 1, 0⟩] ∧
    (Hist.new.run qOps).q = ⟨[⟨8, 2, 0⟩], 5, 7⟩ := by decide +kernel

/-- Genesis are compared by number; genesis `n` starts at `10 * n`. -/
def gen : Gen := ⟨fun a b => decide (b < a), fun n => 10 * n⟩

theorem gen_strict : gen.Strict :=
  ⟨fun a => by simp [gen], fun a b c h1 h2 => by simp only [gen, decide_eq_true_eq] at *; omega⟩

/-- A switch of genesis from 1 to 2: anchor 24 of the old one is dropped. -/
def switchOps : List KOp :=
  [.anchor (mkA 12 none), .anchor (mkA 18 (some 12)), .update ⟨5, 1, 0⟩, .update ⟨6, 2, 0⟩, .anchor (mkA 24 (some 18)),
    .sign 5]

set_option maxRecDepth 20000 in
example : keeperOk gen (.started 1 4 4) switchOps ∧
    (KOp.sign 6).ok gen ((Keeper.started 1 4 4).run gen switchOps) := by
  refine ⟨?_, trivial⟩
  simp [keeperOk, switchOps, KOp.ok, Keeper.step, Keeper.started, Keeper.update, Keeper.check, Keeper.checkWith, gen, Queue.push,
    reached, insertCtx, Cache.new, Cache.push, Cache.close, find, mkA, Keeper.sign, Keeper.signWith, Queue.sign, Queue.drain]

example : ((Keeper.started 1 4 4).run gen switchOps).cache.off = some 20 ∧
    ((Keeper.started 1 4 4).run gen switchOps).cache.anchors.map (·.id) = [12, 18, 24] ∧
    (((Keeper.started 1 4 4).run gen switchOps).step gen (.sign 6)).cache.anchors.map (·.id) = [12, 18] ∧
    (((Keeper.started 1 4 4).run gen switchOps).step gen (.sign 6)).session = some 2 := by decide +kernel

example : ((Keeper.new (some 3)).run gen [.update ⟨0, 2, 0⟩, .update ⟨1, 4, 0⟩, .sign 1]).session = some 4 ∧
    ((Keeper.new (some 3)).run gen [.update ⟨0, 2, 0⟩, .update ⟨1, 4, 0⟩]).session = some 3 ∧
    ((Keeper.new none).run gen [.update ⟨2, 2, 0⟩]).session = none := by decide +kernel

/-! ### What happens otherwise -/

/-- **A switch that is cancelled and decided again is not cut.** Block 5 is first collated with the new genesis, then
without; block 6 brings the new genesis again while 5 waits for its signature. The signature of 5 opens the cache, nobody
closes it for 6, and after the switch the collator still gets an anchor of the old genesis from beyond the new start. -/
theorem cancelled_switch_keeps_old_future :
    let k := (Keeper.started 1 4 4).run gen [.anchor (mkA 18 none), .update ⟨5, 2, 0⟩, .update ⟨5, 1, 1⟩, .update ⟨6, 2, 0⟩,
      .sign 5, .anchor (mkA 24 (some 18)), .sign 6]
    k.session = some 2 ∧ gen.start 2 < 24 ∧ k.cache.answer (.next 18) = .some (mkA 24 (some 18)) := by decide +kernel

/-- **A switch that is queued before the first session is not cut** either: nothing is checked while there is no session. -/
theorem early_switch_keeps_old_future :
    let k := (Keeper.new none).run gen [.sign 4, .update ⟨6, 2, 0⟩, .update ⟨4, 1, 0⟩, .anchor (mkA 18 none),
      .anchor (mkA 24 (some 18)), .sign 6]
    k.session = some 2 ∧ gen.start 2 < 24 ∧ k.cache.answer (.next 18) = .some (mkA 24 (some 18)) := by decide +kernel

/-- **An anchor of the old session may come after the cut**: the cache is opened before the old session is stopped
(session_keeper.rs:101, 147), so its handler may still push. The collator gets that anchor; the new session's anchor
with the same id is then a fork. -/
theorem late_anchor_after_the_cut :
    let k := (Keeper.started 1 4 4).run gen (switchOps ++ [.sign 6, .anchor (mkA 24 (some 18))])
    k.session = some 2 ∧ k.cache.answer (.next 18) = .some (mkA 24 (some 18)) ∧
      (k.cache.push (mkA 24 none)).2 = true ∧ (k.cache.push { mkA 24 none with author := 8 }).2 = false := by decide +kernel

/-- **An anchor that was cleaned up and comes again is put at the end**: the order is broken, and an anchor that is there
is then not found. -/
theorem replayed_anchor_breaks_order :
    let c := ((((Cache.new.push (mkA 4 none)).1.push (mkA 6 (some 4))).1.clear 6).push (mkA 4 none)).1
    c.anchors.map (·.id) = [6, 4] ∧ c.byId 4 = .none := by decide +kernel

end Tycho.AnchorCache
