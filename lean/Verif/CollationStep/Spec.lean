import Verif.CollationStep.Model

namespace Tycho.CollationStep
open Tycho.Table

/-- Of the blocks reported by a shard, one on top of the newest master block any of them refers to
processed external messages. -/
def HasExt (l : List Ev) : Prop :=
  ∃ e ∈ l, ∃ b, e.block = some b ∧ b.ext = true ∧
    ∀ e' ∈ l, ∀ b', e'.block = some b' → b'.prevMc ≤ b.prevMc

/-- The master blocks referred to never get older along the reports of a shard. -/
def Ordered (l : List Ev) : Prop :=
  l.Pairwise (fun a b => ∀ x y, a.block = some x → b.block = some y → x.prevMc ≤ y.prevMc)

/-- A shard has nothing against a master block now: it asked for one, or one is forced for all and
it has reported something, or - if some shard has a block with external messages or one asked for a
master block for want of messages - the minimal interval has passed for it and it is waiting (or
reporting just now), or the maximal interval has passed for it. -/
def Agrees (s : Sync) (ext : Prop) (minI maxI : Nat) (cur sid : Sid) : Prop :=
  let st := stateOf s sid
  (∃ e ∈ st.events, e.forced = true) ∨
  (s.hard = true ∧ st.events ≠ []) ∨
  ((ext ∨ s.noPending ≠ none) ∧ (sid = cur ∨ st.status ≠ .attempts) ∧
    ∃ e ∈ st.events, minI ≤ e.ct - s.latest) ∨
  (¬ ext ∧ s.noPending = none ∧ ∃ e ∈ st.events, maxI ≤ e.ct - s.latest)

/-- Some active shard has reported a block with external messages on its newest master block. -/
def SomeExt (s : Sync) (active : List Sid) : Prop :=
  ∃ sid ∈ active, sid ≠ mc ∧ HasExt (stateOf s sid).events

/-- A collator is at work: one which will report again. -/
def AtWork (s : Sync) (active : List Sid) : Prop :=
  ∃ sid ∈ active, (stateOf s sid).status = .attempts

/-- A block reported on top of a newer master block than the blocks reported before and still
remembered: none of those processed external messages. -/
def NoOldExt (s : Sync) (sid : Sid) (c : Ctx) : Prop :=
  ∀ b, c.block = some b → ∀ e ∈ (stateOf s sid).events, ∀ x, e.block = some x →
    x.prevMc ≤ b.prevMc ∧ (x.prevMc < b.prevMc → x.ext = false)

/-- The histories of a manager with the active shards `active` and fixed intervals: reports of
collators at work, which satisfy `ok`, and syncs. -/
inductive Hist (active : List Sid) (minI maxI : Nat) (ok : Sync → Sid → Ctx → Prop) : Sync → Prop
  /-- a new manager -/
  | init : Hist active minI maxI ok init
  /-- a report -/
  | report {s sid c} : Hist active minI maxI ok s → sid ∈ active →
      (stateOf s sid).status = .attempts → c.minInt = minI → c.maxInt = maxI → ok s sid c →
      Hist active minI maxI ok (detect s active sid c).1
  /-- a sync -/
  | sync {s} (t) : Hist active minI maxI ok s → Hist active minI maxI ok (resync s t)

end Tycho.CollationStep
