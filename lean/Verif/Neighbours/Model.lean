import Mathlib.Data.List.Nodup
import Mathlib.Data.List.MinMax
import Mathlib.Data.List.Sort

/-! Model of the choice of neighbours of the public overlay client: `core/src/overlay_client/neighbour.rs`
and `neighbours.rs`.

Simplifications. Peers, neighbours (`id` stands for the shared object) and seconds are natural numbers;
random numbers are given; the float keys of `choose_multiple` are numbers, without their formula (a greater
weight only makes a greater key likelier). Reading the scores of several neighbours is one step. `none` is a
panic. The counters of requests do not overflow. -/
namespace Tycho.Neighbours

/-! ## The score of a neighbour -/

/-- core/src/overlay_client/neighbour.rs:117-124 `struct TrackedStats` (without the time of creation): the
history of failures and the times of the last four requests are packed into 64 bits. -/
structure Stats where
  score : Nat
  total : Nat := 0
  failed : Nat := 0
  history : Nat := 0
  times : Nat
deriving DecidableEq, Repr

/-- core/src/overlay_client/neighbour.rs:127-129 `MAX_SCORE`, `SCORE_THRESHOLD`, `INITIAL_SCORE`. -/
def maxScore : Nat := 128
def threshold : Nat := 16
def initialScore : Nat := maxScore / 2

/-- core/src/overlay_client/neighbour.rs:131-140 `new`. -/
def Stats.new (defaultTime : Nat) : Stats := { score := initialScore, times := defaultTime }

/-- core/src/overlay_client/neighbour.rs:142-144 `higher_than_threshold`. -/
def Stats.reliable (s : Stats) : Bool := decide (threshold ≤ s.score)

/-- core/src/overlay_client/neighbour.rs:208-211 `PackedSmaBuffer::add`. -/
def addTime (b v : Nat) : Nat := (b * 65536) % 2 ^ 64 + v

/-- core/src/overlay_client/neighbour.rs:213-224 the loop of `get_avg`: the sum and the number of the
16-bit digits up to the highest one that is not zero. -/
def digits (b : Nat) : Nat × Nat :=
  if h : b = 0 then (0, 0) else let r := digits (b / 65536); (b % 65536 + r.1, r.2 + 1)
termination_by b
decreasing_by omega

/-- core/src/overlay_client/neighbour.rs:213-224 `get_avg`. -/
def avgTime (b : Nat) : Option Nat :=
  let r := digits b
  if r.2 = 0 then none else some (r.1 / r.2 % 65536)

/-- core/src/overlay_client/neighbour.rs:146-173 `compute_selection_score`. -/
def Stats.selection (s : Stats) : Option Nat :=
  let score :=
    if s.history % 16 = 15 then s.score - 16
    else if 120 ≤ s.score then
      match avgTime s.times with
      | some avg => if avg ≤ 160 then min (s.score + max ((160 - avg) * 16 / 160) 1) 255 else s.score
      | none => s.score
    else s.score
  if threshold ≤ score then some score else none

/-- core/src/overlay_client/neighbour.rs:175-197 `update`. -/
def Stats.track (s : Stats) (time : Nat) (success : Option Bool) : Stats :=
  let s := match success with
    | some true => { s with history := (s.history * 2) % 2 ^ 64, score := min (min (s.score + 8) 255) maxScore }
    | some false => { s with history := (s.history * 2) % 2 ^ 64 + 1, score := s.score - 8, failed := s.failed + 1 }
    | none => s
  { s with total := s.total + 1, times := addTime s.times time }

/-- core/src/overlay_client/neighbour.rs:78-93 `PunishReason`. -/
inductive Reason where
  | dumb | slow | malicious
deriving DecidableEq, Repr

/-- core/src/overlay_client/neighbour.rs:86-92 -/
def Reason.score : Reason → Nat
  | .dumb => 4
  | .slow => 8
  | .malicious => 128

/-- core/src/overlay_client/neighbour.rs:199-201 `punish`. -/
def Stats.punish (s : Stats) (r : Reason) : Stats := { s with score := s.score - r.score }

/-! ## The index to choose from -/

/-- core/src/overlay_client/neighbour.rs:10-12,111-115 `Neighbour`. -/
structure Nb where
  id : Nat
  peer : Nat
  expires : Nat
deriving DecidableEq, Repr

/-- core/src/overlay_client/neighbours.rs:229-243 the loop of `SelectionIndex::update`: neighbours with
cumulative weights. -/
def buildFrom (stats : Nat → Stats) (a : Nat) : List Nb → List (Nb × Nat)
  | [] => []
  | n :: l => match (stats n.id).selection with
    | some w => (n, a + w) :: buildFrom stats (a + w) l
    | none => buildFrom stats a l

/-- core/src/overlay_client/neighbours.rs:215-219 `struct SelectionIndex`. -/
structure Index where
  items : List (Nb × Nat) := []
  total : Nat := 0
deriving DecidableEq, Repr

/-- core/src/overlay_client/neighbours.rs:229-243 `SelectionIndex::update`. -/
def build (stats : Nat → Stats) (l : List Nb) : Index :=
  let items := buildFrom stats 0 l
  ⟨items, (items.getLast?.map (·.2)).getD 0⟩

/-- `partition_point(|w| w <= r)` on cumulative weights, and the entry there. -/
def pick (items : List (Nb × Nat)) (r : Nat) : Option Nb :=
  (items[items.findIdx fun e => !decide (e.2 ≤ r)]?).map (·.1)

/-- core/src/overlay_client/neighbours.rs:256-282: cumulative weights less the fines; the subtraction of
cumulative weights must not underflow, nor a weight be zero. -/
def adjustFrom (fine : Nat → Nat) : Nat → Nat → List (Nb × Nat) → Option (List (Nb × Nat))
  | _, _, [] => some []
  | prev, acc, e :: l =>
    if e.2 ≤ prev then none
    else
      let w := max (e.2 - prev - fine e.1.peer) 1
      (adjustFrom fine e.2 (acc + w) l).map fun t => (e.1, acc + w) :: t

/-- core/src/overlay_client/neighbours.rs:245-292 `SelectionIndex::choose` without history, `r` random below
the total weight. -/
def choose (ix : Index) (r : Nat) : Option Nb :=
  if ix.total = 0 ∨ ix.items = [] then none else pick ix.items r

/-- core/src/overlay_client/neighbours.rs:255-284: the weights `choose` draws from with a history. -/
def adjusted (ix : Index) (fine : Nat → Nat) : Option (List (Nb × Nat)) := adjustFrom fine 0 0 ix.items

/-- core/src/overlay_client/neighbours.rs:245-292 `SelectionIndex::choose` with a history, `r` random below
the adjusted total weight. -/
def chooseWith (ix : Index) (fine : Nat → Nat) (r : Nat) : Option (Option Nb) :=
  if ix.total = 0 ∨ ix.items = [] then some none else (adjusted ix fine).map fun l => pick l r

/-- core/src/overlay_client/neighbours.rs:294-400 `choose_multiple`; `key` are the random keys of the
entries. -/
def chooseMultiple (ix : Index) (key : Nb → Nat) (n : Nat) (ok : Nb → Bool) : List Nb :=
  let n := min n ix.items.length
  if n = 0 then []
  else (((ix.items.map (·.1)).insertionSort fun a b => key a ≤ key b).drop (ix.items.length - n)).filter ok

/-- core/src/overlay_client/neighbours.rs:136-142 `get_sorted_neighbours`: sorts the index itself. -/
def sortIndex (ix : Index) : Index := { ix with items := ix.items.insertionSort fun a b => b.2 ≤ a.2 }

/-! ## The fines of a request -/

/-- core/src/overlay_client/neighbours.rs:430-450 `RequestHistory::got_response`, for the fine of one peer
(0 if it has none; the bound of the cache is left out). -/
def gotResponse (fine : Nat) (useful : Bool) : Nat :=
  if useful then fine / 2
  else if fine = 0 then 1
  else if fine < 16 then fine * 2 else fine

/-! ## The set of neighbours -/

/-- An unfinished `try_apply_score`: the list it loaded, by its version, and what it made of it. -/
structure Apply where
  version : Nat
  list : List Nb
  changed : Bool
deriving DecidableEq, Repr

/-- An unfinished `update`. -/
structure Update where
  list : List Nb
  changed : Bool
deriving DecidableEq, Repr

/-- core/src/overlay_client/neighbours.rs:208-213 `struct Inner`, the scores, the calls at work. `version` is
the identity of the stored list, `notified` how often waiters were notified. -/
structure St where
  stats : Nat → Stats
  entries : List Nb
  version : Nat := 0
  index : Index
  notified : Nat := 0
  applies : List Apply := []
  updates : List Update := []

/-- core/src/overlay_client/neighbours.rs:20-32 `Neighbours::new`. -/
def new (stats : Nat → Stats) (entries : List Nb) : St := { stats, entries, index := build stats entries }

/-- core/src/overlay_client/neighbours.rs:72-76,161-169: what is kept. -/
def good (stats : Nat → Stats) (now : Nat) (n : Nb) : Bool := (stats n.id).reliable && decide (now < n.expires)

/-- core/src/overlay_client/neighbours.rs:67-77 the first part of `try_apply_score`. -/
def applyLoad (s : St) (now : Nat) : Apply :=
  let l := s.entries.filter (good s.stats now)
  ⟨s.version, l, decide (l.length ≠ s.entries.length)⟩

/-- core/src/overlay_client/neighbours.rs:79-102 the second part, under the lock. -/
def applyCommit (s : St) (a : Apply) : St :=
  if a.version = s.version then
    { s with entries := a.list, version := s.version + 1, index := build s.stats a.list,
             notified := if a.changed then s.notified + 1 else s.notified }
  else s

/-- The index of the first of the worst. -/
def worst (stats : Nat → Stats) (l : List Nb) : Option Nat :=
  (l.zipIdx.argmin fun e => (stats e.1.id).score).map (·.2)

/-- `swap_remove`. -/
def swapRemove (l : List Nb) (i : Nat) : List Nb :=
  match l.getLast? with
  | some e => (l.set i e).dropLast
  | none => l

/-- core/src/overlay_client/neighbours.rs:182-192 the loop adding new neighbours. -/
def addNew (max : Nat) (isNew : Nb → Bool) : List Nb → List Nb × Bool → List Nb × Bool
  | [], r => r
  | n :: l, r =>
    if max ≤ r.1.length then r
    else if !isNew n then addNew max isNew l r
    else addNew max isNew l (r.1 ++ [n], true)

/-- core/src/overlay_client/neighbours.rs:161-180 what `update` keeps, and whether that is a change: if there
is no room, one of the worst is dropped. -/
def keep (max : Nat) (stats : Nat → Stats) (entries : List Nb) (now : Nat) : List Nb × Bool :=
  let kept := entries.filter (good stats now)
  if max ≤ kept.length then
    match worst stats kept with
    | some i => (swapRemove kept i, true)
    | none => (kept, decide (kept.length ≠ entries.length))
  else (kept, decide (kept.length ≠ entries.length))

/-- core/src/overlay_client/neighbours.rs:148-192 the first part of `update`. -/
def updateLoad (max : Nat) (s : St) (new : List Nb) (now : Nat) : Update :=
  let isNew := fun n : Nb => !decide (n.peer ∈ s.entries.map (·.peer))
  let r := addNew max isNew new (keep max s.stats s.entries now)
  ⟨r.1, r.2⟩

/-- core/src/overlay_client/neighbours.rs:194-205 the second part of `update`, under the lock. -/
def updateCommit (s : St) (u : Update) : St :=
  { s with entries := u.list, version := s.version + 1, index := build s.stats u.list,
           notified := if u.changed then s.notified + 1 else s.notified }

/-- What may happen. -/
inductive Ev where
  | track (id time : Nat) (success : Option Bool)
  | punish (id : Nat) (r : Reason)
  | applyLoad (now : Nat)
  | applyCommit (a : Apply)
  | updateLoad (new : List Nb) (now : Nat)
  | updateCommit (u : Update)
deriving DecidableEq, Repr

/-- One step, with at most `max` neighbours. -/
def step (max : Nat) (s : St) : Ev → Option St
  | .track i t b => some { s with stats := fun j => if j = i then (s.stats i).track t b else s.stats j }
  | .punish i r => some { s with stats := fun j => if j = i then (s.stats i).punish r else s.stats j }
  | .applyLoad now => some { s with applies := applyLoad s now :: s.applies }
  | .applyCommit a => if a ∈ s.applies then some (applyCommit { s with applies := s.applies.erase a } a) else none
  | .updateLoad l now => some { s with updates := updateLoad max s l now :: s.updates }
  | .updateCommit u => if u ∈ s.updates then some (updateCommit { s with updates := s.updates.erase u } u) else none

/-- What is asked of the callers: a round-trip time is truncated to 16 bits; the new neighbours offered are of
different peers (they are drawn from the peers of the overlay). -/
def Ev.WF : Ev → Prop
  | .track _ t _ => t < 65536
  | .updateLoad l _ => (l.map (·.peer)).Nodup
  | _ => True

/-- States reached from a start with at most `max` neighbours of different peers, with the default
round-trip time `d`. -/
inductive Reach (max d : Nat) : St → Prop
  | new (entries : List Nb) : (entries.map (·.peer)).Nodup → entries.length ≤ max →
      Reach max d (new (fun _ => Stats.new d) entries)
  | step {s e t} : Reach max d s → e.WF → step max s e = some t → Reach max d t

end Tycho.Neighbours
