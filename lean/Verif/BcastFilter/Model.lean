import Verif.Common.Table
/-!
Model of `consensus/src/intercom/broadcast/broadcast_filter.rs`: points broadcast by peers are kept per round and author
until the DAG reaches their round, with any number of receiving calls, one flush at a time and clean-ups, all at once.

Rounds, authors and digests are numbers. The map of authors of a round is allocated anew with every entry of the round and
shared with a flush, so it has a number of its own. What happens under the lock of a round is one step; deliveries to the
DAG that a call makes after it released the lock are steps of their own (`pending`), and so are the steps of a flush.
The DAG is the list of deliveries in order. Simplifications: `retain` of a flush or a clean-up is one step; the outcome of
the verification is an input; metrics and logs are not represented; the author counter does not overflow 16 bits.
-/
namespace Tycho.BcastFilter
open Tycho.Table (Table get put del)

/-- `CachedItem` with its author, lines 46-73: `well` of `Ok` and `OkPruned`, `full` of `Ok` and `IllFormed`. -/
structure Pt where
  author : Nat
  digest : Nat
  well : Bool
  full : Bool
deriving DecidableEq, Repr

/-- `Cached`, lines 40-44. -/
structure Cached where
  item : Pt
  dups : Nat
deriving DecidableEq, Repr

/-- `ByAuthor`, lines 34-38. -/
structure ByAuthor where
  first : Cached
  fork : Option Cached
deriving DecidableEq, Repr

/-- `ByRoundItem`, lines 24-33: `map` is the number of the shared map, `flagged` a defined `flush_dag_round`, `minority`
the reliable minority of the peers of the round, `count` is `by_author_len`. -/
structure Item where
  map : Nat
  flagged : Bool
  minority : Nat
  count : Nat
deriving DecidableEq, Repr

/-- What is used of `DagHead`: `last_back_bottom`, the round of `next`, and the lowest round that the DAG still has, so that
`scan` of a round up to `next` finds it or not. -/
structure Head where
  bottom : Nat
  next : Nat
  low : Nat
deriving DecidableEq, Repr

/-- `DagRound::scan` from `head.next()`, dag_round.rs:414-453: the linked list of rounds has no gaps. -/
def Head.has (h : Head) (r : Nat) : Bool := decide (h.low ≤ r ∧ r ≤ h.next)

/-- A flush at work: rounds to do in historical order with their maps, and the round being done with the authors that its
iteration has yet to meet. -/
structure Flush where
  todo : List (Nat × Nat)
  cur : Option (Nat × Nat × List Nat)
deriving DecidableEq, Repr

/-- All of it; `dag` and `pending` are deliveries done and owed, a round with an item. -/
structure St where
  rounds : Table Nat Item
  maps : Nat → Table Nat ByAuthor
  fresh : Nat
  dag : List (Nat × Pt)
  pending : List (Nat × Pt)
  flush : Option Flush

/-- The start. -/
def St.init : St := ⟨[], fun _ => [], 0, [], [], none⟩

/-- `add_to_dag`, lines 74-97: whether the item goes to the DAG. -/
def Pt.goes (p : Pt) : Bool := p.well || p.full

/-- `CacheInfo`, lines 99-104. -/
structure Info where
  reached : Bool
  duplicates : Option Nat
  equivocation : Option Nat
deriving DecidableEq, Repr

/-- `CacheInfo::default`. -/
def Info.default : Info := ⟨false, none, none⟩

/-- `saturating_add(1)` of `u16`. -/
def inc16 (n : Nat) : Nat := min 65535 (n + 1)

/-- Report of duplicates, lines 302-304, 311-313. -/
def dupInfo (n : Nat) : Option Nat := if n > 3 then some n else none

/-- The entry of an author, lines 293-338: the new entry, whether `set_reached_threshold` was called, and the report. -/
def entry (old : Option ByAuthor) (p : Pt) : ByAuthor × Bool × Option Nat × Option Nat := match old with
  | none => (⟨⟨p, 0⟩, none⟩, true, none, none)
  | some e =>
    if e.first.item.digest = p.digest then
      let n := inc16 e.first.dups
      (⟨⟨e.first.item, n⟩, e.fork⟩, false, dupInfo n, none)
    else match e.fork with
      | some f =>
        if f.item.digest = p.digest then
          let n := inc16 f.dups
          (⟨e.first, some ⟨f.item, n⟩⟩, false, dupInfo n, some e.first.item.digest)
        else (e, false, none, some e.first.item.digest)
      | none => (⟨e.first, some ⟨p, 0⟩⟩, !e.first.item.well, none, some e.first.item.digest)

/-- `set_reached_threshold` for a counted author, lines 276-287; `n` is the count after it. -/
def reached (h : Head) (round minority n : Nat) (evidence : Bool) : Bool :=
  decide (round > h.next) && (if n < minority then evidence else decide (n = minority))

/-- The item of the round to insert in, lines 233-258: `inl` for a round that is not there and not in the future, which is
left to the DAG. -/
def St.lookup (s : St) (h : Head) (round minority : Nat) : Option (Item × Nat) :=
  match get s.rounds round with
  | some i => some (i, s.fresh)
  | none => if round ≤ h.next then none else some (⟨s.fresh, false, minority, 0⟩, s.fresh + 1)

/-- The delivery of a call, lines 339-352, 238-241. -/
def owed (goes : Bool) (round : Nat) (p : Pt) : List (Nat × Pt) := if goes && p.goes then [(round, p)] else []

/-- `cache`, lines 219-355, up to the release of the lock of the round. -/
def St.cache (s : St) (h : Head) (round : Nat) (p : Pt) (evidence : Bool) (minority : Nat) : St × Info :=
  if round < h.bottom then (s, .default)
  else match s.lookup h round minority with
    | none => ({ s with pending := s.pending ++ owed (h.has round) round p }, .default)
    | some (i, fresh) =>
      let (e, called, dups, eq) := entry (get (s.maps i.map) p.author) p
      let counted := called && p.well
      let n := if counted then i.count + 1 else i.count
      ({ s with
          rounds := put s.rounds round { i with count := n },
          maps := fun m => if m = i.map then put (s.maps m) p.author e else s.maps m,
          fresh := fresh,
          pending := s.pending ++ owed (i.flagged || (decide (round ≤ h.next) && h.has round)) round p },
        ⟨counted && reached h round i.minority n evidence, dups, eq⟩)

/-- The outcome of `BasicVerifier` merged with the issue of evidence signatures, lines 147-168. -/
inductive Verdict where
  | ok
  | illFormed
  | unknownAuthor
  | fail
deriving DecidableEq, Repr

/-- `add_check_threshold`, lines 122-217. `minority` is that of the peers of the round, `none` if there are not enough;
`keep` is `cache_future_broadcasts_rounds`. -/
def St.add (keep : Nat) (s : St) (h : Head) (round author digest : Nat) (v : Verdict) (evidence : Bool)
    (minority : Option Nat) : St × Info :=
  match minority with
  | none => (s, .default)
  | some m =>
    let full := !decide (round > h.next + keep)
    match v with
    | .ok => s.cache h round ⟨author, digest, true, full⟩ evidence m
    | .illFormed => s.cache h round ⟨author, digest, false, full⟩ evidence m
    | .unknownAuthor => (s, .default)
    | .fail => (s, .default)

/-- A delivery that a call owes is done. -/
def St.deliver (s : St) (k : Nat) : St := match s.pending[k]? with
  | some d => { s with dag := s.dag ++ [d], pending := s.pending.eraseIdx k }
  | none => s

/-- `clean`, lines 357-379; `total` is `max_total_rounds`. -/
def St.clean (keep total : Nat) (s : St) (round : Nat) (h : Head) : St :=
  { s with rounds := del s.rounds (fun r => decide (r < max h.bottom (round - total) ∨ r > round + keep)) }

/-- The rounds that `retain` of a flush drops, lines 416-419. -/
def outdated (h : Head) (r : Nat) (i : Item) : Bool := decide (r < h.bottom) || i.flagged

/-- Insertion by round. -/
def insertRound (x : Nat × Nat) : List (Nat × Nat) → List (Nat × Nat)
  | [] => [x]
  | y :: l => if x.1 ≤ y.1 then x :: y :: l else y :: insertRound x l

/-- The rounds to flush in historical order, those that the DAG has, lines 420-423, 434-444. -/
def toFlush (h : Head) (rounds : Table Nat Item) : List (Nat × Nat) :=
  ((rounds.filter (fun e => decide (e.1 ≤ h.next) && h.has e.1)).map (fun e => (e.1, e.2.map))).foldr insertRound []

/-- The start of `flush_to_dag`, lines 399-444. The rest waits for steps. -/
def St.flushStart (s : St) (h : Head) : St := match s.flush with
  | some _ => s
  | none =>
    let kept := s.rounds.filter (fun e => !outdated h e.1 e.2)
    { s with rounds := kept, flush := some ⟨toFlush h kept, none⟩ }

/-- The next round of a flush is opened for direct delivery, lines 447-456; `true` if there was a panic. -/
def St.flushSet (s : St) : St × Bool := match s.flush with
  | some ⟨(r, m) :: todo, none⟩ =>
    let s2 := { s with flush := some ⟨todo, some (r, m, (s.maps m).map (·.1))⟩ }
    match get s.rounds r with
    | some i => ({ s2 with rounds := put s.rounds r { i with flagged := true } }, i.flagged)
    | none => (s2, false)
  | _ => (s, false)

/-- The deliveries for an author, lines 458-466. -/
def ByAuthor.items (e : ByAuthor) : List Pt :=
  (e.first.item :: (match e.fork with | some f => [f.item] | none => [])).filter Pt.goes

/-- The iteration meets an author, lines 458-466. An author that came after its start may be met or not. -/
def St.flushVisit (s : St) (a : Nat) : St := match s.flush with
  | some ⟨todo, some (r, m, need)⟩ =>
    match get (s.maps m) a with
    | some e => { s with dag := s.dag ++ e.items.map (fun p => (r, p)),
                         flush := some ⟨todo, some (r, m, need.filter (fun b => !decide (b = a)))⟩ }
    | none => s
  | _ => s

/-- The iteration ends when it met every author that was there at its start. -/
def St.flushNext (s : St) : St := match s.flush with
  | some ⟨todo, some (_, _, [])⟩ => { s with flush := some ⟨todo, none⟩ }
  | _ => s

/-- The end of `flush_to_dag`. -/
def St.flushEnd (s : St) : St := match s.flush with
  | some ⟨[], none⟩ => { s with flush := none }
  | _ => s

/-- `has_point`, lines 116-124. -/
def St.hasPoint (s : St) (round author : Nat) : Bool := match get s.rounds round with
  | none => false
  | some i => (get (s.maps i.map) author).isSome

/-- One step of everything. -/
inductive Op where
  | add (h : Head) (round author digest : Nat) (v : Verdict) (evidence : Bool) (minority : Option Nat)
  | deliver (k : Nat)
  | clean (round : Nat) (h : Head)
  | flushStart (h : Head)
  | flushSet
  | flushVisit (a : Nat)
  | flushNext
  | flushEnd
deriving DecidableEq, Repr

/-- The configuration: `cache_future_broadcasts_rounds` and `max_total_rounds`. -/
structure Conf where
  keep : Nat
  total : Nat
deriving DecidableEq, Repr

/-- The effect of a step. -/
def step (c : Conf) (s : St) : Op → St
  | .add h round author digest v evidence minority => (s.add c.keep h round author digest v evidence minority).1
  | .deliver k => s.deliver k
  | .clean round h => s.clean c.keep c.total round h
  | .flushStart h => s.flushStart h
  | .flushSet => s.flushSet.1
  | .flushVisit a => s.flushVisit a
  | .flushNext => s.flushNext
  | .flushEnd => s.flushEnd

/-- A history. -/
def run (c : Conf) (ops : List Op) : St := ops.foldl (step c) St.init

end Tycho.BcastFilter
