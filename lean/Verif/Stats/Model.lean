/-!
Model of `consensus/src/models/stats.rs`. `filled_rounds` is an unbounded `Nat` (u32 in the code:
it counts rounds, overflow would need 2^32 of them); 16-bit counters saturate as in the code.
-/
namespace Tycho.Stats

/-- consensus/src/models/stats.rs:113-140 `CounterU16` addition: saturating. -/
def satAdd (a b : Nat) : Nat := min (a + b) 65535

/-- consensus/src/models/stats.rs:80-92 `MempoolPeerCounters`. -/
structure Counters where
  lastRound : Nat := 0
  wasLeader : Nat := 0
  skippedRounds : Nat := 0
  validPoints : Nat := 0
  pointsProved : Nat := 0
  equivocated : Nat := 0
  transInvalidPoints : Nat := 0
  invalidPoints : Nat := 0
  illFormedPoints : Nat := 0
  referencesSkipped : Nat := 0
deriving DecidableEq, Repr

/-- consensus/src/models/stats.rs:94-107 `MempoolPeerCounters::merge`. -/
def Counters.merge (a b : Counters) : Counters where
  lastRound := max a.lastRound b.lastRound
  wasLeader := satAdd a.wasLeader b.wasLeader
  skippedRounds := satAdd a.skippedRounds b.skippedRounds
  validPoints := satAdd a.validPoints b.validPoints
  pointsProved := satAdd a.pointsProved b.pointsProved
  equivocated := satAdd a.equivocated b.equivocated
  transInvalidPoints := satAdd a.transInvalidPoints b.transInvalidPoints
  invalidPoints := satAdd a.invalidPoints b.invalidPoints
  illFormedPoints := satAdd a.illFormedPoints b.illFormedPoints
  referencesSkipped := satAdd a.referencesSkipped b.referencesSkipped

/-- consensus/src/models/stats.rs:12-17 `MempoolPeerStats`. -/
structure Stats where
  firstRound : Nat
  filledRounds : Nat
  cumulative : Counters
deriving DecidableEq, Repr

/-- consensus/src/models/stats.rs:20-26 `new`. -/
def Stats.new (round : Nat) : Stats := { firstRound := round, filledRounds := 0, cumulative := {} }

/-- consensus/src/models/stats.rs:28-30 `range().contains`. -/
def Stats.rangeContains (s : Stats) (r : Nat) : Bool :=
  s.firstRound ≤ r && r ≤ s.cumulative.lastRound

/-- consensus/src/models/stats.rs:36-38 `counters`. -/
def Stats.counters (s : Stats) : Option Counters :=
  if s.firstRound ≤ s.cumulative.lastRound then some s.cumulative else none

/-- consensus/src/models/stats.rs:40-54 `add_in_order`; `none` is the error. -/
def Stats.addInOrder (s : Stats) (c : Counters) : Option Stats :=
  if c.lastRound < s.firstRound || s.rangeContains c.lastRound then none
  else some { s with filledRounds := s.filledRounds + 1, cumulative := s.cumulative.merge c }

/-- consensus/src/models/stats.rs:57-59 `add_references_skipped`. -/
def Stats.addReferencesSkipped (s : Stats) (value : Nat) : Stats :=
  { s with cumulative := { s.cumulative with
      referencesSkipped := satAdd s.cumulative.referencesSkipped (if value ≤ 65535 then value else 65535) } }

/-- consensus/src/models/stats.rs:61-77 `merge_with`; `none` is the error. -/
def Stats.mergeWith (s o : Stats) : Option Stats :=
  let overlap := if s.firstRound < o.firstRound then s.rangeContains o.firstRound
    else o.rangeContains s.firstRound
  if overlap then none
  else some {
    firstRound := min s.firstRound o.firstRound
    filledRounds := s.filledRounds + o.filledRounds
    cumulative := s.cumulative.merge o.cumulative }

end Tycho.Stats
