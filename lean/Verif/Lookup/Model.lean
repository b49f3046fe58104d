import Verif.Dht.Props

/-! Model of the lookups of the DHT client: `Query` of `network/src/dht/query.rs`, on the routing table of
`Verif.Dht`.

A lookup is a state machine whose events are the responses of the peers asked, in any order; a peer asked is `pending`
till then (the limit of ten requests at a time is left out). Whether a peer info is valid (`process_only_valid`) and
whether its peer may be used (`retain_candidate`: not banned) is part of the response. `answered` is history. -/
namespace Tycho.Lookup

open Tycho.Dht

abbrev Id := List Nat

/-- A peer info in a response. -/
structure Info where
  id : Id
  createdAt : Nat
  valid : Bool
  accept : Bool
deriving DecidableEq, Repr

/-- network/src/dht/query.rs:107-112 `Query`, and what both lookups keep: whom they have asked. -/
structure Look where
  table : Table
  scheduled : List Id := []
  pending : List Id := []
  answered : List Id := []

/-- network/src/dht/query.rs:119-148 `Query::new`: the candidates are a table around the target; `init` are the peers of the
routing table nearest to the target, or to a random key. -/
def candidates (localId target : Id) (maxK : Nat) (init : List Id) : Table :=
  init.foldl (fun t p => if p = localId then t else (t.add p maxK false true).1) (Table.new target)

/-- network/src/dht/query.rs:185-190,239-245,286-293,352-361: ask the nearest that were not asked yet. -/
def schedule (ok : Id → Bool) (maxK : Nat) (l : Look) : Look :=
  (l.table.closest l.table.localId maxK).foldl (fun l p =>
    if ok p = true ∧ p ∉ l.scheduled then
      { l with scheduled := l.scheduled ++ [p], pending := l.pending ++ [p] }
    else l) l

/-- network/src/dht/query.rs:194,298: the response of a peer comes in. -/
def Look.answer (l : Look) (p : Id) : Look := { l with pending := l.pending.erase p, answered := l.answered ++ [p] }

/-! ## find_value -/

/-- network/src/dht/query.rs:159-267 `find_value`. -/
structure FV where
  look : Look
  found : Option Nat := none

/-- A response: a value, whose signature and key are right or not; nodes; an error or none in time. -/
inductive VResp where
  | found (v : Nat) (valid : Bool)
  | notFound (nodes : List Info)
  | failed
deriving DecidableEq, Repr

/-- network/src/dht/query.rs:159-190 the first part. -/
def FV.start (localId target : Id) (maxK : Nat) (init : List Id) : FV :=
  { look := schedule (fun _ => true) maxK { table := candidates localId target maxK init } }

/-- network/src/dht/query.rs:216-229: a node of a response. -/
def addNode (localId : Id) (maxK : Nat) (t : Table) (n : Info) : Table :=
  if n.valid = true ∧ n.id ≠ localId then (t.add n.id maxK false n.accept).1 else t

/-- network/src/dht/query.rs:194-262 the loop. -/
def FV.step (localId : Id) (maxK : Nat) (s : FV) (p : Id) (r : VResp) : Option FV :=
  if s.found = none ∧ p ∈ s.look.pending then
    let l := s.look.answer p
    match r with
    | .found v valid => some { s with look := l, found := if valid then some v else none }
    | .notFound nodes =>
      let l := { l with table := nodes.foldl (addNode localId maxK) l.table }
      some { s with look := schedule (fun _ => true) maxK l }
    | .failed => some { s with look := l }
  else none

/-- network/src/dht/query.rs:208,264-266: what it returns. -/
def FV.result (s : FV) : Option (Option Nat) :=
  match s.found with
  | some v => some (some v)
  | none => if s.look.pending = [] then some none else none

/-- The runs of a lookup, with their responses, the newest first. -/
inductive FV.Reach (localId target : Id) (maxK : Nat) (init : List Id) : FV → List (Id × VResp) → Prop
  | start : (∀ p ∈ init, IsId p) → FV.Reach localId target maxK init (FV.start localId target maxK init) []
  | step {s t h p r} : FV.Reach localId target maxK init s h → (∀ nodes, r = .notFound nodes → ∀ n ∈ nodes, IsId n.id) →
      FV.step localId maxK s p r = some t → FV.Reach localId target maxK init t ((p, r) :: h)

/-! ## find_peers -/

/-- network/src/dht/query.rs:269-375 `find_peers`; `none` of the depth of a peer is an absent entry. -/
structure FP where
  look : Look
  depths : Id → Option Nat := fun _ => none
  result : Id → Option Info := fun _ => none

/-- network/src/dht/query.rs:285-293 -/
def FP.start (localId target : Id) (maxK : Nat) (init : List Id) : FP :=
  let l := schedule (fun _ => true) maxK { table := candidates localId target maxK init }
  { look := l, depths := fun p => if p ∈ l.scheduled then some 0 else none }

/-- network/src/dht/query.rs:314-346: a node of a response of a peer at `depth`. -/
def FP.addNode (localId : Id) (maxK : Nat) (depth : Nat) (s : FP) (n : Info) : FP :=
  if n.valid = true ∧ n.id ≠ localId then
    { look := { s.look with table := (s.look.table.add n.id maxK false n.accept).1 }
      depths := fun q => if q = n.id then some ((s.depths q).elim (depth + 1) fun d => min d (depth + 1)) else s.depths q
      result := fun q => if q = n.id then
          some ((s.result q).elim n fun o => if o.createdAt < n.createdAt then n else o)
        else s.result q }
  else s

/-- network/src/dht/query.rs:352-361: who may be asked. -/
def mayAsk (maxDepth : Option Nat) (depths : Id → Option Nat) (q : Id) : Bool :=
  (depths q).elim false fun d => maxDepth.elim true fun m => decide (d ≤ m)

/-- network/src/dht/query.rs:298-371 the loop; the index into the depths must not fail. -/
def FP.step (localId : Id) (maxK : Nat) (maxDepth : Option Nat) (s : FP) (p : Id) (r : Option (List Info)) : Option FP :=
  if p ∈ s.look.pending then
    (s.depths p).bind fun depth =>
      let s := { s with look := s.look.answer p }
      match r with
      | some nodes =>
        let s := nodes.foldl (FP.addNode localId maxK depth) s
        some { s with look := schedule (mayAsk maxDepth s.depths) maxK s.look }
      | none => some s
  else none

/-- The runs of a lookup, with their responses, the newest first. -/
inductive FP.Reach (localId target : Id) (maxK : Nat) (maxDepth : Option Nat) (init : List Id) :
    FP → List (Id × Option (List Info)) → Prop
  | start : (∀ p ∈ init, IsId p) → FP.Reach localId target maxK maxDepth init (FP.start localId target maxK init) []
  | step {s t h p r} : FP.Reach localId target maxK maxDepth init s h → (∀ nodes, r = some nodes → ∀ n ∈ nodes, IsId n.id) →
      FP.step localId maxK maxDepth s p r = some t → FP.Reach localId target maxK maxDepth init t ((p, r) :: h)

end Tycho.Lookup
