import Verif.Common.Codec
import Mathlib.Data.Nat.Size

/-!
Model of the DHT routing table: `network/src/dht/routing.rs`, `xor_distance` and `random_key_at_distance` of
`network/src/dht/mod.rs`. A peer id is its 32 bytes. `Nat.size` is the number of bits of a number.
Not modelled: the contents of peer infos, handles (a handle's id never changes), the clock (whether the oldest node of a full
bucket is expired is an input).
-/
namespace Tycho.Dht

open Tycho.Bytes Tycho.Codec

/-- dht/mod.rs:771 `MAX_XOR_DISTANCE`. -/
def maxXor : Nat := 256

/-- `left.0.chunks(8)` as big endian `u64`s (dht/mod.rs:759-761). -/
def chunks (a : List Nat) : List Nat :=
  [ofBe (a.take 8), ofBe ((a.drop 8).take 8), ofBe ((a.drop 16).take 8), ofBe ((a.drop 24).take 8)]

/-- `u64::leading_zeros`. -/
def clz64 (x : Nat) : Nat := 64 - Nat.size x

/-- dht/mod.rs:758-769 `xor_distance`, the loop from chunk `i`. -/
def distLoop : Nat → List (Nat × Nat) → Nat
  | _, [] => 0
  | i, (l, r) :: rest => if l ^^^ r ≠ 0 then maxXor - (i * 64 + clz64 (l ^^^ r)) else distLoop (i + 1) rest

/-- dht/mod.rs:758-769 `xor_distance`. -/
def xorDistance (a b : List Nat) : Nat := distLoop 0 ((chunks a).zip (chunks b))

/-- dht/mod.rs:741-756 `random_key_at_distance`: `rnd` are the bytes of the generator. -/
def randomKeyAt (a : List Nat) (distance : Nat) (rnd : List Nat) : List Nat :=
  let dist := maxXor - distance
  let off := dist / 8
  let res := a.take off ++ rnd
  let bit := dist % 8
  if bit ≠ 0 then
    let mask := 0xff >>> bit
    res.set off (res.getD off 0 ^^^ ((res.getD off 0 ^^^ a.getD off 0) &&& (0xff ^^^ mask)))
  else res

/-- routing.rs:14-17 with 133-135: buckets by distance, each a queue of ids, the oldest first; an absent bucket is empty. -/
structure Table where
  localId : List Nat
  buckets : Nat → List (List Nat)

/-- routing.rs:20-25. -/
def Table.new (id : List Nat) : Table := ⟨id, fun _ => []⟩

/-- routing.rs:39-44 `contains`. -/
def Table.contains (t : Table) (id : List Nat) : Bool := (t.buckets (xorDistance t.localId id)).any fun x => decide (x = id)

/-- routing.rs:168-207 `Bucket::insert`: the new nodes and the answer. `accept`: the callback gives data; `expired`: the oldest
node is expired. -/
def bucketInsert (nodes : List (List Nat)) (id : List Nat) (maxK : Nat) (expired accept : Bool) : List (List Nat) × Bool :=
  if id ∈ nodes then
    if accept then (nodes.erase id ++ [id], true) else (nodes, false)
  else if maxK ≤ nodes.length then
    if nodes ≠ [] ∧ expired = true ∧ accept = true then (nodes.drop 1 ++ [id], true) else (nodes, false)
  else if accept then (nodes ++ [id], true) else (nodes, false)

/-- routing.rs:46-59 `add`. -/
def Table.add (t : Table) (id : List Nat) (maxK : Nat) (expired accept : Bool) : Table × Bool :=
  if xorDistance t.localId id = 0 then (t, false)
  else
    let d := xorDistance t.localId id
    let r := bucketInsert (t.buckets d) id maxK expired accept
    (⟨t.localId, fun i => if i = d then r.1 else t.buckets i⟩, r.2)

/-- routing.rs:144-149 `retain_nodes` on every bucket (background_tasks.rs:171-174). -/
def Table.retain (t : Table) (keep : List Nat → Bool) : Table := ⟨t.localId, fun i => (t.buckets i).filter keep⟩

/-- routing.rs:71, 99: `(distance..=MAX_XOR_DISTANCE).chain((0..distance).rev())`. -/
def visitOrder (d : Nat) : List Nat := List.range' d (maxXor + 1 - d) ++ (List.range d).reverse

/-- routing.rs:70-82: the loop over buckets. -/
def collect (t : Table) (count : Nat) : List Nat → List (List Nat) → List (List Nat)
  | [], res => res
  | i :: is, res => if count - res.length = 0 then res else collect t count is (res ++ (t.buckets i).take (count - res.length))

/-- routing.rs:61-86 `closest`; `visit_closest` (88-113) visits the same nodes in the same order. -/
def Table.closest (t : Table) (key : List Nat) (count : Nat) : List (List Nat) :=
  if count = 0 then [] else collect t count (visitOrder (xorDistance t.localId key)) []

inductive Op
  | add (id : List Nat) (expired accept : Bool)
  | retain (keep : List Nat → Bool)

def step (maxK : Nat) (t : Table) : Op → Table
  | .add id e a => (t.add id maxK e a).1
  | .retain keep => t.retain keep

def run (maxK : Nat) (t : Table) (ops : List Op) : Table := ops.foldl (step maxK) t

end Tycho.Dht
