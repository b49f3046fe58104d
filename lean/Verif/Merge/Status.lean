import Verif.Common.Codec
import Verif.Merge.Spec
import Mathlib.Data.List.Lex
import Mathlib.Order.Lattice

/-!
# Stored point statuses (`consensus/src/models/point_status`)

Byte strings as stored. TL constructor ids are parameters (`Ids`).
-/
namespace Tycho.Merge
open Tycho.Bytes Tycho.Codec

/-- The TL constructor ids in use. -/
structure Ids where
  link : Nat
  pointId : Nat
  peerId : Nat
  includes : Nat
  witness : Nat

structure Ids.Ok (i : Ids) : Prop where
  link : i.link < 2 ^ 32
  pointId : i.pointId < 2 ^ 32
  peerId : i.peerId < 2 ^ 32
  includes : i.includes < 2 ^ 32
  witness : i.witness < 2 ^ 32
  differ : i.includes ≠ i.witness

/-- `IndirectLink`, `PointId`, `Through` (models/point/link.rs:37-58, info.rs:54-60). -/
structure Link where
  round : Nat
  digest : List Nat
  author : List Nat
  throughWitness : Bool
  peer : List Nat
  deriving DecidableEq, Repr

/-- `IndirectLink::fill` (link.rs:61-93). -/
def Link.enc (i : Ids) (l : Link) : List Nat :=
  leBytes 4 i.link ++ leBytes 4 i.pointId ++ leBytes 4 l.round ++ l.digest ++ leBytes 4 i.peerId ++ l.author ++
    leBytes 4 (if l.throughWitness then i.witness else i.includes) ++ leBytes 4 i.peerId ++ l.peer

/-- A TL constructor id. -/
def rdId (id : Nat) : Rd Unit := do
  let x ← rdLe 4
  if x = id then return () else Rd.fail

/-- `Through` (link.rs:50-55). -/
def rdThrough (i : Ids) : Rd Bool := do
  let x ← rdLe 4
  if x = i.includes then return false else if x = i.witness then return true else Rd.fail

/-- `IndirectLink::read_from` (derived, link.rs:37-42). -/
def rdLink (i : Ids) : Rd Link := do
  rdId i.link
  rdId i.pointId
  let round ← rdLe 4
  let digest ← rdBytes 32
  rdId i.peerId
  let author ← rdBytes 32
  let throughWitness ← rdThrough i
  rdId i.peerId
  let peer ← rdBytes 32
  return ⟨round, digest, author, throughWitness, peer⟩

/-- `IndirectLink::MAX_TL_BYTES`. -/
def linkBytes : Nat := 120

/-- The stored statuses (all_stored.rs:8-17) with the fields that are stored. `CommitHistoryPart` is (anchor round, seq no). -/
inductive Status
  | valid (firstValid hasProof : Bool) (anchor : Nat) (committed : Option (Nat × Nat))
  | transInvalid (hasProof hasDagRound : Bool) (anchor : Nat) (committed : Option (Nat × Nat)) (cause : Link)
  | committable (hasProof : Bool) (anchor : Nat) (committed : Option (Nat × Nat))
  | invalid (hasProof hasDagRound : Bool)
  | illFormed (hasProof reasonFinal : Bool)
  | found (hasProof : Bool)
  | notFound (hasProof : Bool) (author : List Nat)
  | proven (hasProof : Bool)
  deriving DecidableEq, Repr

/-- The first byte: `TYPE` (mod.rs:23-34, 102-104). -/
def Status.kind : Status → Nat
  | .valid .. => 0x80
  | .transInvalid .. => 0x40
  | .committable .. => 0x20
  | .invalid .. => 0x08
  | .illFormed .. => 0x04
  | .found .. => 0x02
  | .notFound .. => 0x01
  | .proven .. => 0x00

def bit (b : Bool) (n : Nat) : Nat := if b then 2 ^ n else 0

/-- The second byte (`status_flags` of each type; mod.rs:36-41). -/
def Status.second : Status → Nat
  | .valid fv hp _ _ => bit fv 7 ||| bit hp 5
  | .transInvalid hp dr _ _ _ => bit hp 5 ||| bit dr 2
  | .committable hp _ _ => bit hp 5
  | .invalid hp dr => bit hp 5 ||| bit dr 2
  | .illFormed hp rf => bit hp 5 ||| bit rf 4
  | .found hp => bit hp 5
  | .notFound hp _ => bit hp 5
  | .proven hp => bit hp 5

/-- `CommitHistoryPart::write` (committable.rs:76-82): not committed is round zero. -/
def encCommitted (c : Option (Nat × Nat)) : List Nat := beBytes 4 (c.getD (0, 0)).1 ++ beBytes 4 (c.getD (0, 0)).2

/-- `CommitHistoryPart::read` (committable.rs:96-113). -/
def rdCommitted (b : List Nat) : Option (Nat × Nat) :=
  if ofBe (b.take 4) = 0 then none else some (ofBe (b.take 4), ofBe (b.drop 4))

/-- `write_to` / `fill` of each type (committable.rs:46-67, valid.rs:69-90, trans_invalid.rs:73-97, not_found.rs:56-75, mod.rs:110-125). -/
def Status.enc (i : Ids) (s : Status) : List Nat :=
  [s.kind, s.second] ++ match s with
  | .valid _ _ a c => [a] ++ encCommitted c
  | .transInvalid _ _ a c l => [a] ++ encCommitted c ++ l.enc i
  | .committable _ a c => [a] ++ encCommitted c
  | .notFound _ author => leBytes 4 i.peerId ++ author
  | _ => []

/-- The `BYTE_SIZE` of a type (all_stored.rs:64-74); `none`: unknown type. -/
def sizeOf (kind : Nat) : Option Nat :=
  if kind = 0x80 then some 11
  else if kind = 0x40 then some (11 + linkBytes)
  else if kind = 0x20 then some 11
  else if kind = 0x08 then some 2
  else if kind = 0x04 then some 2
  else if kind = 0x02 then some 2
  else if kind = 0x01 then some 38
  else if kind = 0x00 then some 2
  else none

/-- `read_flags` succeeds (all_stored.rs:55-79). -/
def readable (a : List Nat) : Bool := decide (2 ≤ a.length) && decide (sizeOf (a.getD 0 0) = some a.length)

/-- `flags.intersects(AllCommittable)` (mod.rs:51-54). -/
def isCommittable (a : List Nat) : Bool := decide (a.getD 0 0 &&& 0xE0 ≠ 0)

/-- `CommitHistoryPart::RANGE`. -/
def commitPart (a : List Nat) : List Nat := (a.drop 3).take 8

def hasBit (a : List Nat) (n : Nat) : Bool := (a.getD 1 0).testBit n

/-- `decode` (all_stored.rs:81-96 and the `read` of each type). -/
def decodeStatus (i : Ids) (a : List Nat) : Option Status :=
  if readable a then
    if a.getD 0 0 = 0x80 then some (.valid (hasBit a 7) (hasBit a 5) (a.getD 2 0) (rdCommitted (commitPart a)))
    else if a.getD 0 0 = 0x40 then
      (rdLink i (a.drop 11)).map (fun l =>
        .transInvalid (hasBit a 5) (hasBit a 2) (a.getD 2 0) (rdCommitted (commitPart a)) l.1)
    else if a.getD 0 0 = 0x20 then some (.committable (hasBit a 5) (a.getD 2 0) (rdCommitted (commitPart a)))
    else if a.getD 0 0 = 0x08 then some (.invalid (hasBit a 5) (hasBit a 2))
    else if a.getD 0 0 = 0x04 then some (.illFormed (hasBit a 5) (hasBit a 4))
    else if a.getD 0 0 = 0x02 then some (.found (hasBit a 5))
    else if a.getD 0 0 = 0x01 then
      ((do rdId i.peerId; rdBytes 32 : Rd (List Nat)) (a.drop 2)).map (fun x => .notFound (hasBit a 5) x.1)
    else some (.proven (hasBit a 5))
  else none

/-! ### The merge -/

/-- `second_flags` (all_stored.rs:116). -/
def orSecond (l : List (List Nat)) : Nat := l.foldl (fun s a => s ||| a.getD 1 0) 0

/-- `anchor_flags` (all_stored.rs:119). -/
def orAnchor (l : List (List Nat)) : Nat :=
  l.foldl (fun s a => if isCommittable a then s ||| a.getD 2 0 else s) 0

/-- `commit_part` (all_stored.rs:120-122). -/
def maxCommit (l : List (List Nat)) : List Nat :=
  l.foldl (fun c a => if isCommittable a then (if c < commitPart a then commitPart a else c) else c) (List.replicate 8 0)

/-- `.max()` over the bytes (all_stored.rs:127; the flags are part of the bytes). -/
def maxBytes : List (List Nat) → Option (List Nat)
  | [] => none
  | a :: l => some (l.foldl (fun m x => if x < m then m else x) a)

/-- The result (all_stored.rs:130-136) from the greatest value. -/
def mergeResult (m : List Nat) (second anchor : Nat) (commit : List Nat) : List Nat :=
  [m.getD 0 0, m.getD 1 0 ||| second] ++
    (if isCommittable m then [m.getD 2 0 ||| anchor] ++ commit ++ m.drop 11 else m.drop 2)

/-- `merge_bytes` (all_stored.rs:99-138), of the stored value and the operands. Values that cannot be read are ignored. -/
def mergeStatus (ops : List (List Nat)) : Option (List Nat) :=
  let good := ops.filter readable
  (maxBytes good).map (fun m => mergeResult m (orSecond good) (orAnchor good) (maxCommit good))

end Tycho.Merge
