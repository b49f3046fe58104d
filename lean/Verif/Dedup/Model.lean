/-!
Model of `collator/src/mempool/impls/common/deduplicator.rs`. `round_to_hashes` (an insertion-ordered
`IndexMap`) is a list of pairs in insertion order; `binary_search_keys` on ascending keys is the number
of keys below the bound (that the keys are ascending is proved). `none` results are panics. Capacity
management is not modelled.
-/
namespace Tycho.Dedup

variable {H : Type} [DecidableEq H]

/-- deduplicator.rs:9-18 `struct Deduplicator`. -/
structure Dedup (H : Type) where
  hashMaxRound : H → Option Nat
  roundToHashes : List (Nat × List H)
  roundThreshold : Nat

/-- deduplicator.rs:21-27 `new`. -/
def new (threshold : Nat) : Dedup H :=
  { hashMaxRound := fun _ => none, roundToHashes := [], roundThreshold := threshold }

/-- deduplicator.rs:30-35 `round_to_hashes.entry(round).or_default().insert(hash)`: the new map and
whether the hash was new in that set. -/
def insertAt (round : Nat) (hash : H) : List (Nat × List H) → List (Nat × List H) × Bool
  | [] => ([(round, [hash])], true)
  | (k, hs) :: rest =>
    if k = round then
      if hash ∈ hs then ((k, hs) :: rest, false) else ((k, hash :: hs) :: rest, true)
    else
      let (rest', b) := insertAt round hash rest
      ((k, hs) :: rest', b)

/-- deduplicator.rs:46-59 `if let Some(hashes) = get_mut(&old_round) { remove; assert existed }`;
`none` is the failed assertion. -/
def removeAt (round : Nat) (hash : H) : List (Nat × List H) → Option (List (Nat × List H))
  | [] => some []
  | (k, hs) :: rest =>
    if k = round then
      if hash ∈ hs then some ((k, hs.filter (· ≠ hash)) :: rest) else none
    else (removeAt round hash rest).map (fun r => (k, hs) :: r)

/-- deduplicator.rs:63, 77: the least round still inside the window. -/
def bottomRound (anchorRound threshold : Nat) : Nat := anchorRound - threshold + 1

/-- deduplicator.rs:29-73 `check_unique`; `none` is a failed assertion. -/
def checkUnique (d : Dedup H) (anchorRound : Nat) (hash : H) : Option (Dedup H × Bool) :=
  let (rounds, isNew) := insertAt anchorRound hash d.roundToHashes
  if isNew then
    let old := d.hashMaxRound hash
    let maxRound := fun h => if h = hash then some anchorRound else d.hashMaxRound h
    match old with
    | some oldRound =>
      if oldRound < anchorRound then
        match removeAt oldRound hash rounds with
        | some rounds' =>
          some ({ d with hashMaxRound := maxRound, roundToHashes := rounds' },
            decide (oldRound < bottomRound anchorRound d.roundThreshold))
        | none => none
      else none
    | none => some ({ d with hashMaxRound := maxRound, roundToHashes := rounds }, true)
  else some ({ d with roundToHashes := rounds }, false)

/-- deduplicator.rs:86-99: one drained hash; `none` is the panic on a vacant entry. -/
def dropHash (bottom : Nat) (m : H → Option Nat) (hash : H) : Option (H → Option Nat) :=
  match m hash with
  | some r => some (if r < bottom then (fun h => if h = hash then none else m h) else m)
  | none => none

/-- deduplicator.rs:75-108 `clean`. -/
def clean (d : Dedup H) (anchorRound : Nat) : Option (Dedup H) :=
  let bottom := bottomRound anchorRound d.roundThreshold
  let bottomIndex := d.roundToHashes.countP (fun e => e.1 < bottom)
  let drained := d.roundToHashes.take bottomIndex
  let kept := d.roundToHashes.drop bottomIndex
  match (drained.flatMap (fun e => e.2)).foldlM (dropHash bottom) d.hashMaxRound with
  | some m => some { d with hashMaxRound := m, roundToHashes := kept }
  | none => none

end Tycho.Dedup
