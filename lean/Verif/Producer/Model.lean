import Verif.Verifier.Model

/-!
Model of `consensus/src/dag/producer.rs`: how a node makes its own point.

Simplifications: those of `Verifier.Model`; maps of points (`FastHashMap<PeerId, PointInfo>`) are lists of points in the
order of iteration, the key being the author; the digest of the new point and its payload are arguments; the clock is read
once (`now`); `debug_assert` is left out (release build).
-/
namespace Tycho.Producer

open Tycho.PeerCount Tycho.Verifier

/-- producer.rs:13-20 `LastOwnPoint`. -/
structure LastOwn where
  digest : Nat
  evidence : PMap
  includes : PMap
  sticky : Option Nat
  round : Nat
  signers : PeerCount
deriving DecidableEq

/-- producer.rs:22-41 `ProduceError`, those of `create`. -/
inductive Err where
  | notEnoughEvidence
  | prevPointMismatch
deriving DecidableEq, Repr

/-- Outcome of `create`: a point, an error, or a panic. -/
inductive Res where
  | ok (p : Info)
  | err (e : Err)
  | panic
deriving DecidableEq, Repr

/-- producer.rs:355-359 `LinkSource`. -/
structure Source where
  info : Info
  path : Through
deriving DecidableEq

/-- `Iterator::max_by_key`: the last of the maximal elements. -/
def maxBy (f : Info → Nat) : List Info → Option Info
  | [] => none
  | x :: xs => match maxBy f xs with
    | none => some x
    | some y => if f x ≤ f y then some y else some x

/-- producer.rs:361-389 `link_source`; `none` is the panic on no includes. -/
def linkSource (includes witness : List Info) (s : Stage) : Option Source := do
  let inc ← maxBy (fun q => q.anchorRound s) includes
  match (maxBy (fun q => q.anchorRound s) witness).filter (fun w => w.anchorRound s > inc.anchorRound s) with
  | some w => return ⟨w, .witness w.author⟩
  | none => return ⟨inc, .includes inc.author⟩

/-- producer.rs:391-409 `link`; `none` is the panic of `anchor_id`. -/
def link (r : Nat) (src : Source) (s : Stage) : Option ALink :=
  let direct := match src.path with
    | .includes _ => r - 1
    | .witness _ => r - 1 - 1
  if src.info.round = direct ∧ src.info.anchorLink s = .toSelf then some (.direct src.path)
  else (src.info.anchorId s).map (fun to => .indirect ⟨to, src.path⟩)

/-- producer.rs:332-353 `anchor_links`: links to the proof and to the trigger. -/
def anchorLinks (r : Nat) (includes witness : List Info) : Option (ALink × ALink) := do
  let triggerSource ← linkSource includes witness .trigger
  let maxProofSource ← linkSource includes witness .proof
  let proofSource :=
    if triggerSource.info.anchorRound .trigger > maxProofSource.info.anchorRound .proof then triggerSource
    else maxProofSource
  let proof ← link r proofSource .proof
  let trigger ← link r triggerSource .trigger
  return (proof, trigger)

/-- producer.rs:106-117 `is_proof_far_enough`. -/
def farEnough (r : Nat) (proof : ALink) (conf : Conf) : Bool := match proof with
  | .indirect l => if conf.stickyAnchors = 0 then r - l.to.round > 2 else r - l.to.round > 3
  | .direct _ => false

/-- producer.rs:98-152 the choice of the role; `last` is given when the previous point is proven. -/
def chooseRole (last : Option LastOwn) (localId r : Nat) (leader : Option Nat) (proof trigger : ALink) (conf : Conf) : Role :=
  match last with
  | none => .regular proof trigger
  | some last =>
    match last.sticky with
    | some k => if min (k + 1) 255 < conf.stickyAnchors then .sticky (k + 1) else .anchorTrigger
    | none =>
      if proof = .direct (.includes localId) then
        if 0 < conf.stickyAnchors then .sticky 0 else .anchorTrigger
      else match proof with
        | .indirect l =>
          if leader = some localId && farEnough r proof conf then .anchorProof l trigger else .regular proof trigger
        | .direct _ => .regular proof trigger

/-- `FastHashMap::get` on a map of points by author. -/
def byAuthor (l : List Info) (a : Nat) : Option Info := l.find? (fun q => q.author = a)

/-- producer.rs:260-279 the anchor time; `none` is a panic. -/
def anchorTimeOf (proof : AnyLink) (prev : Option Info) (includes witness : List Info) : Option Nat := match proof with
  | .toSelf => prev.map (·.time)
  | .direct path | .indirect ⟨_, path⟩ => match path with
    | .includes a => (byAuthor includes a).map (·.anchorTime)
    | .witness a => (byAuthor witness a).map (·.anchorTime)

/-- producer.rs:254-293 `get_time`: time and anchor time; `none` is a panic. -/
def getTime (proof : AnyLink) (prev : Option Info) (includes witness : List Info) (now : Nat) : Option (Nat × Nat) :=
  (anchorTimeOf proof prev includes witness).map (fun anchorTime =>
    let depsTime := match prev with
      | none => anchorTime
      | some q => max anchorTime q.time
    (max now (depsTime + 1), anchorTime))

/-- producer.rs:167-186 points as a map from author to digest. -/
def digests (l : List Info) : PMap := l.map (fun q => (q.author, q.id.digest))

/-- producer.rs:297-327 `check_prev_point`: `none` if the own point among includes is the proven one, or both are absent. -/
def checkPrev (included proven : Option Nat) : Option Res := match included, proven with
  | none, none => none
  | some a, some b => if a = b then none else some (.err .prevPointMismatch)
  | some _, none => some (.err .prevPointMismatch)
  | none, some _ => some .panic

/-- producer.rs:73-208 `create`. The assertion at :172-176 repeats `check_prev_point`. -/
def create (last : Option LastOwn) (localId r : Nat) (leader : Option Nat) (includes witness : List Info) (now : Nat)
    (digest payloadLen payloadBytes : Nat) (conf : Conf) : Res :=
  let atPrev := last.filter (fun l => l.round = r - 1)
  if atPrev.any (fun l => l.evidence.length < l.signers.majorityOfOthers) then .err .notEnoughEvidence
  else match anchorLinks r includes witness with
  | none => .panic
  | some (proof, trigger) =>
    let role := chooseRole atPrev localId r leader proof trigger conf
    let prev := byAuthor includes localId
    match checkPrev (prev.map (·.id.digest)) (atPrev.map (·.digest)) with
    | some res => res
    | none => match getTime (role.anchorProofLink localId) prev includes witness now with
      | none => .panic
      | some (time, anchorTime) => .ok ⟨⟨r, digest, localId⟩, payloadLen, payloadBytes, digests includes, digests witness,
          (atPrev.map (·.evidence)).getD [], role, time, anchorTime⟩

end Tycho.Producer
