import Verif.PeerCount.Model

/-!
Model of the consensus point verifier: `consensus/src/dag/verifier.rs` (`BasicVerifier::verify` and
`Verifier::validate`) with the point accessors it uses, `consensus/src/models/point/data.rs`, `info.rs`, `link.rs`.

Simplifications, common to the file: peer ids, digests and signatures are numbers; hash maps are association lists
(`PMap`) without repeated keys; `Round` and `UnixTime` are `Nat` (`Round::prev` of a round above genesis, `Round - x` is
saturating in the code as in `Nat`; `UnixTime +` saturates at `u64::MAX`, and a time compared with it never exceeds
`u64::MAX`, so the comparison is the same); a Rust `expect` of an accessor is an outer `none`. Metrics, logs, spans,
certificates and task cancellation are left out.
-/
namespace Tycho.Verifier

open Tycho.PeerCount

/-- `FastHashMap<PeerId, _>` of a point: entries in any order. -/
abbrev PMap := List (Nat × Nat)

/-- `FastHashMap::get`. -/
def PMap.get? (m : PMap) (k : Nat) : Option Nat := (m.find? (fun e => e.1 = k)).map (·.2)

/-- `FastHashMap::contains_key`. -/
def PMap.has (m : PMap) (k : Nat) : Bool := m.any (fun e => e.1 = k)

/-- consensus/src/models/point/info.rs:54-60 `PointId`. -/
structure PointId where
  round : Nat
  digest : Nat
  author : Nat
deriving DecidableEq, Repr

/-- consensus/src/models/point/link.rs:48-55 `Through`. -/
inductive Through where
  | includes (peer : Nat)
  | witness (peer : Nat)
deriving DecidableEq, Repr

/-- consensus/src/models/point/link.rs:37-42 `IndirectLink`. -/
structure ILink where
  to : PointId
  path : Through
deriving DecidableEq, Repr

/-- consensus/src/models/point/link.rs:24-31 `AnchorLink`. -/
inductive ALink where
  | direct (t : Through)
  | indirect (l : ILink)
deriving DecidableEq, Repr

/-- consensus/src/models/point/link.rs:10-15 `AnyLink`. -/
inductive AnyLink where
  | toSelf
  | direct (t : Through)
  | indirect (l : ILink)
deriving DecidableEq, Repr

/-- consensus/src/models/point/link.rs:17-22 `ChainedProofLink`. -/
inductive ChainedLink where
  | inapplicable
  | prevPoint (chained : Nat)
  | indirect (l : ILink)
deriving DecidableEq, Repr

/-- consensus/src/models/point/data.rs:47-75 `PointRole`. -/
inductive Role where
  | regular (anchorProof anchorTrigger : ALink)
  | anchorProof (chained : ILink) (anchorTrigger : ALink)
  | anchorTrigger
  | sticky (seqNo : Nat)
  | genesis
deriving DecidableEq, Repr

/-- consensus/src/models/point/data.rs:150-154 `AnchorStageRole`. -/
inductive Stage where
  | trigger
  | proof
deriving DecidableEq, Repr

/-- consensus/src/models/point/data.rs:143-148 `PointMap`. -/
inductive MapKind where
  | evidence
  | includes
  | witness
deriving DecidableEq, Repr

/-- consensus/src/models/point/data.rs:124-142 `StructureIssue`. -/
inductive StructIssue where
  | expectedGenesis (b : Bool)
  | authorInMap (m : MapKind)
  | link (s : Stage) (m : MapKind)
  | tooCloseChainedProof (round : Nat)
  | chainedProof (m : MapKind)
  | selfAnchorStage (s : Stage)
  | anchorTime
  | noPrevPoint
deriving DecidableEq, Repr

/-- consensus/src/models/point/info.rs:30-38 `PointInfoInner` with data.rs:14-39 `PointData` inlined. The signature of
the point itself is checked elsewhere and left out. -/
structure Info where
  id : PointId
  payloadLen : Nat
  payloadBytes : Nat
  includes : PMap
  witness : PMap
  evidence : PMap
  role : Role
  time : Nat
  anchorTime : Nat
deriving DecidableEq, Repr

/-- info.rs:104-106. -/
def Info.round (p : Info) : Nat := p.id.round
/-- info.rs:100-102. -/
def Info.author (p : Info) : Nat := p.id.author

/-- The parts of `MempoolConfig` that the verifier reads. -/
structure Conf where
  genesisRound : Nat
  clockSkew : Nat
  commitHistoryRounds : Nat
  stickyAnchors : Nat
  payloadBatchBytes : Nat
deriving DecidableEq, Repr

/-- data.rs:19-21 conversion of `AnchorLink` into `AnyLink`. -/
def ALink.any : ALink → AnyLink
  | .direct t => .direct t
  | .indirect l => .indirect l

/-- data.rs:80-95 `PointRole::anchor_proof`. -/
def Role.anchorProofLink (r : Role) (author : Nat) : AnyLink := match r with
  | .regular a _ => a.any
  | .anchorProof _ _ | .sticky _ | .genesis => .toSelf
  | .anchorTrigger => .direct (.includes author)

/-- data.rs:97-107 `PointRole::anchor_trigger`. -/
def Role.anchorTriggerLink (r : Role) : AnyLink := match r with
  | .regular _ t | .anchorProof _ t => t.any
  | .anchorTrigger | .sticky _ | .genesis => .toSelf

/-- data.rs:109-117 `PointRole::chained_anchor_proof`. -/
def Role.chained (r : Role) : ChainedLink := match r with
  | .regular _ _ | .anchorTrigger | .genesis => .inapplicable
  | .anchorProof l _ => .indirect l
  | .sticky n => .prevPoint n

/-- data.rs:119-124 `requires_prev_point`. -/
def Role.requiresPrev (r : Role) : Bool := match r with
  | .regular _ _ | .genesis => false
  | .anchorProof _ _ | .anchorTrigger | .sticky _ => true

/-- data.rs:281-287, info.rs:195-197 `anchor_link`. -/
def Info.anchorLink (p : Info) (s : Stage) : AnyLink := match s with
  | .trigger => p.role.anchorTriggerLink
  | .proof => p.role.anchorProofLink p.author

/-- data.rs:289-308, info.rs:199-201 `anchor_round`. -/
def Info.anchorRound (p : Info) (s : Stage) : Nat := match p.anchorLink s with
  | .toSelf => p.round
  | .direct (.includes _) => p.round - 1
  | .direct (.witness _) => p.round - 1 - 1
  | .indirect l => l.to.round

/-- data.rs:359-370, info.rs:255-257 `through_id`. -/
def Info.throughId (p : Info) (t : Through) : Option PointId := match t with
  | .includes a => (p.includes.get? a).map (fun d => ⟨p.round - 1, d, a⟩)
  | .witness a => (p.witness.get? a).map (fun d => ⟨p.round - 1 - 1, d, a⟩)

/-- data.rs:324-340, info.rs:266-271 `anchor_link_through`: next point on the path to the anchor; `none` is the panic
"usage of ill-formed point". -/
def Info.anchorLinkThrough (p : Info) (s : Stage) : Option PointId := match p.anchorLink s with
  | .toSelf => some p.id
  | .direct t => p.throughId t
  | .indirect l => p.throughId l.path

/-- data.rs:310-321, info.rs:259-264 `anchor_id`: final destination of an anchor link; `none` is the panic. -/
def Info.anchorId (p : Info) (s : Stage) : Option PointId := match p.anchorLink s with
  | .indirect l => some l.to
  | .toSelf => some p.id
  | .direct t => p.throughId t

/-- info.rs:146-148 `prev_digest`. -/
def Info.prevDigest (p : Info) : Option Nat := p.includes.get? p.author

/-- info.rs:150-156 `prev_id`. -/
def Info.prevId (p : Info) : Option PointId := p.prevDigest.map (fun d => ⟨p.round - 1, d, p.author⟩)

/-- info.rs:203-208 `indirect_anchor_proof`. -/
def Info.indirectAnchorProof (p : Info) : Option ILink := match p.role.chained with
  | .indirect l => some l
  | _ => none

/-- info.rs:210-215 `sticky_anchors`. -/
def Info.stickyAnchors (p : Info) : Option Nat := match p.role.chained with
  | .prevPoint n => some n
  | _ => none

/-- info.rs:217-223 `chained_anchor_proof_to_round`. -/
def Info.chainedToRound (p : Info) : Option Nat := match p.role.chained with
  | .inapplicable => none
  | .prevPoint _ => some (p.round - 1)
  | .indirect l => some l.to.round

/-- info.rs:225-233 `chained_anchor_proof_to`; the outer `none` is the panic. -/
def Info.chainedTo (p : Info) : Option (Option PointId) := match p.role.chained with
  | .inapplicable => some none
  | .prevPoint _ => p.prevId.map some
  | .indirect l => some (some l.to)

/-- info.rs:235-250 `chained_anchor_proof_to_through`; the outer `none` is the panic. -/
def Info.chainedToThrough (p : Info) : Option (Option (PointId × Option PointId)) := match p.role.chained with
  | .inapplicable => some none
  | .prevPoint _ => p.prevId.map (fun i => some (i, none))
  | .indirect l => (p.throughId l.path).map (fun t => some (l.to, some t))

/-- data.rs:343-357 `inherited_anchor_proof_id`; the outer `none` is the panic. -/
def Info.inheritedProofId (p : Info) : Option (Option PointId) := match p.role with
  | .anchorTrigger | .sticky _ | .genesis => some none
  | .regular (.direct t) _ => (p.throughId t).map some
  | .regular (.indirect l) _ => some (some l.to)
  | .anchorProof l _ => some (some l.to)

/-- info.rs:249-253 `trigger_bound_proof_id`; the outer `none` is the panic. -/
def Info.triggerBoundProofId (p : Info) : Option (Option PointId) :=
  p.inheritedProofId.map (fun o => o.filter (fun i => i.round < p.anchorRound .trigger))

/-- data.rs:170-197 `is_proof_link_ok`. -/
def Info.isProofLinkOk (p : Info) (isLeader : Bool) (conf : Conf) : Bool :=
  let far (proofRound : Nat) : Bool :=
    if conf.stickyAnchors = 0 then p.round - proofRound > 2 else p.round - proofRound > 3
  match p.role with
  | .regular _ _ => !(isLeader && p.prevDigest.isSome && far (p.anchorRound .proof))
  | .anchorProof l _ => isLeader && far l.to.round
  | .anchorTrigger | .sticky _ | .genesis => true

/-- data.rs:266-278 `indirect_link_error`. -/
def Info.indirectLinkError (p : Info) (l : ILink) : Option MapKind := match l.path with
  | .includes a => if !p.includes.has a || l.to.round ≥ p.round - 1 then some .includes else none
  | .witness a => if !p.witness.has a || l.to.round ≥ p.round - 1 - 1 then some .witness else none

/-- data.rs:240-249 the link check inside the loop over both anchor roles. -/
def Info.linkError (p : Info) (s : Stage) : Option MapKind := match p.anchorLink s with
  | .toSelf => if p.includes.has p.author then none else some .includes
  | .direct (.includes a) => if p.includes.has a then none else some .includes
  | .direct (.witness a) => if p.witness.has a then none else some .witness
  | .indirect l => p.indirectLinkError l

/-- data.rs:222-236 the check of the chained proof. -/
def Info.chainedError (p : Info) : Option StructIssue := match p.role.chained with
  | .inapplicable => none
  | .prevPoint _ => if p.includes.has p.author then none else some (.chainedProof .includes)
  | .indirect l =>
    if l.to.round ≥ p.round - 1 - 1 then some (.tooCloseChainedProof l.to.round)
    else (p.indirectLinkError l).map .chainedProof

/-- data.rs:239-257 one turn of the loop over both anchor roles. -/
def Info.stageError (p : Info) (s : Stage) : Option StructIssue :=
  ((p.linkError s).map (StructIssue.link s)).or
    (if p.evidence.isEmpty && p.anchorLink s = .toSelf then some (.selfAnchorStage s) else none)

/-- data.rs:201-264 `check_non_genesis_structure`. -/
def Info.nonGenesisStructure (p : Info) : Option StructIssue :=
  let hasPrev := p.includes.has p.author
  if p.role.requiresPrev && !hasPrev then some .noPrevPoint
  else if p.evidence.isEmpty = hasPrev then some (.authorInMap .includes)
  else if p.evidence.has p.author then some (.authorInMap .evidence)
  else if p.witness.has p.author then some (.authorInMap .witness)
  else (p.chainedError.or ((p.stageError .proof).or (p.stageError .trigger))).or
    (if p.time ≤ p.anchorTime then some .anchorTime else none)

/-- info.rs:170-186 `check_structure`. -/
def Info.checkStructure (p : Info) (isGenesis : Bool) : Option StructIssue :=
  if isGenesis then
    if p.role ≠ .genesis then some (.expectedGenesis true)
    else if p.time ≠ p.anchorTime then some .anchorTime
    else none
  else
    if p.role = .genesis then some (.expectedGenesis false)
    else p.nonGenesisStructure

/-! ### `BasicVerifier` -/

/-- verifier.rs:57-92 `IllFormedReason`. -/
inductive IllReason where
  | afterLoadFromDb (isFinal : Bool)
  | evidenceSigError
  | beforeGenesis
  | tooLargePayload (n : Nat)
  | struct (s : StructIssue)
  | tooManyStickyAnchors (n : Nat)
  | linksAcrossGenesis
  | unknownAuthor
  | mustBeEmpty (m : MapKind)
  | unknownPeers (m : MapKind)
  | unknownPeerInAnchorLink (s : Stage)
  | unknownPeerInChainedProof
  | lackOfPeers (len : Nat) (m : MapKind)
  | badProofLink (isLeader : Bool)
deriving DecidableEq, Repr

/-- verifier.rs:37-43 `VerifyError` as the outcome of `verify`; `panic` is the overflow assertion of `PeerCount`. -/
inductive VerifyRes where
  | ok
  | fail (len round : Nat) (m : MapKind)
  | ill (r : IllReason)
  | panic
deriving DecidableEq, Repr

/-- verifier.rs:815-831 `peer_count_genesis` and `peer_count`. -/
def peerCountFor (isGenesis : Bool) (len round : Nat) (m : MapKind) : Except VerifyRes PeerCount :=
  if isGenesis then if len = genesis.full then .ok genesis else .error (.fail len round m)
  else match tryFrom len with
    | .ok c => .ok c
    | .tooFew => .error (.fail len round m)
    | .panicOverflow => .error .panic

/-- verifier.rs:797-803 `BasicVerifierInner`. -/
structure Inner where
  same : PeerCount × List Nat
  includesPeers : Option (PeerCount × List Nat)
  witnessPeers : Option (PeerCount × List Nat)

/-- verifier.rs:833-877 first half of `BasicVerifierInner::new`: peer sets by distance from genesis. -/
def Inner.new (p : Info) (peersFor : Nat → List Nat) (conf : Conf) : Except VerifyRes Inner :=
  let a := peersFor p.round
  let b := peersFor (p.round - 1)
  let c := peersFor (p.round - 1 - 1)
  match p.round - (conf.genesisRound - 1) with
  | 0 => .error (.ill .beforeGenesis)
  | 1 => do
    let ca ← peerCountFor true a.length p.round .evidence
    return ⟨(ca, a), none, none⟩
  | 2 => do
    let ca ← peerCountFor false a.length p.round .evidence
    let cb ← peerCountFor true b.length (p.round - 1) .includes
    return ⟨(ca, a), some (cb, b), none⟩
  | n + 3 => do
    let cc ← peerCountFor (n = 0) c.length (p.round - 1 - 1) .witness
    let ca ← peerCountFor false a.length p.round .evidence
    let cb ← peerCountFor false b.length (p.round - 1) .includes
    return ⟨(ca, a), some (cb, b), some (cc, c)⟩

/-- verifier.rs:881-902 second half of `BasicVerifierInner::new`: authors of indirect link targets are scheduled. -/
def indirectPeersError (p : Info) (peersFor : Nat → List Nat) : Option IllReason :=
  let bad (l : ILink) : Bool := l.to.author ∉ peersFor l.to.round
  if p.indirectAnchorProof.any bad then some .unknownPeerInChainedProof
  else if (match p.anchorLink .proof with | .indirect l => bad l | _ => false) then some (.unknownPeerInAnchorLink .proof)
  else if (match p.anchorLink .trigger with | .indirect l => bad l | _ => false) then
    some (.unknownPeerInAnchorLink .trigger)
  else none

/-- verifier.rs:909-940 `check_well_formed`. -/
def wellFormedError (p : Info) (conf : Conf) : Option IllReason :=
  if p.round = conf.genesisRound then
    if p.payloadLen > 0 then some (.tooLargePayload p.payloadBytes)
    else (p.checkStructure true).map .struct
  else if p.payloadBytes > conf.payloadBatchBytes then some (.tooLargePayload p.payloadBytes)
  else match p.checkStructure false with
    | some s => some (.struct s)
    | none =>
      if p.stickyAnchors.any (fun n => n ≥ conf.stickyAnchors) then
        some (.tooManyStickyAnchors (p.stickyAnchors.getD 0))
      else if p.anchorRound .proof < conf.genesisRound || p.anchorRound .trigger < conf.genesisRound
          || p.chainedToRound.any (fun r => r < conf.genesisRound) then some .linksAcrossGenesis
      else none

/-- verifier.rs:945-969 the part of `check_peers` about the author and evidence. -/
def evidencePeersError (p : Info) (same : PeerCount × List Nat) : Option IllReason :=
  if p.author ∉ same.2 then some .unknownAuthor
  else if p.evidence.isEmpty then none
  else if same.1 = genesis then some (.mustBeEmpty .evidence)
  else if p.evidence.any (fun e => e.1 ∉ same.2) then some (.unknownPeers .evidence)
  else if p.evidence.length < same.1.majorityOfOthers then some (.lackOfPeers p.evidence.length .evidence)
  else none

/-- verifier.rs:971-993 the part of `check_peers` about includes. -/
def includesPeersError (p : Info) : Option (PeerCount × List Nat) → Option IllReason
  | none => if p.includes.isEmpty then none else some (.mustBeEmpty .includes)
  | some (total, scheduled) =>
    if p.includes.any (fun e => e.1 ∉ scheduled) then some (.unknownPeers .includes)
    else if p.includes.length < total.majority then some (.lackOfPeers p.includes.length .includes)
    else none

/-- verifier.rs:995-1013 the part of `check_peers` about witness. -/
def witnessPeersError (p : Info) : Option (PeerCount × List Nat) → Option IllReason
  | none => if p.witness.isEmpty then none else some (.mustBeEmpty .witness)
  | some (_, scheduled) => if p.witness.any (fun e => e.1 ∉ scheduled) then some (.unknownPeers .witness) else none

/-- verifier.rs:942-1017 `check_peers`. -/
def peersError (p : Info) (i : Inner) : Option IllReason :=
  (evidencePeersError p i.same).or ((includesPeersError p i.includesPeers).or (witnessPeersError p i.witnessPeers))

/-- verifier.rs:772-795 `BasicVerifier::{new, verify}`. -/
def verify (p : Info) (peersFor : Nat → List Nat) (conf : Conf) : VerifyRes :=
  match Inner.new p peersFor conf with
  | .error e => e
  | .ok inner =>
    match (indirectPeersError p peersFor).or ((wellFormedError p conf).or (peersError p inner)) with
    | some r => .ill r
    | none => .ok

/-! ### `Verifier::validate` -/

/-- verifier.rs:94-135 `InvalidReason`. -/
inductive Reason where
  | afterLoadFromDb (hasDagRound : Bool)
  | noRoundInDag (m : MapKind)
  | dependencyRoundDropped
  | notTrigger (i : PointId)
  | timeNotGreaterThanInPrevPoint (i : PointId)
  | anchorProofDoesntInheritAnchorTime (i : PointId)
  | anchorTimeNotInheritedFromProof (i : PointId)
  | mustHaveReferencedPrevPoint (i : PointId)
  | mustHaveSkippedRound (i : PointId)
  | dependencyTimeTooFarInFuture (i : PointId)
  | newerAnchorInDependency (s : Stage) (i : PointId)
  | anchorLink (s : Stage) (i : PointId)
  | anchorLinkRole (s : Stage) (i : PointId)
  | anchorLinkBadPath (s : Stage) (i : PointId)
  | chainedProofRole (i : PointId)
  | chainedProofBadPath (i : PointId)
  | badStickySequence (i : PointId)
  | newerProofToChainInDependency (i : PointId)
  | triggerProofMismatch (i : PointId) (direct : Bool)
  | depIllFormed (i : PointId)
  | depNotFound (i : PointId)
deriving DecidableEq, Repr

/-- verifier.rs:147-155 `has_dag_round`. -/
def Reason.hasDagRound : Reason → Bool
  | .afterLoadFromDb b => b
  | .noRoundInDag _ | .dependencyRoundDropped => false
  | _ => true

/-- verifier.rs:158-162 `InvalidDependency`. -/
structure InvDep where
  link : ILink
  reason : Reason
deriving DecidableEq, Repr

/-- consensus/src/models/dag_point.rs:16-40 `DagPoint`, with the fields the verifier reads. -/
inductive DagPoint where
  | valid (info : Info) (isFirstValid : Bool)
  | transInvalid (info : Info) (certified : Bool) (root : InvDep)
  | invalid (info : Info) (certified : Bool) (reason : Reason)
  | illFormed (id : PointId)
  | notFound (id : PointId) (certified : Bool)
deriving DecidableEq, Repr

/-- dag_point.rs:121-129 `id`. -/
def DagPoint.id : DagPoint → PointId
  | .valid p _ | .transInvalid p _ _ | .invalid p _ _ => p.id
  | .illFormed i | .notFound i _ => i

/-- The point body held by the value, if any. -/
def DagPoint.info? : DagPoint → Option Info
  | .valid p _ | .transInvalid p _ _ | .invalid p _ _ => some p
  | .illFormed _ | .notFound _ _ => none

/-- verifier.rs:710-715 whether a new root cause replaces the remembered one. -/
def replaces (old : Option InvDep) (root : PointId) (reason : Reason) : Bool := match old with
  | none => true
  | some o => o.link.to.round < root.round
      || (o.link.to.round = root.round && !o.reason.hasDagRound && reason.hasDagRound)

/-- verifier.rs:707-731 the update of `latest_invalid_dep`. -/
def remember (old : Option InvDep) (dp : DagPoint) (through : Option Through) (prevRound : Nat) (root : PointId)
    (reason : Reason) : Option InvDep :=
  if replaces old root reason then
    some ⟨⟨root, through.getD (if dp.id.round = prevRound then .includes dp.id.author else .witness dp.id.author)⟩,
      reason⟩
  else old

/-- verifier.rs:672-735 `dependency`: the point to check against with the updated `latest_invalid_dep`, or the reason
to invalidate. -/
def dependency (old : Option InvDep) (dp : DagPoint) (through : Option Through) (prevRound : Nat) (conf : Conf) :
    Except Reason (Info × Option InvDep) := match dp with
  | .valid p _ => .ok (p, old)
  | .invalid p certified reason =>
    if certified then .ok (p, old) else .ok (p, remember old dp through prevRound p.id reason)
  | .transInvalid p certified root =>
    if certified then .ok (p, old)
    else if prevRound ≥ root.link.to.round + conf.commitHistoryRounds then .ok (p, old)
    else .ok (p, remember old dp through prevRound root.link.to root.reason)
  | .illFormed i => .error (.depIllFormed i)
  | .notFound i _ => .error (.depNotFound i)

/-- verifier.rs:737-769 `is_proof_ok`; its assertions hold by the caller's check of author, round and digest. -/
def isProofOk (p proven : Info) : Option Reason :=
  if proven.anchorLink .proof = .toSelf && p.anchorLink .trigger ≠ .toSelf then some (.notTrigger proven.id)
  else if p.time ≤ proven.time then some (.timeNotGreaterThanInPrevPoint proven.id)
  else if p.anchorLink .proof = .toSelf && p.anchorTime ≠ proven.time then
    some (.anchorProofDoesntInheritAnchorTime proven.id)
  else none

/-- verifier.rs:660-669 `check_trigger_target`; `bound` is `info.trigger_bound_proof_id()`. A panic of
`dep.anchor_id` counts as a mismatch (`anchorId_isSome`: it does not happen for a verified dependency). -/
def checkTriggerTarget (bound : Option PointId) (dep : Info) : Option Reason :=
  if dep.anchorLink .trigger ≠ .toSelf then some (.anchorLink .trigger dep.id)
  else if bound.any (fun i => some i ≠ dep.anchorId .proof) then some (.triggerProofMismatch dep.id true)
  else none

/-- verifier.rs:391-398 the values computed by `check_valid` before the loop. -/
structure Prep where
  triggerId : PointId
  proofId : PointId
  triggerThrough : PointId
  proofThrough : PointId
  bound : Option PointId
  chained : Option (PointId × Option PointId)
deriving DecidableEq, Repr

/-- verifier.rs:391-396; `none` is the panic "usage of ill-formed point". -/
def prepare (p : Info) : Option Prep := do
  let triggerId ← p.anchorId .trigger
  let proofId ← p.anchorId .proof
  let triggerThrough ← p.anchorLinkThrough .trigger
  let proofThrough ← p.anchorLinkThrough .proof
  let bound ← p.triggerBoundProofId
  let chained ← p.chainedToThrough
  return ⟨triggerId, proofId, triggerThrough, proofThrough, bound, chained⟩

/-- `if cond { invalid_reason = Some(reason) }` as a value. -/
def fire (c : Bool) (r : Reason) : Option Reason := if c then some r else none

/-- verifier.rs:513-545 the checks of one dependency against the chained proof. -/
def chainedChecks (conf : Conf) (p : Info) (dep : Info) : Option (PointId × Option PointId) → List (Option Reason)
  | none => []
  | some (to, through) =>
    [fire ((dep.anchorId .proof).all (fun i => i.round > to.round)) (.newerProofToChainInDependency dep.id)] ++
    match through with
    | some through => [fire (dep.id = through && dep.anchorId .proof ≠ some to) (.chainedProofBadPath dep.id)]
    | none =>
      if dep.id = to then
        [fire (dep.anchorLink .proof ≠ .toSelf) (.chainedProofBadPath dep.id),
         fire (p.stickyAnchors.any (fun n => !(n < conf.stickyAnchors
           && (match dep.stickyAnchors with
               | some k => decide (k + 1 = n ∧ k + 1 < 256)
               | none => n = 0)))) (.badStickySequence dep.id)]
      else []

/-- verifier.rs:459-545 the checks of one direct dependency, in the order in which they overwrite each other. -/
def directChecks (conf : Conf) (p : Info) (P : Prep) (isPrev : Bool) (dep : Info) : List (Option Reason) :=
  [ if isPrev then isProofOk p dep else none,
    fire (dep.time > p.time + conf.clockSkew) (.dependencyTimeTooFarInFuture dep.id),
    fire (dep.anchorRound .trigger > P.triggerId.round) (.newerAnchorInDependency .trigger dep.id),
    fire (dep.anchorRound .proof > P.proofId.round) (.newerAnchorInDependency .proof dep.id),
    fire (dep.id = P.proofId && dep.anchorLink .proof ≠ .toSelf) (.anchorLink .proof dep.id),
    if dep.id = P.triggerId then checkTriggerTarget P.bound dep else none,
    fire (dep.id = P.triggerThrough && dep.anchorId .trigger ≠ some P.triggerId) (.anchorLinkBadPath .trigger dep.id),
    fire (dep.id = P.triggerThrough && dep.anchorId .trigger = some P.triggerId && P.triggerThrough ≠ P.triggerId
      && P.bound.any (fun i => some i ≠ dep.anchorId .proof)) (.triggerProofMismatch dep.id false),
    fire (dep.id = P.proofThrough && dep.anchorId .proof ≠ some P.proofId) (.anchorLinkBadPath .proof dep.id),
    fire (dep.id = P.proofThrough && dep.anchorTime ≠ p.anchorTime) (.anchorTimeNotInheritedFromProof dep.id)
  ] ++ chainedChecks conf p dep P.chained

/-- `invalid_reason` after a sequence of assignments: the last one wins. -/
def lastOf (inv : Option Reason) (l : List (Option Reason)) : Option Reason :=
  l.foldl (fun inv c => c.or inv) inv

/-- State of the loops of `check_valid` and `check_indirect_links`: `invalid_reason`, `latest_invalid_dep`, and whether
`break` was executed. -/
structure St where
  inv : Option Reason := none
  latest : Option InvDep := none
  stop : Bool := false
deriving DecidableEq, Repr

/-- verifier.rs:420-449 what another version of the author's previous point does to `invalid_reason`. -/
def otherVersion (prevDigest : Option Nat) (dp : DagPoint) : Option Reason := match dp with
  | .valid p first => fire (prevDigest.isNone && first) (.mustHaveReferencedPrevPoint p.id)
  | .transInvalid p _ _ | .invalid p _ _ => some (.mustHaveSkippedRound p.id)
  | .illFormed i => some (.mustHaveSkippedRound i)
  | .notFound i certified => fire certified (.mustHaveReferencedPrevPoint i)

/-- verifier.rs:403-546 the body of the loop of `check_valid`; `none` is a dependency dropped with its round. The
assertion that the previous point is marked as certified is left out. -/
def directStep (conf : Conf) (p : Info) (P : Prep) (st : St) (item : Option DagPoint) : St :=
  if st.stop then st
  else match item with
    | none => { st with inv := st.inv.or (some .dependencyRoundDropped), stop := true }
    | some dp =>
      let own := dp.id.round = p.round - 1 ∧ dp.id.author = p.author
      if own ∧ p.prevDigest ≠ some dp.id.digest then
        { st with inv := lastOf st.inv [otherVersion p.prevDigest dp] }
      else match dependency st.latest dp none (p.round - 1) conf with
        | .error r => { st with inv := some r }
        | .ok (dep, latest) => { st with latest, inv := lastOf st.inv (directChecks conf p P own dep) }

/-- verifier.rs:376-549 `check_valid` on the dependencies in the order in which their futures resolve. -/
def checkValid (conf : Conf) (p : Info) (P : Prep) (order : List (Option DagPoint)) : St :=
  order.foldl (directStep conf p P) {}

/-- The target if the link is indirect. -/
def AnyLink.indirect? : AnyLink → Option ILink
  | .indirect l => some l
  | _ => none

/-- Insertion into a list sorted by decreasing round. -/
def insertLink (l : ILink) : List ILink → List ILink
  | [] => [l]
  | x :: xs => if x.to.round ≤ l.to.round then l :: x :: xs else x :: insertLink l xs

/-- verifier.rs:559-570 the links to look up, newest first (`sort_unstable_by_key`, which puts absent ones first). -/
def indirectLinks (p : Info) : List ILink :=
  ([(p.anchorLink .trigger).indirect?, (p.anchorLink .proof).indirect?, p.indirectAnchorProof].filterMap id).foldr
    insertLink []

/-- verifier.rs:576-597 the links whose rounds are found; `scan` tells whether the round is in the DAG. -/
def scannedLinks (p : Info) (scan : Nat → Bool) : List ILink :=
  (indirectLinks p).takeWhile (fun l => l.to.round = p.round || scan l.to.round)

/-- verifier.rs:624-655 the checks of one link target. -/
def indirectChecks (conf : Conf) (p : Info) (bound : Option PointId) (dep : Info) : List (Option Reason) :=
  [ fire (dep.time > p.time + conf.clockSkew) (.dependencyTimeTooFarInFuture dep.id),
    if ((p.anchorLink .trigger).indirect?.any (fun l => dep.id = l.to)) then checkTriggerTarget bound dep else none,
    if ((p.anchorLink .proof).indirect?.any (fun l => dep.id = l.to)) then
      if dep.anchorLink .proof ≠ .toSelf then some (.anchorLinkRole .proof dep.id)
      else fire (dep.anchorTime ≠ p.anchorTime) (.anchorTimeNotInheritedFromProof dep.id)
    else none,
    fire (p.indirectAnchorProof.any (fun l => dep.id = l.to) && dep.anchorLink .proof ≠ .toSelf)
      (.chainedProofRole dep.id) ]

/-- verifier.rs:604-656 the body of the loop of `check_indirect_links`; `none` is a target dropped with its round. -/
def indirectStep (conf : Conf) (p : Info) (bound : Option PointId) (st : St) (item : Option (DagPoint × Through)) :
    St := match item with
  | none => st
  | some (dp, through) =>
    match dependency st.latest dp (some through) (p.round - 1) conf with
    | .error r => { st with inv := some r }
    | .ok (dep, latest) => { st with latest, inv := lastOf st.inv (indirectChecks conf p bound dep) }

/-- verifier.rs:551-658 `check_indirect_links` after the links were scanned. -/
def checkIndirect (conf : Conf) (p : Info) (bound : Option PointId) (latest : Option InvDep)
    (order : List (Option (DagPoint × Through))) : St :=
  order.foldl (indirectStep conf p bound) { latest }

/-- verifier.rs:45-51 `ValidateResult`; `panic` stands for an `expect` or the assertion on rounds before genesis. -/
inductive ValidateRes where
  | illFormed (r : IllReason)
  | invalid (r : Reason)
  | transInvalid (d : InvDep)
  | valid
  | panic
deriving DecidableEq, Repr

/-- What one execution of `validate` meets: which DAG rounds are alive (verifier.rs:205-230), what each dependency
future resolves to (`none` if it was dropped with its round), the versions found at the author's location of the
previous round (:245-252), the order in which all of them resolve, and the same for the targets of indirect links. -/
structure Run where
  isLeader : Bool
  r0 : Bool
  r1 : Bool
  r2 : Bool
  resolve : PointId → Option DagPoint
  others : List (Option DagPoint)
  order : List (Option DagPoint)
  scan : Nat → Bool
  resolveI : PointId → Option DagPoint
  orderI : List (Option (DagPoint × Through))

/-- verifier.rs:330-365 `spawn_direct_deps`: the dependencies requested. -/
def depIds (p : Info) (r2 : Bool) : List PointId :=
  (if r2 then p.witness.map (fun e => ⟨p.round - 1 - 1, e.2, e.1⟩) else []) ++
    p.includes.map (fun e => ⟨p.round - 1, e.2, e.1⟩)

/-- verifier.rs:176-296 `validate`; `r0` alive at the start is taken to be alive when indirect links are scanned, unless
`scan` says that no round is found. -/
def validate (conf : Conf) (p : Info) (run : Run) : ValidateRes :=
  if p.round < conf.genesisRound then .panic
  else if p.round = conf.genesisRound then .valid
  else if !p.isProofLinkOk run.isLeader conf then .illFormed (.badProofLink run.isLeader)
  else if !run.r0 then .invalid (.noRoundInDag .evidence)
  else if !run.r1 then .invalid (.noRoundInDag .includes)
  else if !run.r2 && !p.witness.isEmpty then .invalid (.noRoundInDag .witness)
  else match prepare p with
    | none => .panic
    | some P =>
      let st := checkValid conf p P run.order
      match st.inv with
      | some r => .invalid r
      | none =>
        let st2 := checkIndirect conf p P.bound st.latest run.orderI
        match st2.inv with
        | some r => .invalid r
        | none => match st2.latest with
          | some d => .transInvalid d
          | none => .valid

end Tycho.Verifier
