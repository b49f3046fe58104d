import Verif.Verifier.Model
import Mathlib.Logic.Relation

/-!
Specification side of the point verifier: which points exist (`World`), what one execution of `validate` may meet
(`Faithful`), which points have been accepted (`Accepted`), and the causal history of a point. Nothing here uses the
checks of the model except by calling `verify` and `validate`.
-/
namespace Tycho.Verifier

/-- The points of one mempool session: a digest binds its contents, so an id names at most one body. -/
structure World where
  conf : Conf
  /-- scheduled peers of a round -/
  peersFor : Nat → List Nat
  /-- leader of a round -/
  leader : Nat → Option Nat
  body : PointId → Option Info

/-- No repeated keys: the maps of a point are hash maps. -/
def PMap.Uniq (m : PMap) : Prop := (m.map (·.1)).Nodup

/-- A body is filed under its own id, and its maps have no repeated keys. -/
structure World.Ok (W : World) : Prop where
  id_eq : ∀ i p, W.body i = some p → p.id = i
  includes_uniq : ∀ i p, W.body i = some p → p.includes.Uniq
  witness_uniq : ∀ i p, W.body i = some p → p.witness.Uniq
  evidence_uniq : ∀ i p, W.body i = some p → p.evidence.Uniq
  genesis_pos : 0 < W.conf.genesisRound

/-- The execution `run` of `validate` for the point `p` is one that the code can have in the world `W`: every requested
dependency is answered by a value with the requested id (or is dropped), the answers and the other versions at the
author's previous location arrive in any order, and every body is the one which exists under its id. -/
structure Faithful (W : World) (p : Info) (run : Run) : Prop where
  leader : run.isLeader = decide (W.leader p.round = some p.author)
  resolves : ∀ i dp, run.resolve i = some dp → dp.id = i
  bodies : ∀ dp, some dp ∈ run.order → ∀ q, dp.info? = some q → W.body dp.id = some q
  order : run.order.Perm ((depIds p run.r2).map run.resolve ++ run.others)
  others : ∀ dp, some dp ∈ run.others →
    dp.id.round = p.round - 1 ∧ dp.id.author = p.author ∧ p.prevDigest ≠ some dp.id.digest
  resolvesI : ∀ i dp, run.resolveI i = some dp → dp.id = i
  bodiesI : ∀ dp t, some (dp, t) ∈ run.orderI → ∀ q, dp.info? = some q → W.body dp.id = some q
  orderI : run.orderI.Perm ((scannedLinks p run.scan).map (fun l => (run.resolveI l.to).map (fun dp => (dp, l.path))))

/-- The point passed `verify`, and `validate` found nothing wrong with the point itself: the verdict is `Valid` or
`TransInvalid` (only some dependency is not valid). -/
structure Accepted (W : World) (p : Info) : Prop where
  known : W.body p.id = some p
  verified : verify p W.peersFor W.conf = .ok
  validated : ∃ run, Faithful W p run ∧
    (validate W.conf p run = .valid ∨ ∃ d, validate W.conf p run = .transInvalid d)

/-- `q` is listed among the includes or the witnesses of `p`. -/
def Dep (W : World) (p q : Info) : Prop :=
  W.body q.id = some q ∧
    ((q.id.round = p.round - 1 ∧ (q.id.author, q.id.digest) ∈ p.includes) ∨
     (q.id.round = p.round - 1 - 1 ∧ (q.id.author, q.id.digest) ∈ p.witness))

/-- `q` is `p` or is reached from `p` through listed dependencies. -/
def History (W : World) : Info → Info → Prop := Relation.ReflTransGen (Dep W)

/-- The whole history of `p`, including `p`, is accepted. -/
def AllAccepted (W : World) (p : Info) : Prop := ∀ q, History W p q → Accepted W q

/-- `q` is the previous point of the author of `p`: same author, one round before, listed in the includes. -/
def IsPrev (W : World) (p q : Info) : Prop :=
  W.body q.id = some q ∧ q.id.round + 1 = p.round ∧ q.id.author = p.author ∧ (q.id.author, q.id.digest) ∈ p.includes

/-- A point that introduces a proof, resp. a trigger, itself. -/
def IsStage (s : Stage) (p : Info) : Prop := match s with
  | .proof => p.role = .genesis ∨ (∃ l t, p.role = .anchorProof l t) ∨ ∃ n, p.role = .sticky n
  | .trigger => p.role = .genesis ∨ p.role = .anchorTrigger ∨ ∃ n, p.role = .sticky n

/-- The id written in a link of `p`, read off the role of `p`. -/
inductive LinksTo (p : Info) : Stage → PointId → Prop
  | self (s : Stage) : IsStage s p → LinksTo p s p.id
  | proofDirectIncludes (a d : Nat) (t) : p.role = .regular (.direct (.includes a)) t → (a, d) ∈ p.includes →
      LinksTo p .proof ⟨p.round - 1, d, a⟩
  | proofDirectWitness (a d : Nat) (t) : p.role = .regular (.direct (.witness a)) t → (a, d) ∈ p.witness →
      LinksTo p .proof ⟨p.round - 1 - 1, d, a⟩
  | proofIndirect (l t) : p.role = .regular (.indirect l) t → LinksTo p .proof l.to
  | triggersProof (d : Nat) : p.role = .anchorTrigger → (p.author, d) ∈ p.includes →
      LinksTo p .proof ⟨p.round - 1, d, p.author⟩
  | triggerDirectIncludes (a d : Nat) (t) : (∃ x, p.role = .regular x t) ∨ (∃ x, p.role = .anchorProof x t) →
      t = .direct (.includes a) → (a, d) ∈ p.includes → LinksTo p .trigger ⟨p.round - 1, d, a⟩
  | triggerDirectWitness (a d : Nat) (t) : (∃ x, p.role = .regular x t) ∨ (∃ x, p.role = .anchorProof x t) →
      t = .direct (.witness a) → (a, d) ∈ p.witness → LinksTo p .trigger ⟨p.round - 1 - 1, d, a⟩
  | triggerIndirect (l t) : (∃ x, p.role = .regular x t) ∨ (∃ x, p.role = .anchorProof x t) →
      t = .indirect l → LinksTo p .trigger l.to

end Tycho.Verifier
