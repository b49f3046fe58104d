import Verif.Commit.Model
import Mathlib.Logic.Relation

/-!
What the committer promises, in terms of the local DAG only (no maps, shuffles or loops).
-/
namespace Tycho.Commit

/-- Point `p` (with body `b`) links to `q`: as one of its includes (previous round) or witnesses (two rounds back). -/
def LinkTo (p : PointId) (b : Body) (q : PointId) : Prop :=
  ((q.author, q.digest) ∈ b.includes ∧ q.round + 1 = p.round) ∨
  ((q.author, q.digest) ∈ b.witness ∧ q.round + 2 = p.round)

/-- Reachable from the anchor `a` by links of points that are not committed yet. -/
inductive Reach (d : Dag) (a : PointId) : PointId → Prop
  | anchor : Reach d a a
  | link {p q : PointId} {b : Body} : Reach d a p → d.view p = some b → d.committed p = false → LinkTo p b q → Reach d a q

/-- The points that make the history of `a`: reachable, not committed, not older than `limit`, in a round the DAG holds. -/
def InHistory (d : Dag) (limit : Nat) (a p : PointId) : Prop :=
  Reach d a p ∧ d.committed p = false ∧ limit ≤ p.round ∧ d.bottom ≤ p.round

/-- A digest identifies its author: two linked ids of one round with the same digest are equal (the digest is a hash over
the author too, point/parts.rs:88-92). -/
def DigestUnique (d : Dag) : Prop :=
  ∀ p b q p' b' q', d.view p = some b → d.view p' = some b' → LinkTo p b q → LinkTo p' b' q' →
    q.round = q'.round → q.digest = q'.digest → q = q'

/-- The DAG holds every round between its lowest and its highest one. -/
def Contiguous (d : Dag) : Prop := ∃ n, d.rounds = List.range' d.bottom n

/-- One link of the chain of anchor proofs in the local DAG. -/
def ProofLink (d : Dag) (p q : PointId) : Prop :=
  ∃ b, d.view p = some b ∧ (Point.mk p b).chainedTo = some q

end Tycho.Commit
