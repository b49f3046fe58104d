import Verif.SplitMerge.Model
/-!
The specification: the order of shards, and what it means to carry actions out.
-/
namespace Tycho.SplitMerge

/-- `a` is `b` or an ancestor of it. -/
def Shard.le (a b : Shard) : Prop := a.wc = b.wc ∧ a.path <+: b.path

/-- `a` is an ancestor of `b`. -/
def Shard.lt (a b : Shard) : Prop := a.le b ∧ a ≠ b

/-- No two of the shards overlap. -/
def Apart (l : List Shard) : Prop := l.Pairwise (fun a b => ¬ a.le b ∧ ¬ b.le a)

/-- A shard's identifier has at most 60 bits. -/
def Valid (l : List Shard) : Prop := ∀ s ∈ l, s.path.length ≤ 60

/-- The set of shards after an action: it must be possible. -/
inductive Does : (Shard → Prop) → Action → (Shard → Prop) → Prop
  | add (S : Shard → Prop) (s : Shard) : Does S (.add s) (fun x => S x ∨ x = s)
  | split (S : Shard → Prop) (s : Shard) : S s → s.path.length < 60 →
      Does S (.split s) (fun x => (S x ∧ x ≠ s) ∨ x = ⟨s.wc, s.path ++ [false]⟩ ∨ x = ⟨s.wc, s.path ++ [true]⟩)

/-- And after a list of them. -/
inductive DoesAll : (Shard → Prop) → List Action → (Shard → Prop) → Prop
  | nil (S : Shard → Prop) : DoesAll S [] S
  | cons (S T U : Shard → Prop) (a : Action) (l : List Action) : Does S a T → DoesAll T l U → DoesAll S (a :: l) U

end Tycho.SplitMerge
