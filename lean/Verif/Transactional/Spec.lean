import Verif.Transactional.Model

/-!
Specification side for C01: for each container, the plain contents a reader sees, the operations it
offers and what each operation does to plain contents (no bookkeeping is mentioned on the plain side).
-/
namespace Tycho.Transactional

/-- What a transactional type offers to its user besides begin/commit/rollback:
the operations, the plain contents a reader sees, and what each operation does to plain contents. -/
class TxApi (T : Type) extends Tx T where
  /-- plain contents, without any bookkeeping -/
  View : Type
  view : T → View
  Op : Type
  apply : Op → T → T
  /-- effect of the operation on plain contents -/
  applyView : Op → View → View
  /-- no transaction is open here or in anything stored inside -/
  Clean : T → Prop
  /-- values handed to the operation have no open transaction of their own -/
  OpOk : Op → Prop

/-! ### value -/

instance {α : Type} : TxApi (TValue α) where
  View := α
  view t := t.value
  Op := α → α
  apply f t := t.modify f
  applyView f a := f a
  Clean t := t.snapshot = none
  OpOk _ := True

/-! ### option -/

inductive OptOp (T O : Type) where
  | set (new : Option T)
  | mutate (op : O)

instance {T : Type} [TxApi T] : TxApi (TOption T) where
  View := Option (TxApi.View T)
  view t := t.value.map TxApi.view
  Op := OptOp T (TxApi.Op T)
  apply op t := match op with
    | .set new => t.set new
    | .mutate op => t.mutate (TxApi.apply op)
  applyView op v := match op with
    | .set new => new.map TxApi.view
    | .mutate op => v.map (TxApi.applyView op)
  Clean t := t.snapshot = none ∧ ∀ v, t.value = some v → TxApi.Clean v
  OpOk op := match op with
    | .set new => ∀ v, new = some v → TxApi.Clean v
    | .mutate op => TxApi.OpOk op

/-! ### map -/

inductive MapOp (K V O : Type) where
  | insert (k : K) (v : V)
  | remove (k : K)
  | mutate (k : K) (op : O)
  | mutateAll (f : K → O)
  | retain (f : K → O) (toRemove : List K)

instance {K V : Type} [DecidableEq K] [TxApi V] : TxApi (TMap K V) where
  View := K → Option (TxApi.View V)
  view m := fun k => (m.inner k).map TxApi.view
  Op := MapOp K V (TxApi.Op V)
  apply op m := match op with
    | .insert k v => m.insert k v
    | .remove k => m.remove k
    | .mutate k op => m.mutate k (TxApi.apply op)
    | .mutateAll f => m.mutateAll (fun k => TxApi.apply (f k))
    | .retain f ks => m.retain (fun k => TxApi.apply (f k)) ks
  applyView op m := match op with
    | .insert k v => fun k' => if k' = k then some (TxApi.view v) else m k'
    | .remove k => fun k' => if k' = k then none else m k'
    | .mutate k op => fun k' => if k' = k then (m k).map (TxApi.applyView op) else m k'
    | .mutateAll f => fun k => (m k).map (TxApi.applyView (f k))
    | .retain f ks => fun k => if k ∈ ks then none else (m k).map (TxApi.applyView (f k))
  Clean m := m.tx = none ∧ ∀ k v, m.inner k = some v → TxApi.Clean v
  OpOk op := match op with
    | .insert _ v => TxApi.Clean v
    | .remove _ => True
    | .mutate _ op => TxApi.OpOk op
    | .mutateAll f => ∀ k, TxApi.OpOk (f k)
    | .retain f _ => ∀ k, TxApi.OpOk (f k)

/-! ### derived struct -/

instance {A B : Type} [TxApi A] [TxApi B] : TxApi (TPair A B) where
  View := TxApi.View A × TxApi.View B
  view p := (TxApi.view p.fst, TxApi.view p.snd)
  Op := TxApi.Op A ⊕ TxApi.Op B
  apply op p := match op with
    | .inl a => { p with fst := TxApi.apply a p.fst }
    | .inr b => { p with snd := TxApi.apply b p.snd }
  applyView op v := match op with
    | .inl a => (TxApi.applyView a v.1, v.2)
    | .inr b => (v.1, TxApi.applyView b v.2)
  Clean p := TxApi.Clean p.fst ∧ TxApi.Clean p.snd
  OpOk op := match op with
    | .inl a => TxApi.OpOk a
    | .inr b => TxApi.OpOk b

/-- Run a list of operations. -/
def run {T : Type} [TxApi T] (ops : List (TxApi.Op T)) (t : T) : T :=
  ops.foldl (fun t op => TxApi.apply op t) t

def runView {T : Type} [TxApi T] (ops : List (TxApi.Op T)) (v : TxApi.View T) : TxApi.View T :=
  ops.foldl (fun v op => TxApi.applyView op v) v

/-! ### every nesting of the containers -/

/-- A type built from the transactional containers. -/
inductive Shape : Type 1 where
  | value (α : Type)
  | option (s : Shape)
  | map (K : Type) (eq : DecidableEq K) (s : Shape)
  | struct (a b : Shape)

/-- The transactional type a shape denotes. -/
def Shape.Carrier : Shape → Type
  | .value α => TValue α
  | .option s => TOption s.Carrier
  | .map K _ s => TMap K s.Carrier
  | .struct a b => TPair a.Carrier b.Carrier

instance Shape.api : (s : Shape) → TxApi s.Carrier
  | .value α => inferInstanceAs (TxApi (TValue α))
  | .option s => letI := Shape.api s; inferInstanceAs (TxApi (TOption s.Carrier))
  | .map K eq s => letI := Shape.api s; letI := eq; inferInstanceAs (TxApi (TMap K s.Carrier))
  | .struct a b =>
    letI := Shape.api a; letI := Shape.api b
    inferInstanceAs (TxApi (TPair a.Carrier b.Carrier))

end Tycho.Transactional
