/-!
Model of `util/src/transactional/`.

Simplifications: maps are partial functions `K → Option V` (no capacity, no iteration order);
`debug_assert!` lines are not modelled; `inner_mut` of the B-tree map, documented in the code as
bypassing transaction tracking, is left out.
-/
namespace Tycho.Transactional

/-- util/src/transactional/mod.rs:8-13 `trait Transactional`. -/
class Tx (T : Type) where
  begin : T → T
  commit : T → T
  rollback : T → T
  inTx : T → Bool

/-! ### TransactionalValue -/

/-- util/src/transactional/value.rs:5-8 `struct TransactionalValue`. -/
structure TValue (α : Type) where
  value : α
  snapshot : Option α

/-- util/src/transactional/value.rs:11-16 `TransactionalValue::new`. -/
def TValue.new {α : Type} (a : α) : TValue α := { value := a, snapshot := none }

/-- util/src/transactional/value.rs:26-30, 50-54 `deref_mut` / `as_mut`: the caller gets `&mut T`,
so any function of the value may be applied. -/
def TValue.modify {α : Type} (f : α → α) (t : TValue α) : TValue α :=
  { t with value := f t.value }

/-- util/src/transactional/value.rs:56-75 `impl Transactional for TransactionalValue`. -/
instance {α : Type} : Tx (TValue α) where
  begin t := { t with snapshot := some t.value }
  commit t := { t with snapshot := none }
  rollback t := match t.snapshot with
    | some s => { value := s, snapshot := none }
    | none => t
  inTx t := t.snapshot.isSome

/-! ### TransactionalOption -/

/-- util/src/transactional/option.rs:3-7 `struct TransactionalOption`. -/
structure TOption (T : Type) where
  value : Option T
  snapshot : Option (Option T)

/-- util/src/transactional/option.rs:10-15 `TransactionalOption::new`. -/
def TOption.new {T : Type} (v : Option T) : TOption T := { value := v, snapshot := none }

/-- util/src/transactional/option.rs:40-42 `tx_active`. -/
def TOption.txActive {T : Type} [Tx T] (t : TOption T) : Bool :=
  (match t.value with | some v => Tx.inTx v | none => false) || t.snapshot.isSome

/-- util/src/transactional/option.rs:25-30 `set`. -/
def TOption.set {T : Type} [Tx T] (new : Option T) (t : TOption T) : TOption T :=
  let t := if t.snapshot.isNone && t.txActive then
      { value := none, snapshot := some t.value } else t
  { t with value := new }

/-- util/src/transactional/option.rs:21-23 `inner_mut`: in-place mutation of the stored value. -/
def TOption.mutate {T : Type} (f : T → T) (t : TOption T) : TOption T :=
  { t with value := t.value.map f }

/-- util/src/transactional/option.rs:45-79 `impl Transactional for TransactionalOption`. -/
instance {T : Type} [Tx T] : Tx (TOption T) where
  begin t := match t.value with
    | some v => { t with value := some (Tx.begin v) }
    | none => { t with snapshot := some none }
  commit t :=
    { value := t.value.map (fun v => if Tx.inTx v then Tx.commit v else v), snapshot := none }
  rollback t :=
    let t : TOption T := match t.snapshot with
      | some s => { value := s, snapshot := none }
      | none => t
    { t with value := t.value.map (fun v => if Tx.inTx v then Tx.rollback v else v) }
  inTx t := t.txActive

/-! ### TransactionalBTreeMap and TransactionalHashMap (same code) -/

/-- util/src/transactional/btreemap.rs:12-15, hashmap.rs:11-14 `struct MapTx`. -/
structure MapTx (K V : Type) where
  added : K → Bool
  removed : K → Option V

/-- util/src/transactional/btreemap.rs:7-10, hashmap.rs:6-9. -/
structure TMap (K V : Type) where
  inner : K → Option V
  tx : Option (MapTx K V)

/-- Function update, used for map insert / remove. -/
def upd {K X : Type} [DecidableEq K] (f : K → X) (k : K) (x : X) : K → X :=
  fun k' => if k' = k then x else f k'

/-- util/src/transactional/btreemap.rs:132-136 `From<BTreeMap>`. -/
def TMap.new {K V : Type} (m : K → Option V) : TMap K V := { inner := m, tx := none }

/-- util/src/transactional/btreemap.rs:25-46, hashmap.rs:24-45 `insert` (new state). -/
def TMap.insert {K V : Type} [DecidableEq K] (k : K) (v : V) (m : TMap K V) : TMap K V :=
  let old := m.inner k
  let inner := upd m.inner k (some v)
  match m.tx with
  | some tx =>
    match old with
    | some oldV =>
      if !tx.added k && (tx.removed k).isNone then
        { inner := inner, tx := some { tx with removed := upd tx.removed k (some oldV) } }
      else { inner := inner, tx := some tx }
    | none =>
      if (tx.removed k).isNone then
        { inner := inner, tx := some { tx with added := upd tx.added k true } }
      else { inner := inner, tx := some tx }
  | none => { inner := inner, tx := none }

/-- util/src/transactional/btreemap.rs:25-46 `insert` (returned boolean: was the key present). -/
def TMap.insertResult {K V : Type} (k : K) (m : TMap K V) : Bool := (m.inner k).isSome

/-- util/src/transactional/btreemap.rs:48-61, hashmap.rs:47-60 `remove` (new state). -/
def TMap.remove {K V : Type} [DecidableEq K] (k : K) (m : TMap K V) : TMap K V :=
  match m.inner k with
  | none => m
  | some value =>
    let inner := upd m.inner k none
    match m.tx with
    | some tx =>
      if tx.added k then
        { inner := inner, tx := some { tx with added := upd tx.added k false } }
      else if (tx.removed k).isNone then
        { inner := inner, tx := some { tx with removed := upd tx.removed k (some value) } }
      else { inner := inner, tx := some tx }
    | none => { inner := inner, tx := none }

/-- util/src/transactional/btreemap.rs:82-84 `get_mut` followed by a mutation of the value. -/
def TMap.mutate {K V : Type} [DecidableEq K] (k : K) (f : V → V) (m : TMap K V) : TMap K V :=
  { m with inner := upd m.inner k ((m.inner k).map f) }

/-- util/src/transactional/btreemap.rs:98-100, 106-108 `iter_mut` / `values_mut`: a mutation of
every stored value, chosen per key. -/
def TMap.mutateAll {K V : Type} (f : K → V → V) (m : TMap K V) : TMap K V :=
  { m with inner := fun k => (m.inner k).map (f k) }

/-- util/src/transactional/btreemap.rs:63-76 `retain`: the callback mutates every value (`f`) and
answers whether to keep it (`keep`); the rejected keys (listed in `toRemove`) are then removed one
by one. The callback's answers are a parameter; `toRemove` is the collected list of rejected keys. -/
def TMap.retain {K V : Type} [DecidableEq K] (f : K → V → V) (toRemove : List K)
    (m : TMap K V) : TMap K V :=
  toRemove.foldl (fun m k => m.remove k) (m.mutateAll f)

/-- util/src/transactional/btreemap.rs:138-178, hashmap.rs:115-155 `impl Transactional`. -/
instance {K V : Type} [Tx V] : Tx (TMap K V) where
  begin m :=
    { inner := fun k => (m.inner k).map Tx.begin,
      tx := some { added := fun _ => false, removed := fun _ => none } }
  commit m :=
    { inner := fun k => (m.inner k).map (fun v => if Tx.inTx v then Tx.commit v else v),
      tx := none }
  rollback m :=
    let m : TMap K V := match m.tx with
      | some tx =>
        { inner := fun k =>
            -- first all `added` keys are removed, then all `removed` pairs are inserted
            match tx.removed k with
            | some v => some v
            | none => if tx.added k then none else m.inner k,
          tx := none }
      | none => m
    { m with inner := fun k => (m.inner k).map (fun v => if Tx.inTx v then Tx.rollback v else v) }
  inTx m := m.tx.isSome

/-! ### derived structs -/

/-- util-proc/src/derive_transactional.rs:35-62: a struct whose transactional fields are `fst` and
`snd`; structs with more fields are nested pairs. `#[tx(skip)]` fields are not part of the
transaction at all (no generated method mentions them) and are left out. -/
structure TPair (A B : Type) where
  fst : A
  snd : B

/-- util-proc/src/derive_transactional.rs:35-62, generated `begin` / `commit` / `rollback` call the
method on every field; `in_tx` is the disjunction over the fields. -/
instance {A B : Type} [Tx A] [Tx B] : Tx (TPair A B) where
  begin p := ⟨Tx.begin p.fst, Tx.begin p.snd⟩
  commit p := ⟨Tx.commit p.fst, Tx.commit p.snd⟩
  rollback p := ⟨Tx.rollback p.fst, Tx.rollback p.snd⟩
  inTx p := Tx.inTx p.fst || Tx.inTx p.snd

/-- util/src/transactional/mod.rs:17-43 `TransactionGuard`: `new` begins, `commit` commits, dropping
an uncommitted guard rolls back. `body` is everything done through the guard in between. -/
def withGuard {T : Type} [Tx T] (commits : Bool) (body : T → T) (t : T) : T :=
  let t := body (Tx.begin t)
  if commits then Tx.commit t else Tx.rollback t

end Tycho.Transactional
