import Verif.Journal.Model

/-! ## What the journal has to do -/
namespace Tycho.Journal
open Tycho.Merge Tycho.Table

/-- The event refers to the point. -/
def Item.mentions (it : Item) (k : PKey) : Bool := decide (k ∈ it.keys ∨ k ∈ it.points.map (·.1))

/-- The number of references to a point in the stored records that are marked as stored. -/
def refs (db : Db) (k : PKey) : Nat := (db.journal.flatMap (·.2)).count (k, true)

/-- The bytes of a point are determined by its key (`pay`), its digest being a hash; events have new keys; the number of references
fits `u32`. -/
structure StoreOk (pay : PKey → Bytes) (db : Db) (items : List Item) (main : PKey → Option Bytes) : Prop where
  data : ∀ it ∈ items, ∀ p ∈ it.points, p.2 = pay p.1
  distinct : ∀ it ∈ items, (it.points.map (·.1)).Nodup
  main : ∀ k q, main k = some q → q = pay k
  keys : ((items.filter (·.store)).map (·.key)).Nodup
  fresh : ∀ it ∈ items, it.store = true → get db.journal it.key = none
  fits : ∀ k, refs db k + (items.filter (fun it => it.store && it.mentions k)).length < 2 ^ 32

def OpOk (i : JIds) (pay : PKey → Bytes) (db : Db) : Op → Prop
  | .store items main => StoreOk pay db items main
  | .clean _ _ => True
  | .compact k ops => ∃ ops0, get db.points k = some ops0 ∧ Regroup (mergeJ i) ops0 ops

/-- Each operation is as it should be in the state it is called in. -/
def RunOk (i : JIds) (pay : PKey → Bytes) (db : Db) : List Op → Prop
  | [] => True
  | op :: l => OpOk i pay db op ∧ ∀ db', step i db op = some db' → RunOk i pay db' l

end Tycho.Journal
