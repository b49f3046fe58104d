import Verif.StateFile.Write
/-! What is in a file of cells, and in a table of rows. -/
namespace Tycho.StateFile
open Tycho.Bytes Tycho.Codec Tycho.Table

/-- All of a list, or nothing. -/
def allSome {α : Type} : List (Option α) → Option (List α)
  | [] => some []
  | x :: xs => match x, allSome xs with
    | some a, some as => some (a :: as)
    | _, _ => none

variable (H : Hasher)

/-- The header of a file, and the bytes of its cells in order. -/
def fileCells (file : List Nat) : Option (Header × List (List Nat)) :=
  match readHeader file with
  | none => none
  | some (hd, r) => (rdMany (readCell H hd.refSize) hd.cellCount r).map (fun p => (hd, p.1))

/-- The cell at an index: content, entries of the children, entry. `n` bounds the depth. -/
def entryAt (refSize : Nat) (cs : List (List Nat)) : Nat → Nat → Option (Body × List H.Entry × H.Entry)
  | 0, _ => none
  | n + 1, i => match (cs[i]?).bind (parseCell refSize cs.length i) with
    | none => none
    | some (b, refs) => match allSome (refs.map (fun r => (entryAt refSize cs n r).map (·.2.2))) with
      | none => none
      | some es => (H.build b es).map (fun e => (b, es, e))

/-- The cells of a file. -/
def CellIn (refSize : Nat) (cs : List (List Nat)) (i : Nat) (b : Body) (es : List H.Entry) (e : H.Entry) : Prop :=
  entryAt H refSize cs cs.length i = some (b, es, e)

/-- No cell of the one file has the hash of a different cell of the other: the same hash means the same content (up to the flag of
stored hashes) and children with the same hashes. -/
def NoCollision (rs1 : Nat) (cs1 : List (List Nat)) (rs2 : Nat) (cs2 : List (List Nat)) : Prop := ∀ i b es e j b' es' e',
  CellIn H rs1 cs1 i b es e → CellIn H rs2 cs2 j b' es' e' → H.repr e = H.repr e' → b.clear = b'.clear ∧ es.map H.repr = es'.map H.repr

/-- The cells in the rows. -/
def cellOf (rows : Table Nat (List Nat)) (h : Nat) : Option (Body × List Nat) := (get rows h).bind (loadTemp H)

/-- The cells in the database, as the writer reads them. -/
def dbCell (db : Nat → Option (List Nat)) (h : Nat) : Option (Body × List Nat) := (db h).bind (deserialize H)

end Tycho.StateFile
