import Verif.BlockProof.Model

/-!
Specification side of C17.
-/
namespace Tycho.BlockProof

/-- Weight of the validators at the positions `S` of the list `vs`. -/
def weightAt (vs : List Validator) (S : Finset (Fin vs.length)) : Nat := ∑ i ∈ S, vs[i].weight

/-- Weight of the whole list. -/
def weightAll (vs : List Validator) : Nat := (vs.map Validator.weight).sum

/-- What is assumed of the external signature check: the weight it returns is the weight of distinct
validators (positions) of the list, each of which signed that block id. `Signed v id`: the holder of
`v`'s key signed `id`. -/
def SoundSignatureCheck {Sig : Type} (ext : Ext Sig) (Signed : Validator → BlockId → Prop) : Prop :=
  ∀ vs sigs id w, ext.checkSignatures vs sigs id = some w →
    ∃ S : Finset (Fin vs.length), (∀ i ∈ S, Signed vs[i] id) ∧ w = weightAt vs S

/-- The validators at positions `S` signed `id` and hold more than two thirds of the weight. -/
def Quorum (Signed : Validator → BlockId → Prop) (vs : List Validator) (id : BlockId)
    (S : Finset (Fin vs.length)) : Prop :=
  (∀ i ∈ S, Signed vs[i] id) ∧ 2 * weightAll vs < 3 * weightAt vs S

end Tycho.BlockProof
