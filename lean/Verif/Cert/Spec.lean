import Verif.Cert.Model
/-! Specification: paths over the known dependencies, with the number of rounds they go down. -/
namespace Tycho.Cert

/-- A path from `p` down to `q` over known dependencies that satisfy `ok`; an include is one round below, a witness two. -/
inductive Path (known : Nat → Option Deps) (ok : Nat → Prop) (p : Nat) : Nat → Nat → Prop where
  | here : Path known ok p p 0
  | inc {q r c : Nat} {d : Deps} : Path known ok p q c → known q = some d → r ∈ d.includes → ok r →
      Path known ok p r (c + 1)
  | wit {q r c : Nat} {d : Deps} : Path known ok p q c → known q = some d → r ∈ d.witness → ok r →
      Path known ok p r (c + 2)

/-- The dependencies known in a state. -/
def St.known (s : St) (i : Nat) : Option Deps := (s.nodes i).known

/-- The height of a cert. -/
def St.height (s : St) (i : Nat) : Nat := (s.nodes i).word.height

/-- All traversals are over. -/
def St.Quiet (s : St) : Prop := ∀ t ∈ s.tasks, t = .done

end Tycho.Cert
