import Verif.Broadcaster.Model

/-! Words for the properties of the broadcaster, independent of how its steps work. -/
namespace Tycho.Broadcaster
open Tycho.Table

/-- Queries to `p` that have no answer yet. -/
def St.pending (s : St) (p : Nat) : Nat := s.bcasts.count p + (s.sigReqs.map (·.1)).count p

/-- A signature of `p` was taken: it is held or was given out as evidence. -/
def St.signed (s : St) (p : Nat) : Prop :=
  p ∈ s.sigs.map (·.1) ∨ ∃ ev, s.evidence = some ev ∧ p ∈ ev.map (·.1)

/-- The point was sent to `p`. -/
def St.told (s : St) (p : Nat) : Prop := Msg.bcast p ∈ s.sent

/-- A set of signatures of distinct signers, each valid. -/
def GoodEvidence (c : Cfg) (ev : Table Nat Nat) : Prop :=
  (ev.map (·.1)).Nodup ∧ ∀ p x, (p, x) ∈ ev → p ∈ c.signers ∧ c.valid p x = true

/-- How many queries an event lets be sent to `p`, counting those that follow from its answers:
three for each new attempt (a request, the point, a request again), two for a broadcast. -/
def allowance (p : Nat) : Ev → Nat
  | .start => 2
  | .cont => 2
  | .status a => if a = 1 then 0 else 3
  | .tick => 3
  | .resolved q => if q = p then 2 else 0
  | _ => 0

/-- The answer `e` is one for which `p` counts as refusing to sign. -/
def Refusal (c : Cfg) (p : Nat) (e : Ev) : Prop :=
  e = .bcastDone p .tlError ∨ (∃ a, e = .sigDone p a .tlError) ∨
  (p ∈ c.signers ∧ ∃ a, e = .sigDone p a .rejected ∨
    ∃ x, e = .sigDone p a (.signature x) ∧ c.valid p x = false)

end Tycho.Broadcaster
