import Verif.Bans.Model
/-!
What the journal says: who is banned, and when an event leads to a ban.
-/
namespace Tycho.Bans

/-- The keys of the events of a kind of a peer, in the order of the journal. -/
def eventsOf (j : List Rec) (p tag : Nat) : List Key :=
  (j.filter (fun r => decide (r.peer = p ∧ r.kind = .event tag))).map (·.key)

/-- The effect of a record on the ban of a peer: the longest ban since it was last lifted; a ban that was over at time `st`
does not count. -/
def banStep (st p : Nat) (acc : Option Nat) (r : Rec) : Option Nat :=
  if r.peer = p then
    match r.kind with
    | .banned u => if st < u then some (max (acc.getD 0) u) else acc
    | .unbanned => none
    | .event _ => acc
  else acc

/-- The ban of a peer by a journal. -/
def banNow (st : Nat) (j : List Rec) (p : Nat) : Option Nat := j.foldl (banStep st p) none

/-- The events (the last is at time `t`) are more than are tolerated: those of the window that ends at `t`. -/
def tooMany (c : Conf) (es : List Key) (t : Nat) : Prop :=
  ∀ w n, c.tol = some (w, n) → n < (es.filter (fun k => decide (t - w ≤ k.1))).length

end Tycho.Bans
