import Verif.AnchorCache.Model
/-!
What readers of the cache of anchors have to be told, said about the visible anchors only.
-/
namespace Tycho.AnchorCache

/-- Anchors in the order of ids. -/
def Ordered (l : List Anchor) : Prop := l.Pairwise (fun a b => a.id < b.id)

/-- Anchors that readers may see: those not after the one the cache is closed at. -/
def Cache.visible (c : Cache) : List Anchor :=
  match c.off with
  | none => c.anchors
  | some x => c.anchors.filter (fun a => decide (a.id ≤ x))

/-- By id: the anchor; or nothing, if there is a later one; otherwise it may still come. -/
def specById (vis : List Anchor) (id : Nat) : Answer :=
  match find vis id with
  | some a => .some a
  | none => if vis.any (fun a => decide (id < a.id)) then .none else .wait

/-- Whether the first link of an anchor is missing or leads to `prev`. -/
def Anchor.follows (a : Anchor) (prev : Nat) : Bool := decide (a.prev = none) || decide (a.prev = some prev)

/-- The kind of the error of a wrong link. -/
def linkError (a : Anchor) (prev : Nat) : Err :=
  match a.prev with
  | some p => if prev < p then .gap else .unexpected
  | none => .gap

/-- The next one: the first after `prev`, if `prev` is known and is linked from it. If `prev` is not known, but older
ones are, it never existed: nothing. If `prev` is older than all, the first one is the answer if it starts a history
(an error if `prev` should be there but is not). -/
def specNext (vis : List Anchor) (prev : Nat) : Answer :=
  match vis.find? (fun a => decide (prev < a.id)) with
  | none => .wait
  | some n =>
    if vis.any (fun a => decide (a.id = prev)) then
      if n.follows prev then .some n else .err (linkError n prev)
    else if vis.any (fun a => decide (a.id < prev)) then .none
    else if n.prev = none then .some n
    else if n.prev = some prev then .err .firstRemoved
    else .none

/-- The answer for a request. -/
def specAnswer (vis : List Anchor) : Req → Answer
  | .byId id => specById vis id
  | .next prev => specNext vis prev

end Tycho.AnchorCache
