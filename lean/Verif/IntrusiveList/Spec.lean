import Verif.IntrusiveList.Model

/-! ## Plain lists, front first -/
namespace Tycho.IntrusiveList

/-- The lists as lists. -/
abbrev Lists := Nat → List Ptr

def Lists.set (f : Lists) (l : Nat) (v : List Ptr) : Lists := fun m => if m = l then v else f m

/-- What an operation does to plain lists, and what it returns. -/
def specStep (f : Lists) : Op → Lists × Option Ptr
  | .push l p => (f.set l (p :: f l), none)
  | .pop l => (f.set l (f l).dropLast, (f l).getLast?)
  | .remove l p => (f.set l ((f l).erase p), if p ∈ f l then some p else none)
  | .last l => (f, (f l).getLast?)

def specRun (f : Lists) : List Op → Lists × List (Option Ptr)
  | [] => (f, [])
  | op :: ops => ((specRun (specStep f op).1 ops).1, (specStep f op).2 :: (specRun (specStep f op).1 ops).2)

/-- The contract of the callers (linked_list.rs:75-84): a pushed node is in no list, a removed one is in this list or in none. -/
def Contract (f : Lists) : Op → Prop
  | .push _ p => ∀ m, p ∉ f m
  | .remove l p => p ∈ f l ∨ ∀ m, p ∉ f m
  | _ => True

def RunOk (f : Lists) : List Op → Prop
  | [] => True
  | op :: ops => Contract f op ∧ RunOk (specStep f op).1 ops

end Tycho.IntrusiveList
