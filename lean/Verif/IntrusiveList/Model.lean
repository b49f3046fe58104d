/-!
# The intrusive list (`util/src/util/linked_list.rs`)

Nodes are addresses; `Heap` is the content of their `Pointers`. Several lists share one heap. `none` as the outcome of an operation
is a failed assertion.
-/
namespace Tycho.IntrusiveList

abbrev Ptr := Nat

/-- `PointersInner` (linked_list.rs:201-206). -/
structure Links where
  prev : Option Ptr
  next : Option Ptr
  deriving DecidableEq, Repr

abbrev Heap := Ptr → Links

/-- `LinkedList` (linked_list.rs:8-17). -/
structure LList where
  head : Option Ptr
  tail : Option Ptr
  deriving DecidableEq, Repr

/-- `LinkedList::new` (linked_list.rs:23-29). -/
def new : LList := ⟨none, none⟩

/-- `set_prev` (linked_list.rs:181-188). -/
def setPrev (h : Heap) (p : Ptr) (v : Option Ptr) : Heap := fun q => if q = p then { h q with prev := v } else h q

/-- `set_next` (linked_list.rs:189-197). -/
def setNext (h : Heap) (p : Ptr) (v : Option Ptr) : Heap := fun q => if q = p then { h q with next := v } else h q

/-- linked_list.rs:41-43: the old head points back to the new one. -/
def linkHead (h : Heap) (head : Option Ptr) (p : Ptr) : Heap := match head with
  | some q => setPrev h q (some p)
  | none => h

/-- `push_front` (linked_list.rs:34-52). -/
def pushFront (h : Heap) (l : LList) (p : Ptr) : Option (Heap × LList) :=
  if l.head = some p then none
  else some (linkHead (setPrev (setNext h p l.head) p none) l.head p,
    { head := some p, tail := if l.tail.isNone then some p else l.tail })

/-- linked_list.rs:61-65. -/
def unlinkLast (h : Heap) (l : LList) (prev : Option Ptr) : Heap × LList := match prev with
  | some q => (setNext h q none, l)
  | none => (h, { l with head := none })

/-- `pop_back` (linked_list.rs:56-73). -/
def popBack (h : Heap) (l : LList) : (Heap × LList) × Option Ptr := match l.tail with
  | none => ((h, l), none)
  | some last =>
    let r := unlinkLast h { l with tail := (h last).prev } (h last).prev
    ((setNext (setPrev r.1 last none) last none, r.2), some last)

/-- The first half of `remove` (linked_list.rs:87-98); `some none`: returns `None`. -/
def removePrev (h : Heap) (l : LList) (p : Ptr) : Option (Option (Heap × LList)) := match (h p).prev with
  | some q => if (h q).next = some p then some (some (setNext h q (h p).next, l)) else none
  | none => if l.head ≠ some p then some none else some (some (h, { l with head := (h p).next }))

/-- The second half (linked_list.rs:100-112). -/
def removeNext (h : Heap) (l : LList) (p : Ptr) : Option (Option (Heap × LList)) := match (h p).next with
  | some q => if (h q).prev = some p then some (some (setPrev h q (h p).prev, l)) else none
  | none => if l.tail ≠ some p then some none else some (some (h, { l with tail := (h p).prev }))

/-- `remove` (linked_list.rs:85-118). A return of `None` from the second half leaves what the first has done. -/
def remove (h : Heap) (l : LList) (p : Ptr) : Option ((Heap × LList) × Option Ptr) := match removePrev h l p with
  | none => none
  | some none => some ((h, l), none)
  | some (some (h1, l1)) => match removeNext h1 l1 p with
    | none => none
    | some none => some ((h1, l1), none)
    | some (some (h2, l2)) => some ((setPrev (setNext h2 p none) p none, l2), some p)

/-- `last` (linked_list.rs:120-123). -/
def last (l : LList) : Option Ptr := l.tail

/-! ### Several lists -/

inductive Op
  | push (l : Nat) (p : Ptr)
  | pop (l : Nat)
  | remove (l : Nat) (p : Ptr)
  | last (l : Nat)

structure State where
  heap : Heap
  lists : Nat → LList

/-- No node is linked, all lists are new. -/
def init : State := ⟨fun _ => ⟨none, none⟩, fun _ => new⟩

def setList (f : Nat → LList) (l : Nat) (v : LList) : Nat → LList := fun m => if m = l then v else f m

/-- One call: the new state and what is returned; `none`: an assertion failed. -/
def step (s : State) : Op → Option (State × Option Ptr)
  | .push l p => (pushFront s.heap (s.lists l) p).map (fun r => (⟨r.1, setList s.lists l r.2⟩, none))
  | .pop l => some (⟨(popBack s.heap (s.lists l)).1.1, setList s.lists l (popBack s.heap (s.lists l)).1.2⟩, (popBack s.heap (s.lists l)).2)
  | .remove l p => (remove s.heap (s.lists l) p).map (fun r => (⟨r.1.1, setList s.lists l r.1.2⟩, r.2))
  | .last l => some (s, last (s.lists l))

def run (s : State) : List Op → Option (State × List (Option Ptr))
  | [] => some (s, [])
  | op :: ops => (step s op).bind (fun r => (run r.1 ops).map (fun t => (t.1, r.2 :: t.2)))

end Tycho.IntrusiveList
