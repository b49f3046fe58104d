/-!
Model of `consensus/src/models/cert.rs`: certificates of points that spread over the dependencies of a certified point,
with several threads at once.

A cert is a number; it stands for the digest too, so different certs have different digests. The 16-bit word of a cert is
a record here (`Word.lean` shows that the bit operations of the code act on the packed word as these functions act on the
record). Every atomic operation on the word of a cert is a step; what a traversal has yet to do is its state (`Task`), and
steps of all traversals interleave in any order. A strong reference in a queue of a traversal keeps a cert alive.
Simplification: capacities of the reused maps (cert.rs:119-125) are not represented; memory ordering is that of
sequentially consistent steps.
-/
namespace Tycho.Cert

/-- The word of `CertInner`: the height and the flags, cert.rs:143-148, 150-159. `completed` stands for the second bit of
`INIT_COMPLETED`. -/
structure Word where
  height : Nat
  top : Bool
  started : Bool
  completed : Bool
  committed : Bool
deriving DecidableEq, Repr

/-- `CertDirectDeps`, cert.rs:64-68. The `witness` of a `CertDirectRefs` that is `None` is an empty list. -/
structure Deps where
  includes : List Nat
  witness : List Nat
deriving DecidableEq, Repr

/-- `CertInner`, cert.rs:150-161. -/
structure Node where
  word : Word
  deps : Deps

/-- `CertInner::default`, cert.rs:165-172. -/
def Node.init : Node := ⟨⟨0, false, false, false, false⟩, ⟨[], []⟩⟩

/-- The deps once they are published. -/
def Node.known (n : Node) : Option Deps := if n.word.completed then some n.deps else none

/-- `max_height_published`, cert.rs:231-245: whether the greater height was stored. -/
def Word.raise (w : Word) (h : Nat) (top : Bool) : Option Word :=
  if h > w.height then some { w with height := h, top := w.top || top } else none

/-- The deps to go on with: `includes` above height 1, `witness` above height 2 (cert.rs:200-206, 217-224). -/
def Deps.refs (d : Deps) (h : Nat) : Deps := ⟨d.includes, if h > 2 then d.witness else []⟩

/-- `certify_deeper`, cert.rs:215-229. -/
def Node.deeper (n : Node) (h : Nat) (top : Bool) : Node × Option Deps :=
  match n.word.raise h top with
  | none => (n, none)
  | some w => ({ n with word := w }, if n.word.completed && decide (h > 1) then some (n.deps.refs h) else none)

/-- What a traversal has yet to do (`traverse_certify`, cert.rs:76-127). `direct`: the direct `includes` are certified at
`h` and fill two of the maps (84-96), then the direct `witness` goes to the first map (97-99). `loop`: the first map is
processed at `h` (103-117). -/
inductive Task where
  | direct (h : Nat) (incs wit cur incl : List Nat)
  | loop (h : Nat) (cur incl wit : List Nat)
  | done
deriving DecidableEq, Repr

/-- All certs, which of them can still be reached, and the traversals. -/
structure St where
  nodes : Nat → Node
  alive : Nat → Bool
  tasks : List Task

/-- The start. -/
def St.init : St := ⟨fun _ => Node.init, fun _ => true, []⟩

/-- `extend_next`, cert.rs:129-140. -/
def St.extend (s : St) (dst src : List Nat) : List Nat :=
  src.foldl (fun acc i => if i ∈ acc then acc else if s.alive i then acc ++ [i] else acc) dst

/-- Change of a node. -/
def St.edit (s : St) (i : Nat) (n : Node) : St := { s with nodes := fun j => if j = i then n else s.nodes j }

/-- The start of `traverse_certify`, cert.rs:76-79. -/
def St.spawn (s : St) (h : Nat) (d : Deps) : St :=
  if h = 0 then s else { s with tasks := s.tasks ++ [.direct h d.includes d.witness [] []] }

/-- `certify`, cert.rs:46-53; `depth` is `commit_history_rounds`. -/
def St.certify (depth : Nat) (s : St) (i : Nat) : St :=
  match (s.nodes i).deeper (depth + 1) true with
  | (n, some d) => (s.edit i n).spawn depth d
  | (n, none) => s.edit i n

/-- The first part of `set_deps`, cert.rs:188-190; `false` is the panic. -/
def St.setStart (s : St) (i : Nat) : St × Bool :=
  let w := (s.nodes i).word
  (s.edit i { s.nodes i with word := { w with started := true } }, !w.started)

/-- The second part of `set_deps`, cert.rs:192-211, 40-44, of a call that passed the first part. -/
def St.setFinish (s : St) (i : Nat) (d : Deps) : St :=
  let w := (s.nodes i).word
  if w.started && !w.completed then
    let s2 := s.edit i ⟨{ w with completed := true }, d⟩
    if w.height > 1 then s2.spawn (w.height - 1) (d.refs w.height) else s2
  else s

/-- `set_committed`, cert.rs:175-179; `false` is a panic. -/
def St.commit (s : St) (i : Nat) : St × Bool :=
  let w := (s.nodes i).word
  (s.edit i { s.nodes i with word := { w with committed := true } }, decide (w.height ≠ 0) && !w.committed)

/-- The certs a traversal keeps alive. -/
def Task.holds : Task → List Nat
  | .direct _ _ _ cur incl => cur ++ incl
  | .loop _ cur incl wit => cur ++ incl ++ wit
  | .done => []

/-- The last reference from outside is dropped; a cert in a queue stays. -/
def St.drop (s : St) (i : Nat) : St :=
  if s.tasks.any (fun t => t.holds.contains i) then s else { s with alive := fun j => if j = i then false else s.alive j }

/-- One step of a traversal; `pick` chooses the next cert of the first map (the order of a drained hash map). -/
def St.stepTask (s : St) (t : Task) (pick : Nat) : St × Task := match t with
  | .direct h (i :: incs) wit cur incl =>
    if s.alive i then
      match (s.nodes i).deeper h false with
      | (n, some d) => (s.edit i n, .direct h incs wit (s.extend cur d.includes) (s.extend incl d.witness))
      | (n, none) => (s.edit i n, .direct h incs wit cur incl)
    else (s, .direct h incs wit cur incl)
  | .direct h [] wit cur incl => (s, .loop (h - 1) (s.extend cur wit) incl [])
  | .loop h cur incl wit =>
    if h = 0 ∨ (cur = [] ∧ incl = [] ∧ wit = []) then (s, .done)
    else match cur[pick]? with
      | some i =>
        match (s.nodes i).deeper h false with
        | (n, some d) => (s.edit i n, .loop h (cur.eraseIdx pick) (s.extend incl d.includes) (s.extend wit d.witness))
        | (n, none) => (s.edit i n, .loop h (cur.eraseIdx pick) incl wit)
      | none => if cur = [] then (s, .loop (h - 1) incl wit []) else (s, .loop h cur incl wit)
  | .done => (s, .done)

/-- One step of everything. -/
inductive Op where
  | certify (i : Nat)
  | setStart (i : Nat)
  | setFinish (i : Nat) (d : Deps)
  | commit (i : Nat)
  | drop (i : Nat)
  | task (k pick : Nat)
deriving DecidableEq, Repr

/-- The effect of a step. -/
def step (depth : Nat) (s : St) : Op → St
  | .certify i => s.certify depth i
  | .setStart i => (s.setStart i).1
  | .setFinish i d => s.setFinish i d
  | .commit i => (s.commit i).1
  | .drop i => s.drop i
  | .task k pick => match s.tasks[k]? with
    | some t => { (s.stepTask t pick).1 with tasks := s.tasks.set k (s.stepTask t pick).2 }
    | none => s

/-- A history. -/
def run (depth : Nat) (ops : List Op) : St := ops.foldl (step depth) St.init

/-- `is_certified`, cert.rs:29-31, 187-190. -/
def St.isCertified (s : St) (i : Nat) : Bool := decide ((s.nodes i).word.height ≠ 0)

/-- `has_proof`, cert.rs:33-35. -/
def St.hasProof (s : St) (i : Nat) : Bool := decide ((s.nodes i).word.height ≠ 0) && (s.nodes i).word.top

/-- `is_committed`, cert.rs:25-27. -/
def St.isCommitted (s : St) (i : Nat) : Bool := (s.nodes i).word.committed

end Tycho.Cert
