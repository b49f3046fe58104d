/-!
Model of how a node decides to sign a point of another author: `consensus/src/dag/dag_location.rs` (`InclusionState`),
`consensus/src/intercom/broadcast/signer.rs`, the life of a point version in `consensus/src/dag/dag_point_future.rs`
(`new_broadcast`, `new_download`, `new_restore`), and restarts (`consensus/src/engine/impl_.rs` `preload_points`).

Everything is about one location: one author and one round (`round`). Versions of the point are named by their digest (`Nat`).
A `OnceLock` is an `Option` that is set once. Every step below is one atomic access that can change a cell; the reads that
come before it in the same call see cells that never change again once set, so a call takes effect at its last access.
Not modelled: the local node's own points (`new_local_valid`), metrics, the threshold counter, signatures as bytes.
-/
namespace Tycho.Signing

/-- dag_location.rs:70-73 `Signable`; `sig`: `none` not decided, `some true` signed, `some false` rejected. -/
structure Signable where
  digest : Nat
  time : Nat
  sig : Option Bool
deriving DecidableEq, Repr

/-- dag_location.rs:58-66 `FirstResolved`; the cell of `valid`: `none` empty, `some none` is `Err(())`. -/
inductive First
  | valid (digest : Nat) (cell : Option (Option Signable))
  | notValid (digest : Nat)
  | closed
deriving DecidableEq, Repr

/-- dag_location.rs:44-56 `InclusionStateInner`. -/
structure Loc where
  resolved : Option First
  valid : Option Nat
deriving DecidableEq, Repr

/-- dag_location.rs:76-82. -/
def Loc.new : Loc := ⟨none, none⟩

/-- How far a version has come: validated but not acquired yet; after the first cell; after both cells; status written. -/
inductive Phase
  | fresh | half | acquired | stored | done
deriving DecidableEq, Repr

/-- A version being processed: whether it was found valid, its time, and the two flags of its in-memory status. -/
structure Task where
  digest : Nat
  isValid : Bool
  time : Nat
  phase : Phase
  firstResolved : Bool
  firstValid : Bool
deriving DecidableEq, Repr

/-- dag_location.rs:97-117 `acquire`, the `resolved` cell with the nested `valid` cell. `none`: panic. -/
def acquire1 (l : Loc) (t : Task) : Option (Loc × Task) :=
  match l.resolved with
  | some _ => some (l, { t with phase := .half })
  | none =>
    if t.isValid then
      match l.valid with
      | none => some (⟨some (.valid t.digest none), some t.digest⟩,
          { t with phase := .half, firstResolved := true, firstValid := true })
      | some v => if v = t.digest then some (⟨some (.valid t.digest none), some v⟩,
          { t with phase := .half, firstResolved := true }) else none
    else some (⟨some (.notValid t.digest), l.valid⟩, { t with phase := .half, firstResolved := true })

/-- dag_location.rs:118-123 `acquire`, the `valid` cell alone. -/
def acquire2 (l : Loc) (t : Task) : Loc × Task :=
  if t.firstResolved = false ∧ t.isValid = true then
    match l.valid with
    | none => (⟨l.resolved, some t.digest⟩, { t with phase := .acquired, firstValid := true })
    | some _ => (l, { t with phase := .acquired })
  else (l, { t with phase := .acquired })

/-- dag_location.rs:217-265 `resolve`, the part about the first resolved. `none`: panic. -/
def resolveFirst (l : Loc) (t : Task) : Option Loc :=
  if t.firstResolved then
    match l.resolved with
    | none => none
    | some (.valid d cell) =>
      if d = t.digest then
        if t.isValid then
          match cell with
          | none => some ⟨some (.valid d (some (some ⟨t.digest, t.time, none⟩))), l.valid⟩
          | some _ => some l
        else none
      else none
    | some (.notValid d) => if d = t.digest ∧ t.isValid = false then some l else none
    | some .closed => some l
  else
    match l.resolved with
    | some (.valid d _) => if d = t.digest then none else some l
    | some (.notValid d) => if d = t.digest then none else some l
    | _ => some l

/-- dag_location.rs:270-300 `resolve`, the checks about the first valid. `false`: panic. -/
def checkValid (l : Loc) (t : Task) : Bool :=
  if t.isValid ∧ t.firstValid then decide (l.valid = some t.digest) else decide (l.valid ≠ some t.digest)

/-- dag_location.rs:217-310 `resolve`. -/
def resolve (l : Loc) (t : Task) : Option (Loc × Task) :=
  match resolveFirst l t with
  | none => none
  | some l' => if checkValid l' t then some (l', { t with phase := .done }) else none

/-- Inputs of one signature request: the current round of the node, whether it has keys, its clock, the allowed skew. -/
structure Ask where
  at_ : Nat
  key : Bool
  now : Nat
  skew : Nat
deriving DecidableEq, Repr

/-- dag_location.rs:363-404 `Signable::sign`: the new decision, `none` to retry later. -/
def decideSig (round : Nat) (s : Signable) (a : Ask) : Option Bool :=
  match s.sig with
  | some r => some r
  | none =>
    if a.key then
      if a.at_ < round then none
      else if a.skew ≤ s.time - a.now then none
      else some (decide (a.at_ - 1 ≤ round))
    else if a.at_ ≤ round then none else some false

/-- dag_location.rs:313-324 `sign`: the answer, and the new cells. -/
def sign (round : Nat) (l : Loc) (a : Ask) : Option Bool × Loc :=
  match l.resolved with
  | none => (none, l)
  | some (.notValid _) => (some false, l)
  | some .closed => (some false, l)
  | some (.valid _ none) => (none, l)
  | some (.valid _ (some none)) => (some false, l)
  | some (.valid d (some (some s))) =>
    (decideSig round s a, ⟨some (.valid d (some (some { s with sig := decideSig round s a }))), l.valid⟩)

/-- dag_location.rs:327-344 `get_or_reject`: no answer that is still open stays open. Returns the digest if it was signed. -/
def getOrReject (l : Loc) : Option Nat × Loc :=
  match l.resolved with
  | none => (none, ⟨some .closed, l.valid⟩)
  | some (.notValid _) => (none, l)
  | some .closed => (none, l)
  | some (.valid d none) => (none, ⟨some (.valid d (some none)), l.valid⟩)
  | some (.valid _ (some none)) => (none, l)
  | some (.valid d (some (some s))) =>
    match s.sig with
    | none => (none, ⟨some (.valid d (some (some { s with sig := some false }))), l.valid⟩)
    | some true => (some s.digest, l)
    | some false => (none, l)

/-- A stored status of a version: storage keeps the kind and the `FirstValid` flag, not the `first_resolved` one. -/
structure Rec where
  digest : Nat
  isValid : Bool
  time : Nat
  firstValid : Bool
deriving DecidableEq, Repr

/-- models/point_status (merge of flags with `|`): write the status of a version. -/
def dbWrite (db : List Rec) (t : Task) : List Rec :=
  ⟨t.digest, t.isValid, t.time, t.firstValid || db.any fun r => decide (r.digest = t.digest) && r.firstValid⟩
    :: db.filter fun r => decide (r.digest ≠ t.digest)

/-- models/point_restore.rs:26-44 `restore_order_asc`: smaller is restored earlier. (The `has_proof` bit only reorders records
of one group: the order inside a group is arbitrary here.) -/
def restoreOrder (r : Rec) : Nat := if r.firstValid then 0 else if r.isValid then 1 else 2

/-- dag_location.rs:144-197 `acquire_restore`. `none`: panic. -/
def acquireRestore (l : Loc) (r : Rec) : Option (Loc × Task) :=
  let first := l.resolved.isNone
  let l' : Loc := if first then ⟨some (if r.isValid then .valid r.digest none else .notValid r.digest), l.valid⟩ else l
  if r.firstValid then
    if r.isValid = true ∧ first = true then
      match l'.valid with
      | none => some (⟨l'.resolved, some r.digest⟩, ⟨r.digest, r.isValid, r.time, .stored, first, true⟩)
      | some v => if v = r.digest then some (l', ⟨r.digest, r.isValid, r.time, .stored, first, true⟩) else none
    else none
  else if r.isValid = true ∧ first = true then
    match l'.valid with
    | none => some (⟨l'.resolved, some r.digest⟩, ⟨r.digest, r.isValid, r.time, .stored, first, true⟩)
    | some v => if v = r.digest then some (l', ⟨r.digest, r.isValid, r.time, .stored, first, false⟩) else none
  else some (l', ⟨r.digest, r.isValid, r.time, .stored, first, false⟩)

/-- dag_point_future.rs:534-575, 622-634: acquire and resolve at once, in the order of the list. -/
def restoreAll (l : Loc) (ts : List Task) : List Rec → Option (Loc × List Task)
  | [] => some (l, ts)
  | r :: rs =>
    match acquireRestore l r with
    | none => none
    | some (l', t) =>
      match resolve l' t with
      | none => none
      | some (l'', t') => restoreAll l'' (t' :: ts) rs

/-- What one node knows about the location, over all its lives. `signed`: the digests signed, newest first, with the round at
which it was done. -/
structure Sys where
  loc : Loc
  tasks : List Task
  db : List Rec
  signed : List (Nat × Nat)

def Sys.new : Sys := ⟨.new, [], [], []⟩

/-- storage `reset_statuses` (point_status/mod.rs:61-67 `keep_on_history_conflict`): with `FixHistory`, statuses other than
first valid ones are reset, such points are validated again. -/
def afterFix (fix : Bool) (db : List Rec) : List Rec :=
  if fix then db.filter fun r => r.isValid && r.firstValid else db

/-- Replace the task of a version. -/
def setTask (ts : List Task) (t : Task) : List Task := ts.map fun x => if x.digest = t.digest then t else x

def findTask (ts : List Task) (d : Nat) (p : Phase) : Option Task :=
  ts.find? fun t => decide (t.digest = d ∧ t.phase = p)

/-- The signature made by a request, if it was made now. -/
def newSig (round : Nat) (l : Loc) (a : Ask) : List (Nat × Nat) :=
  match l.resolved with
  | some (.valid _ (some (some s))) => if s.sig = none ∧ decideSig round s a = some true then [(s.digest, a.at_)] else []
  | _ => []

inductive Op
  | start (digest : Nat) (isValid : Bool) (time : Nat)
  | acquire1 (digest : Nat)
  | acquire2 (digest : Nat)
  | store (digest : Nat)
  | resolve (digest : Nat)
  | sign (a : Ask)
  | reject
  | restart (fix : Bool) (order : List Rec)
deriving DecidableEq, Repr

/-- One step; `none` is a panic (or an operation that is not possible now, which leaves the state: `some s`). A restart can
happen anywhere; `order` must be an admissible order of the stored records. -/
def step (round : Nat) (s : Sys) : Op → Option Sys
  | .start d v tm =>
    if s.tasks.any (fun t => decide (t.digest = d)) then some s
    else some { s with tasks := ⟨d, v, tm, .fresh, false, false⟩ :: s.tasks }
  | .acquire1 d =>
    match findTask s.tasks d .fresh with
    | none => some s
    | some t => (acquire1 s.loc t).map fun x => { s with loc := x.1, tasks := setTask s.tasks x.2 }
  | .acquire2 d =>
    match findTask s.tasks d .half with
    | none => some s
    | some t => some { s with loc := (acquire2 s.loc t).1, tasks := setTask s.tasks (acquire2 s.loc t).2 }
  | .store d =>
    match findTask s.tasks d .acquired with
    | none => some s
    | some t => some { s with db := dbWrite s.db t, tasks := setTask s.tasks { t with phase := .stored } }
  | .resolve d =>
    match findTask s.tasks d .stored with
    | none => some s
    | some t => (resolve s.loc t).map fun x => { s with loc := x.1, tasks := setTask s.tasks x.2 }
  | .sign a => some { s with loc := (sign round s.loc a).2, signed := newSig round s.loc a ++ s.signed }
  | .reject => some { s with loc := (getOrReject s.loc).2 }
  | .restart fix order =>
    if order.isPerm (afterFix fix s.db) ∧ order.Pairwise (fun a b => restoreOrder a ≤ restoreOrder b) then
      (restoreAll .new [] order).map fun x => ⟨x.1, x.2, afterFix fix s.db, s.signed⟩
    else some s

/-- A run; `none` when some step panics. -/
def run (round : Nat) (s : Sys) : List Op → Option Sys
  | [] => some s
  | op :: ops =>
    match step round s op with
    | none => none
    | some s' => run round s' ops

/-! ### The request handler -/

inductive Response
  | signature | rejected | tryLater | noPoint
deriving DecidableEq, Repr

/-- What the handler finds out before it asks the location: the current round of the head, whether the broadcast filter has
the point, whether the peer is known at that round, whether the location has any version, the keys for the current and the
previous round. -/
structure Request where
  current : Nat
  inFilter : Bool
  known : Bool
  hasVersions : Bool
  keyInclude : Bool
  keyWitness : Bool
  now : Nat
  skew : Nat

def Request.ask (q : Request) (round : Nat) : Ask :=
  ⟨q.current, if round = q.current then q.keyInclude else q.keyWitness, q.now, q.skew⟩

/-- signer.rs:61-92 the location is asked; `head.prev`, `head.current`, `head.next` are `current - 1`, `current`,
`current + 1`. -/
def respondFromDag (q : Request) (round : Nat) (l : Loc) : Response × Loc :=
  if q.known = false then (.rejected, l)
  else if q.hasVersions = false then (.noPoint, l)
  else if q.current < round then (.tryLater, l)
  else match sign round l (q.ask round) with
    | (some true, l') => (.signature, l')
    | (some false, l') => (.rejected, l')
    | (none, l') => (.tryLater, l')

/-- signer.rs:38-93 `make_signature_response`. -/
def respond (q : Request) (round : Nat) (l : Loc) : Response × Loc :=
  if q.current + 1 ≤ round then
    if q.inFilter then (.tryLater, l)
    else if q.current + 1 < round then (.noPoint, l)
    else respondFromDag q round l
  else if round < q.current - 1 then (.rejected, l)
  else respondFromDag q round l

end Tycho.Signing
