/-!
Model of the mempool committer: `consensus/src/dag/commit/back.rs` (`DagBack`) and
`consensus/src/dag/commit/mod.rs` (`Committer`).

A round number is a `Nat` (`u32` in the code: overflow at `2^32` rounds is not modelled, `Round - n` saturates at zero like
`Nat` subtraction). A digest and a peer id are `Nat`s. The local DAG is seen through `view`: what `DagRound::view` +
`now_or_never` returns for an id (`none`: unknown or not resolved yet). Points live behind shared `Arc`s, so the commit flag
of a point is keyed by its id. The environment (points being resolved, certified, restored) may change `view` between any
two calls. Metrics and logs are not modelled, nor is the round inspector (statistics of drained rounds).
-/
namespace Tycho.Commit

/-- models/point/info.rs:54-60 `PointId`. -/
structure PointId where
  round : Nat
  digest : Nat
  author : Nat
deriving DecidableEq, Repr

/-- models/point/link.rs:17-22 `ChainedProofLink`. -/
inductive Chained
  | inapplicable
  | prevPoint
  | indirect (to : PointId)
deriving DecidableEq, Repr

/-- models/dag_point.rs:21-40 which variant of `DagPoint` a point was resolved to. -/
inductive Status
  | valid | transInvalid | invalid | illFormed | notFound
deriving DecidableEq, Repr

/-- What a point carries beside its id: its links (models/point/data.rs via info.rs:127-133, maps peer → digest), its anchor
role (info.rs:186-192 whether `anchor_trigger()` / `anchor_proof()` is `ToSelf`; info.rs:224-232 the chained proof), its
validation result, and the two certification flags of cert.rs:30-36. -/
structure Body where
  includes : List (Nat × Nat)
  witness : List (Nat × Nat)
  isTrigger : Bool
  isProof : Bool
  chained : Chained
  status : Status
  certified : Bool
  hasProof : Bool
deriving DecidableEq, Repr

/-- A resolved point (`DagPoint`, `PointInfo`): the id under which it is stored, and the body. -/
structure Point where
  id : PointId
  body : Body
deriving DecidableEq, Repr

/-- info.rs:146-156 `prev_digest`, `prev_id`: the author's own point of the previous round, from `includes`. -/
def Point.prevId (p : Point) : Option PointId :=
  (p.body.includes.lookup p.id.author).map fun d => ⟨p.id.round - 1, d, p.id.author⟩

/-- info.rs:224-232 `chained_anchor_proof_to`. -/
def Point.chainedTo (p : Point) : Option PointId :=
  match p.body.chained with
  | .inapplicable => none
  | .prevPoint => p.prevId
  | .indirect to => some to

/-- Failure of a call: the error `HistoryConflict(round)` (mod.rs:22-24), or a panic (`assert!`, `expect`, `panic!`). -/
inductive Err
  | conflict (round : Nat)
  | panic
deriving DecidableEq, Repr

/-- The part of `MempoolConfig` used by the committer. -/
structure Conf where
  genesis : Nat
  historyRounds : Nat
  dedupRounds : Nat
deriving Repr

/-- back.rs:19-23 `DagBack`, with the shared flags of the rounds and points it holds: `used_anchor_proof` of a round
(a once-cell) and the `COMMITTED` bit of a point (cert.rs:178-188). `rounds` are the keys of the `BTreeMap`, ascending. -/
structure Dag where
  rounds : List Nat
  view : PointId → Option Body
  committed : PointId → Bool
  usedProof : Nat → Option Nat
  lastProof : Option Nat

/-- A point as found in the local DAG. -/
def Dag.point (d : Dag) (id : PointId) : Option Point := (d.view id).map (Point.mk id)

/-- back.rs:39-44 `bottom_round` (a DAG in use is never empty). -/
def Dag.bottom (d : Dag) : Nat := d.rounds.headD 0
/-- back.rs:32-37 `top`. -/
def Dag.top (d : Dag) : Nat := d.rounds.getLastD 0

/-- `BTreeMap::range(lo..=hi).rev()` over the rounds. -/
def Dag.rangeRev (d : Dag) (lo hi : Nat) : List Nat :=
  (d.rounds.filter fun r => decide (lo ≤ r) && decide (r ≤ hi)).reverse

/-- back.rs:326-345 `ready_valid_point`. -/
def readyValid (d : Dag) (id : PointId) : Except Err Point :=
  match d.point id with
  | none => .error .panic
  | some p =>
    if p.body.status = .valid then .ok p
    else if p.body.certified then .error (.conflict id.round)
    else .error .panic

/-- back.rs:307-323 `chained_proof`. -/
def chainedProof (d : Dag) (id : PointId) : Except Err Point :=
  match readyValid d id with
  | .error e => .error e
  | .ok p => if p.body.isProof then .ok p else .error .panic

/-- back.rs:348-372 `committable_point`. -/
def committablePoint (d : Dag) (id : PointId) : Except Err Point :=
  match d.point id with
  | none => .error .panic
  | some p =>
    match p.body.status with
    | .valid => .ok p
    | .transInvalid => if p.body.hasProof then .error (.conflict id.round) else .ok p
    | _ => if p.body.certified then .error (.conflict id.round) else .error .panic

/-- mod.rs:26-31 `EnqueuedAnchor` (`direct_trigger` is only logged). -/
structure Enqueued where
  anchor : Point
  proof : Point
  prevProofRound : Nat
deriving DecidableEq, Repr

/-- back.rs:168-218 one step of the chain: the proof at `lookup`, its anchor in the next lower round `below` of the
iterator. `none`: the iterator is exhausted (lines 178-186, stop). -/
def chainStep (d : Dag) (lookup : PointId) (below : Option Nat) : Except Err (Option (Enqueued × PointId)) :=
  match chainedProof d lookup with
  | .error e => .error e
  | .ok proof =>
    match proof.prevId with
    | none => .error .panic
    | some anchorId =>
      match below with
      | none => if anchorId.round ≤ d.bottom then .ok none else .error .panic
      | some r =>
        if r ≠ anchorId.round then .error .panic
        else match readyValid d anchorId with
          | .error e => .error e
          | .ok anchor =>
            match proof.chainedTo with
            | none => .error .panic
            | some next => .ok (some (⟨anchor, proof, next.round⟩, next))

/-- back.rs:139-219 the loop of `anchor_chain` over the rounds from newest to oldest; `acc` is `result`. -/
def chainLoop (d : Dag) (bottom : Nat) : List Nat → PointId → List Enqueued → Except Err (List Enqueued)
  | [], _, acc => .ok acc
  | r :: rest, lookup, acc =>
    if lookup.round < r then chainLoop d bottom rest lookup acc
    else if r ≠ lookup.round then .error .panic
    else match d.usedProof r with
      | some author =>
        if author ≠ lookup.author then .error .panic
        else if bottom ≤ r then .ok acc else .error .panic
      | none =>
        match chainStep d lookup rest.head? with
        | .error e => .error e
        | .ok none => .ok acc
        | .ok (some (item, next)) => chainLoop d bottom rest next (item :: acc)

/-- back.rs:120 where the search for new proofs ends. -/
def Dag.chainBottom (d : Dag) : Nat := d.lastProof.getD d.bottom

/-- back.rs:221-226 the final assertion. -/
def checkFront (bottom : Nat) (l : List Enqueued) : Except Err (List Enqueued) :=
  match l.head? with
  | none => .ok l
  | some e => if e.prevProofRound ≤ bottom then .ok l else .error .panic

/-- back.rs:116-227 `anchor_chain`. -/
def anchorChain (d : Dag) (trigger : Point) : Except Err (List Enqueued) :=
  if trigger.id.round - 1 < d.chainBottom then .ok []
  else match trigger.prevId with
    | none => .error .panic
    | some lookup =>
      match chainLoop d d.chainBottom (d.rangeRev d.chainBottom (trigger.id.round - 1)) lookup [] with
      | .error e => .error e
      | .ok l => checkFront d.chainBottom l

/-- The deterministic random generator seeded by the anchor digest (back.rs:255, `Pcg64`), only known to permute. -/
structure Shuffler where
  Rng : Type
  seed : Nat → Rng
  shuffle : Rng → List (Nat × Nat) → List (Nat × Nat) × Rng
  perm : ∀ g l, ((shuffle g l).1).Perm l

/-- The order of `(Digest, PeerId)` pairs. -/
def pairLe (a b : Nat × Nat) : Bool := decide (a.1 < b.1) || (decide (a.1 = b.1) && decide (a.2 ≤ b.2))

def insertSorted (x : Nat × Nat) : List (Nat × Nat) → List (Nat × Nat)
  | [] => [x]
  | y :: ys => if pairLe x y then x :: y :: ys else y :: insertSorted x ys

/-- back.rs:275 `sort_unstable` on pairs (equal pairs are indistinguishable). -/
def sortPairs : List (Nat × Nat) → List (Nat × Nat)
  | [] => []
  | x :: xs => insertSorted x (sortPairs xs)

/-- A hash map digest → peer, as the list of its entries; back.rs:244 `insert`. -/
def mapInsert (m : List (Nat × Nat)) (digest peer : Nat) : List (Nat × Nat) :=
  (digest, peer) :: m.filter fun e => e.1 ≠ digest

/-- back.rs:239-246 `extend`: `links` is a map peer → digest, in any order of iteration. -/
def mapExtend (m : List (Nat × Nat)) : List (Nat × Nat) → List (Nat × Nat)
  | [] => m
  | (peer, digest) :: rest => mapExtend (mapInsert m digest peer) rest

/-- The mutable state of the walk: `r[1]`, `r[2]` and `uncommitted` (front first). -/
structure Walk where
  r1 : List (Nat × Nat)
  r2 : List (Nat × Nat)
  out : List Point

/-- back.rs:277-290 one point of the current round. -/
def visit (d : Dag) (round : Nat) (w : Walk) (e : Nat × Nat) : Except Err Walk :=
  match committablePoint d ⟨round, e.1, e.2⟩ with
  | .error err => .error err
  | .ok p =>
    if d.committed p.id then .ok w
    else .ok ⟨mapExtend w.r1 p.body.includes, mapExtend w.r2 p.body.witness, p :: w.out⟩

/-- back.rs:277-290 all the points of the current round, in the shuffled order. -/
def visitAll (d : Dag) (round : Nat) : List (Nat × Nat) → Walk → Except Err Walk
  | [], w => .ok w
  | e :: rest, w =>
    match visit d round w e with
    | .error err => .error err
    | .ok w' => visitAll d round rest w'

/-- back.rs:263-292 the loop over the rounds, newest first. Returns `next_round` and `uncommitted`. -/
def gatherLoop (S : Shuffler) (d : Dag) :
    List Nat → Nat → List (Nat × Nat) → List (Nat × Nat) → S.Rng → List Point → Except Err (Nat × List Point)
  | [], next, _, _, _, out => .ok (next, out)
  | r :: rest, next, r0, r1, g, out =>
    if r + 1 ≠ next then .error .panic
    else
      match visitAll d r (S.shuffle g (sortPairs r0)).1 ⟨r1, [], out⟩ with
      | .error e => .error e
      | .ok w => gatherLoop S d rest r w.r1 w.r2 (S.shuffle g (sortPairs r0)).2 w.out

/-- back.rs:249-250. -/
def historyLimit (c : Conf) (anchorRound : Nat) : Nat := max (c.genesis + 1) (anchorRound - c.historyRounds)

/-- back.rs:296-303: the last assertion of `gather_uncommitted`. -/
def checkFull (fullBottom limit : Nat) (x : Nat × List Point) : Except Err (List Point) :=
  if fullBottom ≤ limit ∧ x.1 ≠ limit then .error .panic else .ok x.2

/-- back.rs:233-305 `gather_uncommitted`. `BTreeMap::range` (line 260) panics when the range starts after its end. -/
def gather (S : Shuffler) (c : Conf) (d : Dag) (fullBottom : Nat) (anchor : Point) : Except Err (List Point) :=
  if anchor.id.round < historyLimit c anchor.id.round then .error .panic
  else match gatherLoop S d (d.rangeRev (historyLimit c anchor.id.round) anchor.id.round) (anchor.id.round + 1)
      [(anchor.id.digest, anchor.id.author)] [] (S.seed anchor.id.digest) [] with
  | .error e => .error e
  | .ok x => checkFull fullBottom (historyLimit c anchor.id.round) x

/-- mod.rs:33-44 `Committer`. -/
structure State where
  dag : Dag
  fullBottom : Nat
  /-- `emit_first_after_gap` -/
  gapFlag : Option Bool
  firstExecutable : Nat

/-- models/output.rs:3-10 `AnchorData`. -/
structure AnchorData where
  anchor : Point
  proof : PointId
  prevAnchor : Option Nat
  history : List Point
  executable : Bool
deriving DecidableEq, Repr

/-- `Option<Round>` order used by the assertion of mod.rs:258-263: `None` is below everything. -/
def proofBelow (last : Option Nat) (r : Nat) : Bool :=
  match last with
  | none => true
  | some x => decide (x < r)

/-- cert.rs:178-188 `set_committed` on every point of a history: panics if one of them is not certified (or is already
committed). Simplification: nothing is marked when the call panics, the process dies anyway. -/
def markAll (d : Dag) (l : List Point) : Except Err Dag :=
  if l.all (fun p => p.body.certified && !d.committed p.id) then
    .ok { d with committed := fun id => d.committed id || l.any (fun p => decide (p.id = id)) }
  else .error .panic

/-- mod.rs:285-292 whether this is the first executable anchor after a gap, and the new value of the flag. -/
def takeFlag (flag : Option Bool) (executable : Bool) : Except Err (Bool × Option Bool) :=
  match flag with
  | some false => .error .panic
  | some true => if executable then .ok (true, none) else .ok (false, some true)
  | none => .ok (false, none)

/-- mod.rs:264-272 `last_committed_proof` and the `used_anchor_proof` cell of the proof round. -/
def Dag.useProof (d : Dag) (e : Enqueued) : Dag :=
  { d with
    lastProof := some e.proof.id.round
    usedProof := fun r => if r = e.proof.id.round then some e.anchor.id.author else d.usedProof r }

/-- mod.rs:297-298 the link to the previous anchor. -/
def prevAnchorOf (c : Conf) (prevProofRound : Nat) (first : Bool) : Option Nat :=
  if c.genesis < prevProofRound - 1 ∧ first = false then some (prevProofRound - 1) else none

/-- mod.rs:258-273 checks before a history is marked. -/
def canUse (d : Dag) (e : Enqueued) : Bool :=
  proofBelow d.lastProof e.proof.id.round && decide (e.proof.id.round ∈ d.rounds)
    && (d.usedProof e.proof.id.round).isNone

/-- mod.rs:250-304 `dequeue_anchor`. -/
def dequeue (S : Shuffler) (c : Conf) (s : State) (e : Enqueued) : Except Err (AnchorData × State) :=
  match gather S c s.dag s.fullBottom e.anchor with
  | .error err => .error err
  | .ok history =>
    if canUse s.dag e then
      match markAll (s.dag.useProof e) history with
      | .error err => .error err
      | .ok dag =>
        match takeFlag s.gapFlag (decide (s.firstExecutable ≤ e.anchor.id.round)) with
        | .error err => .error err
        | .ok (first, flag) =>
          .ok (⟨e.anchor, e.proof.id, prevAnchorOf c e.prevProofRound first, history,
                decide (s.firstExecutable ≤ e.anchor.id.round)⟩,
               { s with dag := dag, gapFlag := flag })
    else .error .panic

/-- mod.rs:231-246 the loop of `commit`: the state keeps the anchors dequeued before an error, their data is lost. -/
def dequeueAll (S : Shuffler) (c : Conf) (s : State) : List Enqueued → Except Err (List AnchorData) × State
  | [] => (.ok [], s)
  | e :: rest =>
    match dequeue S c s e with
    | .error err => (.error err, s)
    | .ok (data, s') =>
      match dequeueAll S c s' rest with
      | (.error err, s'') => (.error err, s'')
      | (.ok l, s'') => (.ok (data :: l), s'')

/-- mod.rs:307-318 `filter`: what a resolved candidate trigger means for the committer. -/
inductive Filtered
  | trigger
  | conflict
  | skip
deriving DecidableEq, Repr

def filterTrigger (t : Point) : Filtered :=
  match t.body.status with
  | .valid => if t.body.isTrigger then .trigger else .skip
  | .transInvalid => if t.body.hasProof then .conflict else .skip
  | _ => if t.body.certified then .conflict else .skip

/-- mod.rs:187-248 `commit`. -/
def commit (S : Shuffler) (c : Conf) (s : State) (t : Point) : Except Err (List AnchorData) × State :=
  if t.id.round < s.dag.bottom then (.ok [], s)
  else match filterTrigger t with
    | .skip => (.ok [], s)
    | .conflict => (.error (.conflict t.id.round), s)
    | .trigger =>
      if t.id.round = c.genesis then (.ok [], s)
      else match anchorChain s.dag t with
        | .error e => (.error e, s)
        | .ok chain => dequeueAll S c s chain

/-- back.rs:105-113 `drain_upto`: forget the rounds below, which must be as many as the numbers between. A DAG left empty
panics at the next access (back.rs:32-44 `unreachable!`, committer_task.rs:190): this is counted as a panic of this call. -/
def Dag.drainUpto (d : Dag) (bottom : Nat) : Except Err Dag :=
  if bottom - d.bottom = (d.rounds.filter fun r => decide (r < bottom)).length ∧
      d.rounds.any (fun r => decide (bottom ≤ r)) then
    .ok { d with rounds := d.rounds.filter fun r => decide (bottom ≤ r) }
  else .error .panic

/-- mod.rs:152-185 `remove_committed`, without the statistics. -/
def removeCommitted (c : Conf) (s : State) (anchorRound : Nat) : Except Err State :=
  match s.dag.drainUpto (anchorRound - c.historyRounds) with
  | .error e => .error e
  | .ok d => .ok { s with dag := d }

/-- mod.rs:142-144. -/
def keepProof (last : Option Nat) (bottom : Nat) : Option Nat := last.filter fun p => decide (bottom ≤ p)

/-- mod.rs:131-150 `drop_upto`; the flag tells whether the whole range was dropped. -/
def dropUpto (c : Conf) (s : State) (newBottom : Nat) : Except Err (Bool × State) :=
  match s.dag.drainUpto (min newBottom s.dag.top) with
  | .error e => .error e
  | .ok d => .ok
    (decide (min newBottom s.dag.top = newBottom),
     { dag := { d with lastProof := keepProof s.dag.lastProof (min newBottom s.dag.top) }
       fullBottom := min newBottom s.dag.top + c.historyRounds
       gapFlag := some false
       firstExecutable := min newBottom s.dag.top + c.historyRounds + c.dedupRounds })

/-- mod.rs:116-123 `is_once_after_gap`. -/
def onceAfterGap (s : State) : Bool × State :=
  if s.gapFlag = some false then (true, { s with gapFlag := some true }) else (false, s)

/-- back.rs:70-81: the slice goes up by ones. -/
def isContiguous : List Nat → Bool
  | [] => true
  | [_] => true
  | a :: b :: rest => decide (a + 1 = b) && isContiguous (b :: rest)

/-- back.rs:56-91 `extend_from_front`: rounds not above the top are skipped. (The last assertion, `assert_len`, follows from
the first two: `Tycho.Commit.run_contiguous`.) -/
def extend (s : State) (rounds : List Nat) : Except Err State :=
  match rounds.head? with
  | none => .ok s
  | some first =>
    if first ≤ s.dag.top + 1 ∧ isContiguous rounds then
      .ok { s with dag := { s.dag with rounds := s.dag.rounds ++ rounds.filter fun r => decide (s.dag.top < r) } }
    else .error .panic

/-- mod.rs:69-89 `init` of a new or just reset committer; nothing is committed yet, except that the genesis round counts as
the proof of its author (dag/front.rs:24-33). -/
def init (c : Conf) (genesisAuthor bottom : Nat) (afterGap : Bool) (view : PointId → Option Body) : State :=
  let full := if bottom ≤ c.genesis + c.historyRounds then bottom else bottom + c.historyRounds
  { dag := ⟨[bottom], view, fun _ => false, fun r => if r = c.genesis then some genesisAuthor else none, none⟩
    fullBottom := full
    gapFlag := if afterGap then some false else none
    firstExecutable := if afterGap then full + c.dedupRounds else bottom }

/-- What can happen to a committer between two resets: the calls made by `engine/committer_task.rs`, `dag/front.rs`,
`engine/impl_.rs`, and a change of the points the environment knows. -/
inductive Op
  | commit (t : Point)
  | removeCommitted (anchorRound : Nat)
  | dropUpto (newBottom : Nat)
  | onceAfterGap
  | extend (rounds : List Nat)
  | env (view : PointId → Option Body)

/-- A call that panics or fails leaves the state it had (the process is about to die). -/
def keepOn (s : State) : Except Err State → State
  | .ok s' => s'
  | .error _ => s

/-- `drop_upto` as a step. -/
def dropStep (s : State) : Except Err (Bool × State) → State
  | .ok x => x.2
  | .error _ => s

/-- The anchors a call of `commit` returns. -/
def handed : Except Err (List AnchorData) → List AnchorData
  | .ok l => l
  | .error _ => []

/-- The anchors a call hands to its caller, and the state it leaves. -/
def step (S : Shuffler) (c : Conf) (s : State) : Op → List AnchorData × State
  | .commit t => (handed (commit S c s t).1, (commit S c s t).2)
  | .removeCommitted r => ([], keepOn s (removeCommitted c s r))
  | .dropUpto r => ([], dropStep s (dropUpto c s r))
  | .onceAfterGap => ([], (onceAfterGap s).2)
  | .extend rounds => ([], keepOn s (extend s rounds))
  | .env view => ([], { s with dag := { s.dag with view := view } })

/-- A run: all the anchors handed out, in order, and the final state. -/
def run (S : Shuffler) (c : Conf) (s : State) : List Op → List AnchorData × State
  | [] => ([], s)
  | op :: ops => ((step S c s op).1 ++ (run S c (step S c s op).2 ops).1, (run S c (step S c s op).2 ops).2)

end Tycho.Commit
