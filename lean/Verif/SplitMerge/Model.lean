/-!
Model of `calc_split_merge_actions` (`collator/src/utils/shard.rs`), which the collation manager calls for every new masterchain state
(`collator/src/manager/state_update_handler.rs:538-563`).

A shard is its workchain and the bits of its prefix; it can be split while it has less than 60 bits. References to shards are the shards.
-/
namespace Tycho.SplitMerge

/-- `ShardIdent`. -/
structure Shard where
  wc : Int
  path : List Bool
deriving DecidableEq, Repr

/-- `ShardIdent::new_full`. -/
def Shard.full (wc : Int) : Shard := ⟨wc, []⟩

/-- `ShardIdent::is_ancestor_of`, `tycho_types`. -/
def Shard.isAncestorOf (a b : Shard) : Bool := decide (a.wc = b.wc) && a.path.isPrefixOf b.path && !decide (a.path = b.path)

/-- `ShardIdent::split`, `tycho_types`: `MAX_SPLIT_DEPTH` is 60. -/
def Shard.split (a : Shard) : Option (Shard × Shard) :=
  if a.path.length < 60 then some (⟨a.wc, a.path ++ [false]⟩, ⟨a.wc, a.path ++ [true]⟩) else none

/-- `SplitMergeAction`, shard.rs:7-11. -/
inductive Action where
  | add (s : Shard)
  | split (s : Shard)
  | merge (a b : Shard)
deriving DecidableEq, Repr

/-- `CalcSplitMergeStep`, shard.rs:13-20. -/
inductive Step where
  | check (s : Shard) (sub : Option (List Shard)) (act : Option Action)
  | act (children : List Shard) (a : Action)
deriving DecidableEq, Repr

/-- The variables of the loop: `planned_actions`, `rest_to_shards`, `result_actions`. -/
structure St where
  queue : List Step
  rest : List Shard
  out : List Action
deriving DecidableEq, Repr

/-- `if let Some(ref action) = action_opt { result_actions.push(action.clone()) }`. -/
def pushOpt (out : List Action) : Option Action → List Action
  | some a => out ++ [a]
  | none => out

/-- The loop over `to_shards`, shard.rs:63-78: the results, the children and the rest. -/
def scan (s : Shard) (act : Option Action) : List Shard → List Action → List Shard → List Shard → List Action × List Shard × List Shard
  | [], out, ch, rest => (out, ch, rest)
  | t :: l, out, ch, rest =>
    if s = t then scan s act l (pushOpt out act) ch rest
    else if s.isAncestorOf t then scan s act l out (ch ++ [t]) rest
    else if t.isAncestorOf s then scan s act l out ch rest
    else scan s act l out ch (rest ++ [t])

/-- One turn of the loop for a step taken from the queue, shard.rs:54-115; `none` is the error. -/
def turn (q : List Step) (rest : List Shard) (out : List Action) : Step → Option St
  | .check s sub act =>
    let rest := match sub with
      | some l => l
      | none => rest
    let r := scan s act rest out [] []
    if r.2.1.isEmpty then some ⟨q, r.2.2, r.1⟩
    else some ⟨q ++ [.act r.2.1 (.split s)], r.2.2, pushOpt r.1 act⟩
  | .act ch (.split s) => match s.split with
    | none => none
    | some (l, r) => some ⟨q ++ [.check l (some ch) (some (.split s)), .check r none (some (.split s))], rest, out⟩
  | .act _ _ => some ⟨q, rest, out⟩

/-- The loop ends with these `result_actions`, or with an error. -/
inductive Runs : St → Option (List Action) → Prop
  | done (rest : List Shard) (out : List Action) : Runs ⟨[], rest, out⟩ (some out)
  | fail (s : Step) (q : List Step) (rest : List Shard) (out : List Action) : turn q rest out s = none → Runs ⟨s :: q, rest, out⟩ none
  | next (s : Step) (q : List Step) (rest : List Shard) (out : List Action) (st : St) (r : Option (List Action)) :
      turn q rest out s = some st → Runs st r → Runs ⟨s :: q, rest, out⟩ r

/-- `Vec::dedup_by` with equality. -/
def dedup : List Action → List Action
  | [] => []
  | a :: l => match dedup l with
    | [] => [a]
    | b :: m => if a = b then b :: m else a :: b :: m

/-- The state at the start of the loop, shard.rs:24-52; `none` when both lists are empty. -/
def start (fromShards toShards : List Shard) : Option St :=
  match (match toShards with | t :: _ => some t.wc | [] => match fromShards with | f :: _ => some f.wc | [] => none) with
  | none => none
  | some wc =>
    some ⟨if fromShards.isEmpty then [.check (.full wc) none none] else fromShards.map (fun s => .check s none none), toShards,
      if fromShards.isEmpty then toShards.map .add else []⟩

/-- `calc_split_merge_actions`, shard.rs:22-121: it returns this (`none`: an error). -/
def Returns (fromShards toShards : List Shard) (r : Option (List Action)) : Prop :=
  match start fromShards toShards with
  | none => r = none
  | some st => ∃ o, Runs st o ∧ r = o.map dedup

end Tycho.SplitMerge
