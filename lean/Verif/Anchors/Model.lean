/-!
Model of `collator/src/collator/anchors_cache.rs`: the cache of imported mempool anchors and its transaction.

Simplifications: an anchor is its id, chain time and contents (a tag); an anchor info keeps id, chain time, both counts and the
author. Deques are lists, front first.
-/
namespace Tycho.Anchors

/-- `MempoolAnchor`. -/
structure Anchor where
  id : Nat
  ct : Nat
  author : Nat
  externals : Nat
  tag : Nat
deriving DecidableEq, Repr

/-- anchors_cache.rs:9-18 `AnchorInfo`. -/
structure Info where
  id : Nat
  ct : Nat
  allExts : Nat
  ourExts : Nat
  author : Nat
deriving DecidableEq, Repr

/-- anchors_cache.rs:21-29 `from_anchor`. -/
def Info.ofAnchor (a : Anchor) (ourExts : Nat) : Info := ⟨a.id, a.ct, a.externals, ourExts, a.author⟩

/-- anchors_cache.rs:32-36 `CachedAnchor`, with its key. -/
structure Cached where
  id : Nat
  anchor : Anchor
  ourExts : Nat
deriving DecidableEq, Repr

/-- anchors_cache.rs:38-43 `AnchorsCache`. -/
structure Cache where
  cache : List Cached
  history : List Info
  pending : Bool
deriving DecidableEq, Repr

/-- `AnchorsCache::default`. -/
def Cache.empty : Cache := ⟨[], [], false⟩

/-- anchors_cache.rs:46-48 `add_imported_anchor_info`. -/
def Cache.addInfo (c : Cache) (i : Info) : Cache := { c with history := c.history ++ [i] }

/-- anchors_cache.rs:50-58 `remove_imported_anchors_info_before`, on the history. -/
def removeBefore (ct : Nat) : List Info → List Info
  | i :: j :: rest => if i.ct < ct then removeBefore ct (j :: rest) else i :: j :: rest
  | l => l

/-- anchors_cache.rs:60-68 `remove_imported_anchors_info_above`, on the history with the back first. -/
def removeAboveRev (ct : Nat) : List Info → List Info
  | i :: j :: rest => if i.ct > ct then removeAboveRev ct (j :: rest) else i :: j :: rest
  | l => l

/-- anchors_cache.rs:60-68 `remove_imported_anchors_info_above`, on the history. -/
def removeAbove (ct : Nat) (l : List Info) : List Info := (removeAboveRev ct l.reverse).reverse

/-- anchors_cache.rs:70-72 `last_imported_anchor_info`. -/
def Cache.lastInfo (c : Cache) : Option Info := c.history.getLast?

/-- anchors_cache.rs:76-82 `last_imported_anchor_info_at_ct`. -/
def Cache.lastInfoAt (c : Cache) (ct : Nat) : Option Info :=
  (c.history.reverse.find? (fun i => i.ct ≤ ct)).or c.history.head?

/-- anchors_cache.rs:88-98 `add`. -/
def Cache.add (c : Cache) (a : Anchor) (ourExts : Nat) : Cache :=
  let c := c.addInfo (.ofAnchor a ourExts)
  if ourExts > 0 then { c with pending := true, cache := c.cache ++ [⟨a.id, a, ourExts⟩] } else c

/-- anchors_cache.rs:100-109 `pop_front`. -/
def Cache.popFront (c : Cache) : Cache × Option Cached := match c.cache with
  | [] => (c, none)
  | x :: rest => (⟨rest, removeBefore x.anchor.ct c.history, !rest.isEmpty⟩, some x)

/-- anchors_cache.rs:113-120, 229-237 pops from the back of the cache while the chain time is above; the back first. -/
def popAboveRev (ct : Nat) : List Cached → List Cached
  | x :: rest => if x.anchor.ct > ct then popAboveRev ct rest else x :: rest
  | [] => []

/-- anchors_cache.rs:111-130 `remove_last_imported_above`. -/
def Cache.removeLastAbove (c : Cache) (ct : Nat) : Cache × Option Info :=
  let cache := (popAboveRev ct c.cache.reverse).reverse
  let wasRemoved : Bool := decide (cache.length < c.cache.length)
  let c' : Cache := ⟨cache, removeAbove ct c.history, if wasRemoved then !cache.isEmpty else c.pending⟩
  (c', c'.lastInfo)

/-- anchors_cache.rs:132-136 `clear`. -/
def Cache.clear (_ : Cache) : Cache := ⟨[], [], false⟩

/-- anchors_cache.rs:166-168 `has_pending_externals`. -/
def Cache.hasPending (c : Cache) : Bool := c.pending

/-- anchors_cache.rs:170-174 `check_has_pending_externals_in_range`, up to the anchor with this id. -/
def Cache.hasPendingUpTo (c : Cache) (anchorId : Nat) : Bool := c.cache.any (fun x => x.id ≤ anchorId && x.ourExts > 0)

/-- anchors_cache.rs:177-190 `UndoOp`. -/
inductive Undo where
  | popFront (x : Cached) (infos : List Info) (pending : Bool)
  | removeAbove (cache : List Cached) (history : List Info) (pending : Bool)
deriving DecidableEq, Repr

/-- anchors_cache.rs:192-196 `AnchorsCacheTransaction`; the log with the last operation first. -/
structure Tx where
  cache : Cache
  log : List Undo
  committed : Bool
deriving DecidableEq, Repr

/-- anchors_cache.rs:199-205 `new`. -/
def Tx.begin (c : Cache) : Tx := ⟨c, [], false⟩

/-- anchors_cache.rs:214-223 what `pop_front` will remove from the history. -/
def removedBefore (ct : Nat) : List Info → List Info
  | i :: j :: rest => if i.ct < ct then i :: removedBefore ct (j :: rest) else []
  | _ => []

/-- anchors_cache.rs:207-233 `pop_front`. -/
def Tx.popFront (t : Tx) : Tx × Option Cached := match t.cache.cache with
  | [] => (t, none)
  | x :: _ =>
    let undo := Undo.popFront x (removedBefore x.anchor.ct t.cache.history) t.cache.pending
    let r := t.cache.popFront
    ({ t with cache := r.1, log := undo :: t.log }, r.2)

/-- anchors_cache.rs:240-247 the loop over the cache, back first: what is removed in order, and the rest. -/
def splitCacheRev (ct : Nat) : List Cached → List Cached × List Cached
  | x :: rest => if x.anchor.ct > ct then let r := splitCacheRev ct rest; (x :: r.1, r.2) else ([], x :: rest)
  | [] => ([], [])

/-- anchors_cache.rs:250-258 the loop over the history, back first. -/
def splitHistoryRev (ct : Nat) : List Info → List Info × List Info
  | i :: j :: rest => if i.ct > ct then let r := splitHistoryRev ct (j :: rest); (i :: r.1, r.2) else ([], i :: j :: rest)
  | l => ([], l)

/-- anchors_cache.rs:235-269 `remove_last_imported_above`. -/
def Tx.removeLastAbove (t : Tx) (ct : Nat) : Tx :=
  let rc := splitCacheRev ct t.cache.cache.reverse
  let rh := splitHistoryRev ct t.cache.history.reverse
  let pending := if !rc.1.isEmpty then !rc.2.isEmpty else t.cache.pending
  { t with cache := ⟨rc.2.reverse, rh.2.reverse, pending⟩, log := .removeAbove rc.1 rh.1 t.cache.pending :: t.log }

/-- anchors_cache.rs:271-273 `commit`. -/
def Tx.commit (t : Tx) : Tx := { t with committed := true }

/-- anchors_cache.rs:277-311 one step of `rollback`. -/
def Undo.apply (c : Cache) : Undo → Cache
  | .popFront x infos pending => ⟨x :: c.cache, infos ++ c.history, pending⟩
  | .removeAbove cache history pending => ⟨c.cache ++ cache.reverse, c.history ++ history.reverse, pending⟩

/-- anchors_cache.rs:275-313 `rollback`. -/
def Tx.rollback (t : Tx) : Tx := { t with cache := t.log.foldl Undo.apply t.cache, log := [] }

/-- anchors_cache.rs:332-338 `drop`: what is left of the cache when the transaction ends. -/
def Tx.drop (t : Tx) : Cache := if t.committed then t.cache else t.rollback.cache

end Tycho.Anchors
