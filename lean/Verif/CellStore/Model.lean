import Verif.Common.Table
import Verif.Counters.Model

/-!
# The reference-counted cell store

Model of `core/src/storage/shard_state/cell_storage.rs` (`store_cell_mt`, `remove_cell_mt`, `load_cell`,
`prepare_persistent_state_save`, the persisted filter) with the nursery of `cell_nursery.rs` and the counters of
`counters.rs` (the `Counters` component).

A cell is its representation hash, a natural number. Cells are content-addressed: the hash determines the references
(`World.refs`); a row's data is the list of its references, the only part of it this code reads. Cell trees are finite:
`World.size` bounds the tree below a cell.

Concurrency. `store_cell_mt` and `remove_cell_mt` walk the tree on a pool of threads. Each thread has a stack of iterators
over children and takes one child at a time; a child in `split_at` is handed to another thread. The model keeps the children
that no thread has taken yet in one pool, `pending`, and lets a schedule pick any of them at every step, which covers every
order in which threads can take them. A step is the whole handling of a child: the code looks the child up in the transaction
map, then (without a lock) in the nursery, filter, cache and database, and then again in the transaction map under its lock;
nothing but the transaction map changes in between (the counters and the filter are locked, the nursery has a read guard, and
nobody writes the cells column), so the second look-up decides and the step is atomic there. Rust's `u32` numbers of additions
and removals are unbounded here.

Reads of cells that are in the tree cache (`cells_cache`, weak references to loaded cells) are left out; `load` is the path to
storage behind it. Errors of RocksDB, undecodable rows and metrics are left out.
-/
namespace Tycho.CellStore
open Tycho.Table

/-- Cells of the universe: references, a bound on the size of the tree, and the fingerprint the approximate filter keeps of a
hash (`qfilter`, cell_storage.rs:1341-1357). -/
structure World where
  refs : Nat → List Nat
  size : Nat → Nat
  size_spec : ∀ h, ((refs h).map (fun c => size c + 1)).sum < size h
  fp : Nat → Nat

/-- A row of the `cells` column: `encode_indexed_value` (row_format.rs:5-21). -/
structure Row where
  idx : Nat
  refs : List Nat
  deriving DecidableEq, Repr

/-- `NurseryEntry` (cell_nursery.rs:449-453). -/
structure NEntry where
  idx : Nat
  born : Nat
  refs : List Nat
  deriving DecidableEq, Repr

/-- The cell rows of a `WriteBatch` that is built and not yet written. -/
structure Batch where
  puts : List (Nat × Row)
  deletes : List Nat
  deriving DecidableEq, Repr

/-- `CellStorage` (cell_storage.rs:38-49). -/
structure Store where
  /-- the `cells` column of RocksDB -/
  cells : Table Nat Row
  /-- the batch of the running operation, between the return of `store_cell_mt` / `remove_cell_mt` and the write -/
  batch : Option Batch
  /-- `nursery.entries`, all stripes together -/
  nursery : Table Nat NEntry
  /-- `nursery.by_round`: (round, hash) -/
  byRound : List (Nat × Nat)
  /-- `persisted_filter`: a multiset of fingerprints (`insert_duplicated`, `remove`) -/
  filter : List Nat
  /-- `raw_cells_cache` -/
  cache : Table Nat Row
  counters : Counters.Counters

/-- An empty store. -/
def Store.empty : Store :=
  { cells := [], batch := none, nursery := [], byRound := [], filter := [], cache := [], counters := Counters.new 0 }

/-- `Filter::contains`. -/
def filterContains (w : World) (s : Store) (h : Nat) : Bool := s.filter.contains (w.fp h)

/-- `get_raw_idx_for_insert` (cell_storage.rs:1212-1255). Filling the cache on a miss is left out: it is what a `load` of the
cell at that moment does. -/
def rawIdxForInsert (s : Store) (h depth : Nat) : Option Nat :=
  if 4 ≤ depth then
    match get s.cache h with
    | some r => some r.idx
    | none => (get s.cells h).map (·.idx)
  else (get s.cells h).map (·.idx)

/-- The look-up of `insert_cell` (cell_storage.rs:532-538). -/
def existing (w : World) (s : Store) (h depth : Nat) : Option Nat :=
  match get s.nursery h with
  | some e => some e.idx
  | none => if filterContains w s h then rawIdxForInsert s h depth else none

/-! ## store_cell_mt -/

/-- `AddedCell` (cell_storage.rs:1401-1406). -/
structure Added where
  idx : Nat
  oldRc : Nat
  additions : Nat
  data : Option (List Nat)
  deriving DecidableEq, Repr

/-- A child no thread has taken yet; `spawned`: the root of a walk (`traverse_cell`, cell_storage.rs:453-463, 485-487). -/
structure Task where
  hash : Nat
  depth : Nat
  spawned : Bool
  deriving DecidableEq, Repr

/-- `StoreContext` (cell_storage.rs:402-410) and the stacks of all threads. -/
structure StoreTx where
  tx : Table Nat Added
  delayed : Table Nat Nat
  nextIdx : Nat
  pending : List Task

/-- `insert_cell` (cell_storage.rs:511-575). -/
def insertCell (w : World) (s : Store) (t : StoreTx) (h depth : Nat) : Bool × StoreTx :=
  match get t.tx h with
  | some a => (false, { t with tx := put t.tx h { a with additions := a.additions + 1 } })
  | none => match existing w s h depth with
    | some idx =>
      (false, { t with tx := put t.tx h { idx, oldRc := Counters.get s.counters idx, additions := 1, data := none } })
    | none =>
      (true, { t with
        tx := put t.tx h { idx := t.nextIdx, oldRc := 0, additions := 1, data := some (w.refs h) }
        nextIdx := t.nextIdx + 1 })

/-- A child in `split_at` (cell_storage.rs:474-498). -/
def delayAddition (t : StoreTx) (h : Nat) : StoreTx :=
  match get t.delayed h with
  | none => { t with delayed := put t.delayed h 0, pending := t.pending ++ [⟨h, 0, true⟩] }
  | some n => { t with delayed := put t.delayed h (n + 1) }

/-- The children of a new cell (cell_storage.rs:465-470, 502-505). -/
def children (refs : List Nat) (depth : Nat) : List Task := refs.map (fun c => ⟨c, depth + 1, false⟩)

/-- `insert_cell` and the descent into a new cell (cell_storage.rs:459-461, 502-505). -/
def insertAndDescend (w : World) (s : Store) (t : StoreTx) (task : Task) : StoreTx :=
  match insertCell w s t task.hash task.depth with
  | (true, t') => { t' with pending := t'.pending ++ children (w.refs task.hash) task.depth }
  | (false, t') => t'

/-- One child of the loop of `traverse_cell` (cell_storage.rs:474-506). -/
def storeVisit (w : World) (split : Nat → Bool) (s : Store) (t : StoreTx) (task : Task) : StoreTx :=
  if !task.spawned && split task.hash then delayAddition t task.hash
  else insertAndDescend w s t task

/-- Some thread takes a child; `k` chooses which. -/
def storeStep (w : World) (split : Nat → Bool) (s : Store) (t : StoreTx) (k : Nat) : StoreTx :=
  match t.pending[k % t.pending.length]? with
  | none => t
  | some task => storeVisit w split s { t with pending := t.pending.eraseIdx (k % t.pending.length) } task

/-- The walk under a schedule (`worker_pool.scope`, cell_storage.rs:683-684), `fuel` steps. -/
def storeRun (w : World) (split : Nat → Bool) (s : Store) (sched : Nat → Nat) : Nat → StoreTx → StoreTx
  | 0, t => t
  | n + 1, t => storeRun w split s (fun i => sched (i + 1)) n (storeStep w split s t (sched 0))

/-- Enough steps to walk the tree of `root` (`store_walk_ends`). -/
def fuel (w : World) (root : Nat) : Nat := 2 * w.size root

/-- The start of the walk (cell_storage.rs:672, 453-463). -/
def storeStart (s : Store) (root : Nat) : StoreTx :=
  { tx := [], delayed := [], nextIdx := s.counters.nextIdx, pending := [⟨root, 0, true⟩] }

/-- One delayed addition (cell_storage.rs:588-597); `none` is the panic. -/
def applyAddition (tx : Table Nat Added) (e : Nat × Nat) : Option (Table Nat Added) :=
  if 0 < e.2 then
    match get tx e.1 with
    | some a => some (put tx e.1 { a with additions := a.additions + e.2 })
    | none => none
  else some tx

/-- The counter transition of an added cell (cell_storage.rs:613-627). -/
def addedTransition (a : Added) : Counters.Transition :=
  { idx := a.idx, oldRaw := a.oldRc,
    newRaw := match a.data with
      | some _ => a.additions
      | none => a.oldRc + a.additions }

/-- The nursery record of an added cell (cell_storage.rs:614-622). -/
def addedEntry (round : Nat) (e : Nat × Added) : Option (Nat × NEntry) :=
  e.2.data.map (fun refs => (e.1, { idx := e.2.idx, born := round, refs }))

/-- `PROMOTION_DELAY_ROUNDS` (cell_nursery.rs:16). -/
def promotionDelay : Nat := 100

/-- Is the bucket of this round old enough (cell_nursery.rs:62-65, 182-187)? -/
def ripe (round born : Nat) : Bool := decide (promotionDelay ≤ round) && decide (born ≤ round - promotionDelay)

/-- `drain_promotable`: the rows to promote (cell_nursery.rs:62-72, 176-210). -/
def promoted (s : Store) (round : Nat) : List (Nat × Row) :=
  (s.byRound.filter (fun p => ripe round p.1)).filterMap (fun p =>
    match get s.nursery p.2 with
    | some e => if e.born = p.1 then some (p.2, { idx := e.idx, refs := e.refs }) else none
    | none => none)

/-- `insert_entries` (cell_nursery.rs:259-281); `none` is the failed assertion. -/
def insertEntries : Table Nat NEntry → List (Nat × NEntry) → Option (Table Nat NEntry)
  | n, [] => some n
  | n, e :: es => match get n e.1 with
    | some _ => none
    | none => insertEntries (put n e.1 e.2) es

/-- `apply_commit`: inserts, then removes (cell_nursery.rs:51-60, 219-231). -/
def applyCommit (n : Table Nat NEntry) (inserts : List (Nat × NEntry)) (removes : List Nat) :
    Option (Table Nat NEntry) :=
  (insertEntries n inserts).map (fun n' => del n' (fun h => removes.contains h))

/-- All delayed additions (cell_storage.rs:588-598). -/
def applyAdditions (tx : Table Nat Added) (l : List (Nat × Nat)) : Option (Table Nat Added) :=
  l.foldl (fun o e => o.bind (fun tx => applyAddition tx e)) (some tx)

/-- `finalize` (cell_storage.rs:577-665) after the delayed additions: counters, promotion, filter, nursery. -/
def storeCommit (w : World) (s : Store) (nextIdx : Nat) (tx : Table Nat Added) (round : Nat) : Option Store :=
  let prom := promoted s round
  let inserts := tx.filterMap (addedEntry round)
  match applyCommit s.nursery inserts (prom.map (·.1)) with
  | none => none
  | some nursery => some
    { cells := s.cells
      batch := some { puts := prom, deletes := [] }
      nursery
      byRound := s.byRound.filter (fun p => !ripe round p.1) ++ inserts.map (fun e => (e.2.born, e.1))
      filter := s.filter ++ prom.map (fun e => w.fp e.1)
      cache := putAll s.cache prom
      counters := Counters.runBatch { s.counters with nextIdx } (tx.map (fun e => addedTransition e.2)) }

/-- `store_cell_mt` (cell_storage.rs:392-733), up to the write of the batch. -/
def store (w : World) (s : Store) (root : Nat) (split : Nat → Bool) (sched : Nat → Nat) (round : Nat) : Option Store :=
  let t := storeRun w split s sched (fuel w root) (storeStart s root)
  match applyAdditions t.tx t.delayed with
  | none => none
  | some tx => storeCommit w s t.nextIdx tx round

/-! ## remove_cell_mt -/

/-- `RemovedCell` (cell_storage.rs:1370-1379); `fromNursery`: `CellSource`. -/
structure Removed where
  idx : Nat
  fromNursery : Bool
  oldRc : Nat
  removes : Nat
  refs : List Nat
  deriving DecidableEq, Repr

/-- `RemovedCell::add_removes` (cell_storage.rs:1382-1398): the new entry and the references to descend into; `none` is
`CounterMismatch`. -/
def addRemoves (a : Removed) (n : Nat) : Option (Removed × Option (List Nat)) :=
  if a.oldRc < a.removes + n then none
  else some ({ a with removes := a.removes + n }, if a.oldRc = a.removes + n then some a.refs else none)

/-- Where the row of a cell is: nursery, then cache, then database (cell_storage.rs:972-987, 1257-1283). -/
def rowForDelete (s : Store) (h : Nat) : Option (Bool × Row) :=
  match get s.nursery h with
  | some e => some (true, { idx := e.idx, refs := e.refs })
  | none => match get s.cache h with
    | some r => some (false, r)
    | none => (get s.cells h).map (fun r => (false, r))

/-- `RemoveContext` (cell_storage.rs:848-856) and the stacks of all threads. -/
structure RemoveTx where
  tx : Table Nat Removed
  delayed : Table Nat Nat
  pending : List Task

/-- `remove_cell` (cell_storage.rs:953-1008): the new transaction and the references to descend into; `none` is an error
(`CellNotFound`, `CounterMismatch`). -/
def removeCell (s : Store) (tx : Table Nat Removed) (h : Nat) : Option (Table Nat Removed × Option (List Nat)) :=
  match get tx h with
  | some a => (addRemoves a 1).map (fun r => (put tx h r.1, r.2))
  | none => match rowForDelete s h with
    | none => none
    | some (src, row) =>
      let oldRc := Counters.get s.counters row.idx
      some (put tx h { idx := row.idx, fromNursery := src, oldRc, removes := 1, refs := row.refs },
        if oldRc = 1 then some row.refs else none)

/-- A child in `split_at` (cell_storage.rs:912-936). -/
def delayRemove (t : RemoveTx) (h : Nat) : RemoveTx :=
  match get t.delayed h with
  | none => { t with delayed := put t.delayed h 0, pending := t.pending ++ [⟨h, 0, true⟩] }
  | some n => { t with delayed := put t.delayed h (n + 1) }

/-- `remove_cell` and the descent (cell_storage.rs:901-906, 938-945). -/
def removeAndDescend (s : Store) (t : RemoveTx) (h : Nat) : Option RemoveTx :=
  match removeCell s t.tx h with
  | none => none
  | some (tx, none) => some { t with tx }
  | some (tx, some refs) => some { t with tx, pending := t.pending ++ children refs 0 }

/-- One child of the loop (cell_storage.rs:908-947). -/
def removeVisit (split : Nat → Bool) (s : Store) (t : RemoveTx) (task : Task) : Option RemoveTx :=
  if !task.spawned && split task.hash then some (delayRemove t task.hash)
  else removeAndDescend s t task.hash

/-- Some thread takes a child. -/
def removeStep (split : Nat → Bool) (s : Store) (t : RemoveTx) (k : Nat) : Option RemoveTx :=
  match t.pending[k % t.pending.length]? with
  | none => some t
  | some task => removeVisit split s { t with pending := t.pending.eraseIdx (k % t.pending.length) } task

/-- The walk under a schedule (cell_storage.rs:1124-1125). -/
def removeRun (split : Nat → Bool) (s : Store) (sched : Nat → Nat) : Nat → RemoveTx → Option RemoveTx
  | 0, t => some t
  | n + 1, t => match removeStep split s t (sched 0) with
    | none => none
    | some t' => removeRun split s (fun i => sched (i + 1)) n t'

/-- The start of the walk. -/
def removeStart (root : Nat) : RemoveTx := { tx := [], delayed := [], pending := [⟨root, 0, true⟩] }

/-- One delayed removal (cell_storage.rs:1022-1030). The references `add_removes` returns are not used. -/
def applyRemoval (tx : Table Nat Removed) (e : Nat × Nat) : Option (Table Nat Removed) :=
  if 0 < e.2 then
    match get tx e.1 with
    | some a => (addRemoves a e.2).map (fun r => put tx e.1 r.1)
    | none => none
  else some tx

/-- All delayed removals. -/
def applyRemovals (tx : Table Nat Removed) (l : List (Nat × Nat)) : Option (Table Nat Removed) :=
  l.foldl (fun o e => o.bind (fun tx => applyRemoval tx e)) (some tx)

/-- The counter transition of a removed cell (cell_storage.rs:1042-1047). -/
def removedTransition (a : Removed) : Counters.Transition :=
  { idx := a.idx, oldRaw := a.oldRc, newRaw := a.oldRc - a.removes }

/-- The hashes whose count reached zero, by source (cell_storage.rs:1049-1063). -/
def deadFrom (tx : Table Nat Removed) (nursery : Bool) : List Nat :=
  (tx.filter (fun e => decide (e.2.oldRc - e.2.removes = 0) && (e.2.fromNursery == nursery))).map (·.1)

/-- `Filter::remove` for every deleted hash (cell_storage.rs:1072-1077). -/
def filterRemove (w : World) (f : List Nat) (hs : List Nat) : List Nat := hs.foldl (fun f h => f.erase (w.fp h)) f

/-- `finalize` (cell_storage.rs:1010-1115) after the delayed removals. -/
def removeCommit (w : World) (s : Store) (tx : Table Nat Removed) : Option Store :=
  let deletes := deadFrom tx false
  match applyCommit s.nursery [] (deadFrom tx true) with
  | none => none
  | some nursery => some
    { cells := s.cells
      batch := some { puts := [], deletes }
      nursery
      byRound := s.byRound
      filter := filterRemove w s.filter deletes
      cache := del s.cache (fun h => deletes.contains h)
      counters := Counters.runBatch s.counters (tx.map (fun e => removedTransition e.2)) }

/-- `remove_cell_mt` (cell_storage.rs:835-1169), up to the write of the batch; `none` is an error or a panic. -/
def remove (w : World) (s : Store) (root : Nat) (split : Nat → Bool) (sched : Nat → Nat) : Option Store :=
  match removeRun split s sched (fuel w root) (removeStart root) with
  | none => none
  | some t => match applyRemovals t.tx t.delayed with
    | none => none
    | some tx => removeCommit w s tx

/-! ## The rest -/

/-- The cells column after a batch. -/
def applyBatch (cells : Table Nat Row) (b : Batch) : Table Nat Row :=
  putAll (del cells (fun h => b.deletes.contains h)) b.puts

/-- The write of the batch (shard_state/mod.rs:778-781, 1121-1125). -/
def write (s : Store) : Store := match s.batch with
  | none => s
  | some b => { s with cells := applyBatch s.cells b, batch := none }

/-- `load_cell` behind the tree cache (cell_storage.rs:759-799): the references of the cell, if found, and the store with the
row cached. -/
def load (s : Store) (h : Nat) : Option (List Nat) × Store :=
  match get s.nursery h with
  | some e => (some e.refs, s)
  | none => match get s.cache h with
    | some r => (some r.refs, s)
    | none => match get s.cells h with
      | some r => (some r.refs, { s with cache := put s.cache h r })
      | none => (none, s)

/-- The cache drops an entry. -/
def evict (s : Store) (h : Nat) : Store := { s with cache := del s.cache (fun j => decide (j = h)) }

/-- `prepare_persistent_state_save` (cell_storage.rs:102-173): all nursery rows go to the database. The round index keeps
its entries. -/
def flush (w : World) (s : Store) : Store :=
  let rows := s.nursery.map (fun e => (e.1, ({ idx := e.2.idx, refs := e.2.refs } : Row)))
  { s with
    cells := putAll s.cells rows
    nursery := []
    filter := s.filter ++ rows.map (fun e => w.fp e.1)
    cache := putAll s.cache rows }

/-- A restart (cell_storage.rs:57-96, 1182-1208): the filter and the round index are rebuilt, the cache is empty. `stale` are
the pairs of cells that are no longer in the nursery: the replay of the log adds every insert it contains. That the nursery and
the counters come back is the subject of the `NurseryWal` and `Counters` components. -/
def reopen (w : World) (s : Store) (stale : List (Nat × Nat)) : Store :=
  { s with
    byRound := stale ++ s.nursery.map (fun e => (e.2.born, e.1))
    filter := s.cells.map (fun e => w.fp e.1)
    cache := [] }

/-! ## apply_temp_cell -/

/-- The variables of `apply_temp_cell` (cell_storage.rs:220-248, 369): the transaction, the stack (what is left of the references
of each cell), the batch of new rows, and what changes in the storage on the way: next index, rows, filter. -/
structure ImportTx where
  tx : Table Nat Added
  stack : List (List Nat)
  batch : List (Nat × Row)
  nextIdx : Nat
  cells : Table Nat Row
  filter : List Nat

/-- The look-up (cell_storage.rs:289-293); it does not look into the nursery. -/
def importExisting (w : World) (s : Store) (t : ImportTx) (h : Nat) : Option Nat :=
  if t.filter.contains (w.fp h) then
    match get s.cache h with
    | some r => some r.idx
    | none => (get t.cells h).map (·.idx)
  else none

/-- `flush_new_cells` after a new cell (cell_storage.rs:316-319, 325-334); `limit` is `MAX_NEW_CELLS_BATCH_SIZE`. -/
def importFlush (limit : Nat) (t : ImportTx) : ImportTx :=
  if limit ≤ t.batch.length then { t with cells := putAll t.cells t.batch, batch := [] } else t

/-- `insert_cell` (cell_storage.rs:278-323): the references of a new cell, to be walked. `temp` gives the references in the row
of `temp_cells`; `none` is the error for a missing row. -/
def importCell (w : World) (s : Store) (temp : Nat → Option (List Nat)) (limit : Nat) (t : ImportTx) (h : Nat) : Option (Option (List Nat) × ImportTx) :=
  match get t.tx h with
  | some a => some (none, { t with tx := put t.tx h { a with additions := a.additions + 1 } })
  | none => match importExisting w s t h with
    | some idx => some (none, { t with tx := put t.tx h { idx, oldRc := Counters.get s.counters idx, additions := 1, data := none } })
    | none => match temp h with
      | none => none
      | some refs => some (some refs, importFlush limit { t with
          tx := put t.tx h { idx := t.nextIdx, oldRc := 0, additions := 1, data := some refs }
          batch := t.batch ++ [(h, { idx := t.nextIdx, refs })]
          nextIdx := t.nextIdx + 1
          filter := t.filter ++ [w.fp h] })

/-- One turn of the walk (cell_storage.rs:370-383): the next reference of the cell on top of the stack. -/
def importStep (w : World) (s : Store) (temp : Nat → Option (List Nat)) (limit : Nat) (t : ImportTx) : Option ImportTx :=
  match t.stack with
  | [] => some t
  | [] :: rest => some { t with stack := rest }
  | (c :: cs) :: rest => match importCell w s temp limit t c with
    | none => none
    | some (some refs, t') => some { t' with stack := refs :: cs :: rest }
    | some (none, t') => some { t' with stack := cs :: rest }

/-- Some turns. -/
def importRun (w : World) (s : Store) (temp : Nat → Option (List Nat)) (limit : Nat) : Nat → ImportTx → Option ImportTx
  | 0, t => some t
  | n + 1, t => (importStep w s temp limit t).bind (importRun w s temp limit n)

/-- The start (cell_storage.rs:365-368): the root is like the only reference of a cell. -/
def importStart (s : Store) (root : Nat) : ImportTx :=
  { tx := [], stack := [[root]], batch := [], nextIdx := s.counters.nextIdx, cells := s.cells, filter := s.filter }

/-- The counter transition of a cell (cell_storage.rs:341-347). -/
def importTransition (a : Added) : Counters.Transition := { idx := a.idx, oldRaw := a.oldRc, newRaw := a.oldRc + a.additions }

/-- `apply_temp_cell` (cell_storage.rs:175-390); the end of it are the last rows and the counters with their snapshot. -/
def importTree (w : World) (s : Store) (root : Nat) (temp : Nat → Option (List Nat)) (limit : Nat) : Option Store :=
  match importRun w s temp limit (fuel w root + 1) (importStart s root) with
  | none => none
  | some t => if t.stack.isEmpty then
      some { s with
        cells := putAll t.cells t.batch
        filter := t.filter
        counters := Counters.runBatch { s.counters with nextIdx := t.nextIdx } (t.tx.map (fun e => importTransition e.2)) }
    else none

end Tycho.CellStore
