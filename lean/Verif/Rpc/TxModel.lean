import Verif.Common.Table

/-!
Transactions of the RPC storage: rpc/src/state/storage.rs. A table is the list of its rows in the order of their keys, as a RocksDB iterator
returns them; keys are compared as numbers (`Rpc/Codec.lean` shows that the bytes compare in the same way). An address is a number: workchain
byte and 32 bytes of the account.
-/
namespace Tycho.Rpc
open Tycho.Table

/-- tables.rs:29-32: `workchain, account, lt` -/
structure Key where
  acct : Nat
  lt : Nat
deriving DecidableEq, Repr

def Key.before (a b : Key) : Bool := decide (a.acct < b.acct) || (decide (a.acct = b.acct) && decide (a.lt < b.lt))

/-- storage.rs:1311-1321 value of a row: hash, hash of the incoming message, and the transaction itself -/
structure Tx where
  hash : Nat
  msg : Option Nat
  boc : Nat
deriving DecidableEq, Repr

abbrev Rows := List (Key × Tx)

/-- rows in the order of keys, each key once -/
def Ordered (t : Rows) : Prop := t.Pairwise (fun a b => a.1.before b.1 = true)

/-- put of RocksDB -/
def putRow (t : Rows) (k : Key) (v : Tx) : Rows :=
  t.filter (fun e => e.1.before k) ++ (k, v) :: t.filter (fun e => k.before e.1)

/-! ### Garbage collection -/

inductive Op where
  | tx (k : Key)
  /-- `[a, b)` -/
  | range (a b : Key)
  | hash (h : Nat)
  | msg (h : Nat)
deriving DecidableEq, Repr

/-- storage.rs:759-772 `GcState`, and the variables of the loop (storage.rs:989-1002) -/
structure Gc where
  /-- the iterator: rows from the current one on, backwards -/
  pos : Rows
  /-- first 33 bytes of `last_account` -/
  last : Nat
  cnt : Nat
  items : Nat
  /-- `key_range_end` and `key_range_begin` -/
  pending : Option (Key × Option Key)
  batch : List Op
  /-- batches written -/
  out : List (List Op)

/-- storage.rs:823-843 `end_account` -/
def Gc.endAccount (g : Gc) : Gc :=
  match g.pending with
  | none => g
  | some (e, none) => { g with pending := none, batch := g.batch ++ [.tx e] }
  | some (e, some b) => { g with pending := none, batch := g.batch ++ [.range b e, .tx e] }

/-- storage.rs:792-821 `delete_tx` -/
def Gc.deleteTx (g : Gc) (k : Key) (v : Tx) : Gc :=
  { g with
    pending := match g.pending with
      | none => some (k, none)
      | some (e, _) => some (e, some k)
    batch := g.batch ++ [.hash v.hash] ++ (match v.msg with
      | none => []
      | some m => [.msg m]) }

/-- storage.rs:1022-1033 -/
def Gc.account (g : Gc) (a : Nat) : Gc :=
  if a ≠ g.last then { ({ g with last := a }).endAccount with cnt := 0 } else g

/-- `seek_for_prev` over the rows backwards -/
def seekPrev (desc : Rows) (k : Key) : Rows := desc.dropWhile (fun e => k.before e.1)

/-- storage.rs:1056-1061 -/
def Gc.flushIf (g : Gc) (size : Nat) : Gc :=
  if size ≤ g.items then { g with out := g.out ++ [g.batch], batch := [], items := 0 } else g

/-- storage.rs:1003-1062 one iteration at a row; `size` is `ITEMS_PER_BATCH` -/
def Gc.step (desc : Rows) (size keep minLt : Nat) (g : Gc) (k : Key) (v : Tx) (rest : Rows) : Gc :=
  let g := g.account k.acct
  let g :=
    if g.cnt < keep then { g with cnt := g.cnt + 1, pos := rest }
    else if k.lt < minLt then { ({ g with items := g.items + 1 }).deleteTx k v with pos := rest }
    else if 0 < k.lt then { g with pos := seekPrev desc ⟨g.last, minLt⟩ }
    else { g with pos := rest }
  g.flushIf size

/-- storage.rs:1064-1070 -/
def Gc.finish (g : Gc) : List (List Op) :=
  let g := g.endAccount
  if g.items ≠ 0 then g.out ++ [g.batch] else g.out

/-- storage.rs:1003-1070; `none`: still running after `fuel` iterations -/
def Gc.run (desc : Rows) (size keep minLt : Nat) : Nat → Gc → Option (List (List Op))
  | 0, _ => none
  | fuel + 1, g =>
    match g.pos with
    | [] => some g.finish
    | (k, v) :: rest => Gc.run desc size keep minLt fuel (g.step desc size keep minLt k v rest)

/-- storage.rs:982-1002 -/
def Gc.start (snap : Rows) : Gc := ⟨snap.reverse, 0, 0, 0, none, [], []⟩

/-- storage.rs:982-1070: the batches written by a collection over a snapshot -/
def gcRun (size keep minLt fuel : Nat) (snap : Rows) : Option (List (List Op)) :=
  Gc.run snap.reverse size keep minLt fuel (Gc.start snap)

/-! ### The tables -/

/-- storage.rs:1161-1170 value of `transactions_by_hash`: key and block -/
structure Info where
  key : Key
  block : Nat
  mcSeqno : Nat
deriving DecidableEq, Repr

structure Db where
  txs : Rows
  byHash : Table Nat Info
  byMsg : Table Nat Key

def Db.op (d : Db) : Op → Db
  | .tx k => { d with txs := d.txs.filter (fun e => !decide (e.1 = k)) }
  | .range a b => { d with txs := d.txs.filter (fun e => !(!e.1.before a && e.1.before b)) }
  | .hash h => { d with byHash := del d.byHash (fun x => decide (x = h)) }
  | .msg m => { d with byMsg := del d.byMsg (fun x => decide (x = m)) }

def Db.write (d : Db) (l : List Op) : Db := l.foldl Db.op d

def Db.writes (d : Db) (l : List (List Op)) : Db := l.foldl Db.write d

/-- a transaction of a block, and its key -/
structure BlockTx where
  key : Key
  tx : Tx

/-- storage.rs:1288-1335 rows of a transaction in `update`; the blacklist is applied by the caller -/
def Db.putTx (d : Db) (block mcSeqno : Nat) (t : BlockTx) : Db :=
  { txs := putRow d.txs t.key t.tx
    byHash := put d.byHash t.tx.hash ⟨t.key, block, mcSeqno⟩
    byMsg := match t.tx.msg with
      | none => d.byMsg
      | some m => put d.byMsg m t.key }

/-- storage.rs:1091-1335 `update`: one batch -/
def Db.update (d : Db) (black : Nat → Bool) (block mcSeqno : Nat) (l : List BlockTx) : Db :=
  (l.filter (fun t => !black t.key.acct)).foldl (fun d t => d.putTx block mcSeqno t) d

end Tycho.Rpc
