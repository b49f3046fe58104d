import Verif.Rpc.TxDb

/-!
Blocks are added while collections are running, and a collection can be stopped at any iteration (cancelled, or the node is stopped).
-/
namespace Tycho.Rpc
open Tycho.Table

/-- a running collection: the snapshot and the state of the loop -/
structure Run where
  snap : Rows
  size : Nat
  keep : Nat
  minLt : Nat
  gc : Gc

/-- parameters of a collection and the table at its start -/
structure Begun where
  snap : Rows
  keep : Nat
  minLt : Nat

structure Sys where
  db : Db
  runs : List Run
  /-- history: transactions of the blocks added -/
  added : List BlockTx
  /-- history: collections started -/
  begun : List Begun

inductive Ev where
  /-- storage.rs:1091 `update` -/
  | block (black : Nat → Bool) (block mcSeqno : Nat) (l : List BlockTx)
  /-- storage.rs:744 `remove_old_transactions` -/
  | gcBegin (size keep minLt : Nat)
  /-- an iteration of the loop of a collection -/
  | gcStep (i : Nat)
  /-- a collection is cancelled -/
  | gcCancel (i : Nat)
  /-- the node is stopped: the tables stay -/
  | restart

/-- batches written by an iteration -/
def Run.step (r : Run) : List (List Op) × Option Run :=
  match r.gc.pos with
  | [] => (r.gc.finish.drop r.gc.out.length, none)
  | (k, v) :: rest =>
    let g := r.gc.step r.snap.reverse r.size r.keep r.minLt k v rest
    (g.out.drop r.gc.out.length, some { r with gc := g })

def Sys.next (s : Sys) : Ev → Sys
  | .block black b mc l => { s with db := s.db.update black b mc l, added := s.added ++ l.filter (fun t => !black t.key.acct) }
  | .gcBegin size keep minLt =>
    if size = 0 then s else
    { s with runs := ⟨s.db.txs, size, keep, minLt, Gc.start s.db.txs⟩ :: s.runs, begun := ⟨s.db.txs, keep, minLt⟩ :: s.begun }
  | .gcStep i =>
    match s.runs[i]? with
    | none => s
    | some r =>
      match r.step with
      | (bs, none) => { s with db := s.db.writes bs, runs := s.runs.eraseIdx i }
      | (bs, some r') => { s with db := s.db.writes bs, runs := s.runs.set i r' }
  | .gcCancel i => { s with runs := s.runs.eraseIdx i }
  | .restart => { s with runs := [] }

def Sys.init : Sys := ⟨⟨[], [], []⟩, [], [], []⟩

def Sys.exec (evs : List Ev) : Sys := evs.foldl Sys.next Sys.init

/-! ### Queries -/

/-- storage.rs:480-494 `get_transaction` -/
def Db.getTransaction (d : Db) (hash : Nat) : Option Tx :=
  match get d.byHash hash with
  | none => none
  | some info => get d.txs info.key

/-- storage.rs:578-597 `get_dst_transaction` -/
def Db.getDst (d : Db) (msg : Nat) : Option Tx :=
  match get d.byMsg msg with
  | none => none
  | some k => get d.txs k

/-- rows in `[lower, upper)`, as an iterator with these bounds returns them -/
def between (t : Rows) (lower upper : Key) : Rows := t.filter (fun e => !e.1.before lower && e.1.before upper)

def u64Max : Nat := 18446744073709551615

/-- storage.rs:427-478 `get_transactions`: keys and values in the order of the iterator -/
def Db.getTransactions (d : Db) (acct : Nat) (startLt endLt : Option Nat) (rev : Bool) : Rows :=
  let s := startLt.getD 0
  let e := endLt.getD u64Max
  let (s, e) := if e < s then (u64Max - 1, u64Max) else (s, e)
  let l := between d.txs ⟨acct, s⟩ ⟨acct, min (e + 1) u64Max⟩
  if rev then l.reverse else l

/-- storage.rs:531-576 `get_src_transaction` -/
def Db.getSrc (d : Db) (acct msgLt : Nat) : Option Tx :=
  match (between d.txs ⟨acct, 0⟩ ⟨acct, msgLt⟩).getLast? with
  | none => none
  | some (k, _) => if k.acct ≠ acct then none else get d.txs k

end Tycho.Rpc
