import Verif.Common.Table

/-!
Index of accounts by code hash: rpc/src/state/storage.rs. An address is a number of 33 bytes: workchain byte and account. Keys of `code_hashes` are
compared as pairs of numbers (the same order as that of the bytes, C21 and `Rpc/Codec.lean`).
-/
namespace Tycho.Rpc
open Tycho.Table

/-- tables.rs:152-169 `CodeHashes`: `code hash, address` -/
structure CKey where
  code : Nat
  addr : Nat
deriving DecidableEq, Repr

def CKey.before (a b : CKey) : Bool := decide (a.code < b.code) || (decide (a.code = b.code) && decide (a.addr < b.addr))

structure Codes where
  /-- `code_hashes`: keys in their order -/
  main : List CKey
  /-- `code_hashes_by_address` -/
  byAddr : Table Nat Nat

def putKey (t : List CKey) (k : CKey) : List CKey := t.filter (fun e => e.before k) ++ k :: t.filter (fun e => k.before e)

inductive COp where
  | putMain (k : CKey)
  | delMain (k : CKey)
  | putAddr (a c : Nat)
  | delAddr (a : Nat)
deriving DecidableEq, Repr

def Codes.op (d : Codes) : COp → Codes
  | .putMain k => { d with main := putKey d.main k }
  | .delMain k => { d with main := d.main.filter (fun e => !decide (e = k)) }
  | .putAddr a c => { d with byAddr := put d.byAddr a c }
  | .delAddr a => { d with byAddr := del d.byAddr (fun x => decide (x = a)) }

def Codes.write (d : Codes) (l : List COp) : Codes := l.foldl Codes.op d

/-- what is found for an account in the new state of the block -/
inductive Look where
  | absent
  /-- storage.rs:2323: the cell of the account is pruned -/
  | pruned
  | found (code : Option Nat)
deriving DecidableEq, Repr

/-- storage.rs:1438-1447, 2322-2335: `none`: nothing to do -/
def newCode (look : Look) (remove : Bool) : Option (Option Nat) :=
  if remove then some none else
  match look with
  | .absent => some none
  | .pruned => none
  | .found c => some c

/-- storage.rs:1477-1481 -/
def delOld (addr : Nat) : Option Nat → List COp
  | none => []
  | some o => [.delMain ⟨o, addr⟩]

/-- storage.rs:1483-1506 -/
def putNew (addr : Nat) : Option Nat → List COp
  | some n => [.putMain ⟨n, addr⟩, .putAddr addr n]
  | none => [.delAddr addr]

/-- storage.rs:1429-1509 `update_code_hash`: operations added to the batch; the old hash is read from the table -/
def codeOps (d : Codes) (addr : Nat) (look : Look) (remove : Bool) : List COp :=
  match newCode look remove with
  | none => []
  | some new =>
    let old := get d.byAddr addr
    if (remove = true ∧ old = none) ∨ (old = new ∧ new.isSome = true) then [] else delOld addr old ++ putNew addr new

/-- a transaction: statuses of the account before and after it are `Active`, and it has special actions -/
structure TxFlags where
  orig : Bool
  fin : Bool
  special : Bool
deriving DecidableEq, Repr

/-- storage.rs:1243-1249 variables of the loop -/
structure Flags where
  first : Bool
  special : Bool
  was : Bool
  is : Bool
deriving DecidableEq, Repr

/-- storage.rs:1261-1286 -/
def Flags.tx (f : Flags) (t : TxFlags) : Flags :=
  let was := if f.first then t.orig else f.was
  let special := f.special || (was && !t.orig)
  ⟨false, special || t.special, was, t.fin⟩

/-- storage.rs:1243-1286, 1338-1352: `some true` is a removal -/
def codeUpdate (txs : List TxFlags) : Option Bool :=
  let f := txs.foldl Flags.tx ⟨true, false, false, false⟩
  if f.is && (!f.was || f.special) then some false
  else if f.was && !f.is then some true
  else none

/-- an account of a block -/
structure AccBlock where
  addr : Nat
  txs : List TxFlags
  look : Look

/-- storage.rs:1234-1370 the operations of a block for the index: tables are read as they were before the batch -/
def blockOps (d : Codes) (l : List AccBlock) : List COp :=
  l.flatMap (fun a => match codeUpdate a.txs with
    | none => []
    | some remove => codeOps d a.addr a.look remove)

def Codes.block (d : Codes) (l : List AccBlock) : Codes := d.write (blockOps d l)

/-! ### Queries -/

/-- the address `-1:ff..ff` -/
def maxAddr : Nat := 256 ^ 33 - 1

/-- storage.rs:283-324 `get_accounts_by_code_hash`: addresses in the order of the iterator -/
def Codes.accounts (d : Codes) (code : Nat) (cont : Option Nat) : List Nat :=
  let l := d.main.filter (fun k => !k.before ⟨code, cont.getD 0⟩ && k.before ⟨code, maxAddr⟩)
  let l := if cont.isSome then l.tail else l
  l.map (·.addr)

/-! ### Reset of the accounts of a shard -/

/-- storage.rs:2408-2411 `extract_tag` for 64 bits -/
def tagOf (pre : Nat) : Nat := pre &&& ((2 ^ 64 - 1 - pre + 1) % 2 ^ 64)

/-- the account part of an address, and its first 64 bits -/
def wcOf (addr : Nat) : Nat := addr / 2 ^ 256
def topOf (addr : Nat) : Nat := addr % 2 ^ 256 / 2 ^ 192

/-- storage.rs:1514-1529, 2390-2406: `from`, `to` -/
def shardFrom (wc pre : Nat) : Nat := wc * 2 ^ 256 + (pre - tagOf pre) * 2 ^ 192
def shardTo (wc pre : Nat) : Nat := wc * 2 ^ 256 + (pre ||| (pre - 1)) * 2 ^ 192 + (2 ^ 192 - 1)

/-- storage.rs:1511-1605 `remove_code_hashes` -/
def Codes.removeShard (d : Codes) (wc pre : Nat) : Codes :=
  let tag := tagOf pre
  { byAddr := del (del d.byAddr (fun a => decide (shardFrom wc pre ≤ a) && decide (a < shardTo wc pre))) (fun a => decide (a = shardTo wc pre))
    main := d.main.filter (fun k => !(decide (wcOf k.addr = wc) &&
      (decide (pre = 2 ^ 63) || decide ((topOf k.addr ^^^ (pre - tag)) &&& (2 ^ 64 - 1 - (tag ||| (tag - 1))) = 0)))) }

def resetOps (a : Nat × Option Nat) : List COp :=
  match a.2 with
  | none => []
  | some c => [.putMain ⟨c, a.1⟩, .putAddr a.1 c]

/-- storage.rs:656-727: `accounts` are those of the shard in the state, with hashes of their codes -/
def Codes.reset (d : Codes) (wc pre : Nat) (accounts : List (Nat × Option Nat)) : Codes :=
  (d.removeShard wc pre).write (accounts.flatMap resetOps)

end Tycho.Rpc
