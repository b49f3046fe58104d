import Verif.Common.Table

/-!
The target of the blocks garbage collection: core/src/storage/gc.rs (`DiffTailCache`, the scheduled branch of `blocks_gc`).
Atomics and the lock are single steps; waiting is not modelled: `tailLen` is the result once the block was handled.
-/
namespace Tycho.BlocksGc
open Tycho.Table

/-- gc.rs:533-539 `DiffTailCacheInner`; `acc` is `max_tail_len` (0: no shard block yet) -/
structure Cache where
  acc : Nat
  fin : Table Nat (Nat × Nat)
deriving DecidableEq

def Cache.empty : Cache := ⟨0, []⟩

/-- gc.rs:587-592 a shard block -/
def Cache.shard (c : Cache) (tail : Nat) : Cache := { c with acc := max c.acc (1 + tail) }

/-- gc.rs:555-586 a masterchain block -/
def Cache.master (c : Cache) (seqno tail : Nat) : Cache :=
  let sc :=
    if 0 < c.acc then c.acc - 1
    else
      match get c.fin (seqno - 1) with
      | some e => e.2
      | none => 1
  ⟨0, put c.fin seqno (tail, sc)⟩

/-- gc.rs:612-618, 639-643 -/
def Cache.tailLen (c : Cache) (seqno : Nat) : Option Nat := (get c.fin seqno).map (fun e => max e.1 e.2)

/-- gc.rs:621-630; the bound of `u32` is not modelled -/
def Cache.cleanup (c : Cache) (upto : Nat) : Cache := { c with fin := del c.fin (fun k => decide (k ≤ upto)) }

/-- gc.rs:303-327 the target for the last masterchain block `last` -/
def gcTarget (last safeDistance tail : Nat) : Option Nat :=
  let d := max safeDistance (max 100 (tail + 1))
  if last ≤ d then none else some (last - d)

/-- A masterchain block as the node handles it: its seqno, its tail length, and the shard blocks handled before it
(shard, tail length), oldest first. -/
structure McBlock where
  seqno : Nat
  tail : Nat
  shards : List (Nat × Nat)

/-- gc.rs:146-164 `handle_block` for the shard blocks and the masterchain block -/
def Cache.handle (c : Cache) (b : McBlock) : Cache := (b.shards.foldl (fun c s => c.shard s.2) c).master b.seqno b.tail

end Tycho.BlocksGc
