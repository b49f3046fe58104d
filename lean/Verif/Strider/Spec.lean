import Verif.Strider.Model

/-!
What the strider has to do, from the blocks alone.
-/
namespace Tycho.Strider
open Tycho.Table

/-- The blocks right before a shard block: two after a merge, the block of the parent shard after a split. -/
def parents (w : World) (b : BlockId) : List BlockId :=
  match w.shardBlock b with
  | none => []
  | some i =>
    match i.prev with
    | .afterMerge ls lh rs rh => [⟨w.left b.shard, ls, lh⟩, ⟨w.right b.shard, rs, rh⟩]
    | .single s h => if i.afterSplit then [⟨w.up b.shard, s, h⟩] else [⟨b.shard, s, h⟩]

/-- `a` is `b` or an ancestor of it. -/
inductive Anc (w : World) : BlockId → BlockId → Prop
  | refl (b) : Anc w b b
  | step (a p b) : Anc w a p → p ∈ parents w b → Anc w a b

/-- Shard block `b` belongs to the history of masterchain block `m`. -/
def Covered (w : World) (m b : BlockId) : Prop := b.seqno ≠ 0 ∧ ∃ t ∈ (w.mcBlock m).tops, Anc w b t

/-- `b` is a shard block that comes with `m`, the masterchain block after `p`. -/
def New (w : World) (p m b : BlockId) : Prop := Covered w m b ∧ ¬ Covered w p b

/-- `b` comes with some masterchain block after `p`. -/
def Future (w : World) (p b : BlockId) : Prop := ¬ Covered w p b ∧ ∃ m, Path w p m ∧ Covered w m b

/-- A valid continuation of the masterchain: seqnos grow by one, shard histories only grow, new blocks are
attached to top blocks, and blocks after a split or merge are the first ones of their masterchain block
(mod.rs:315-317). -/
structure ValidNext (w : World) (p m : BlockId) : Prop where
  mc : m.shard = 0
  seqno : m.seqno = p.seqno + 1
  shards : ∀ t ∈ (w.mcBlock m).tops, t.shard ≠ 0
  distinct : ((w.mcBlock m).tops.map BlockId.shard).Nodup
  keeps : ∀ t ∈ (w.mcBlock p).tops, t.seqno ≠ 0 → Covered w m t
  attached : ∀ b, New w p m b → ∀ a ∈ parents w b, Covered w p a → a ∈ (w.mcBlock p).tops
  old : ∀ t ∈ (w.mcBlock m).tops, Covered w p t → t ∈ (w.mcBlock p).tops
  split : ∀ b i, New w p m b → w.shardBlock b = some i → (i.afterSplit || i.afterMerge) = true →
    ∀ a ∈ parents w b, a.seqno = 0 ∨ Covered w p a

/-- Blocks are well formed: seqnos grow along a chain, and a reference to two blocks is there exactly after a
merge. -/
structure BlocksOk (w : World) : Prop where
  grow : ∀ b, ∀ a ∈ parents w b, a.seqno < b.seqno
  merge : ∀ b i, w.shardBlock b = some i → ∀ ls lh rs rh, i.prev = .afterMerge ls lh rs rh → i.afterMerge = true

/-- Hypotheses on the blocks and the provider. `heights` is what the rule of the garbage collection needs:
top blocks and later blocks are not below the top blocks of an earlier masterchain block. -/
structure WorldOk (w : World) : Prop where
  blocks : BlocksOk w
  next : ∀ p m, w.next p m → ValidNext w p m
  heights : ∀ q p b, Path w q p → b.seqno ≠ 0 → (b ∈ (w.mcBlock p).tops ∨ Future w p b) →
    heightsContain w (heights (w.mcBlock q).tops) b = true
  saves : w.saves = true

/-- Start: after a cold boot the top blocks of the last masterchain block are committed
(starter/cold_boot.rs:421-446, 571, 621), nothing runs. -/
structure InitOk (w : World) (s : State) : Prop where
  run : s.run = none
  past : s.past = []
  shards : ∀ t ∈ (w.mcBlock (s.store.last w)).tops, t.shard ≠ 0
  tops : ∀ t ∈ (w.mcBlock (s.store.last w)).tops, t.seqno ≠ 0 → s.store.isCommitted w t = true
  rest : ∀ b, s.store.isCommitted w b = true → b.shard ≠ 0 → Covered w (s.store.last w) b

/-- An execution: the events (newest first) and the state they lead to. -/
inductive Exec (w : World) (s0 : State) : List Event → State → Prop
  | init : Exec w s0 [] s0
  | step (tr s e s') : Exec w s0 tr s → Step w s e s' → Exec w s0 (e :: tr) s'

/-- The block is behind: in the history of the last committed masterchain block, or committed, or the
initial state of a shard. -/
def Behind (w : World) (st : Store) (b : BlockId) : Prop :=
  b.seqno = 0 ∨ st.isCommitted w b = true ∨ Covered w (st.last w) b

end Tycho.Strider
