import Verif.CumulStats.Model

/-!
Specification of the cumulative statistics: it remembers all diffs ever added and the last known processed positions, and nothing
else. The number of pending messages for an account is a sum over the diffs.
-/
namespace Tycho.CumulStats
open Tycho.Table

/-- Operations on the statistics. -/
inductive Op where
  /-- Adds the statistics of a diff (`apply_diff_stats` and `load_ranges` do it for each diff and partition). -/
  | apply (id : DiffId) (stats : Accounts)
  /-- `handle_processed_to_update`. -/
  | update (dst : Nat) (pt : ProcTo)
  /-- `update_processed_to_by_partitions`. -/
  | updateAll (new : Table Nat (Bool × ProcTo))
  /-- A reader takes messages of an account of the own shard. -/
  | read (part a n : Nat)
  | begin
  | commit
  | rollback

/-- All that matters: the diffs as they came, processed positions by destination shard, messages of own accounts not read yet. -/
structure Snap where
  applied : List Diff
  proc : Table Nat (Bool × ProcTo)
  unread : Nat → Nat → Nat

/-- With a copy made at the begin of a transaction. -/
structure Spec where
  now : Snap
  saved : Option Snap

/-- The messages of a diff for account `a` are processed: the shard of the account reports a position not below the diff. -/
def isProcessed (env : Env) (proc : Table Nat (Bool × ProcTo)) (id : DiffId) (a : Nat) : Bool :=
  proc.any (fun x => env.contains x.1 a && match get x.2.2 (id.part, id.src) with
    | some k => decide (id.key ≤ k)
    | none => false)

/-- Messages of a diff for an account, without processed ones. -/
def pendingIn (env : Env) (proc : Table Nat (Bool × ProcTo)) (d : Diff) (a : Nat) : Nat :=
  if isProcessed env proc d.id a then 0 else (get d.stats a).getD 0

/-- Messages in a partition for an account that are not processed yet. -/
def Snap.pending (env : Env) (s : Snap) (part a : Nat) : Nat :=
  (s.applied.map (fun d => if d.id.part = part then pendingIn env s.proc d a else 0)).sum

def Snap.step (env : Env) (s : Snap) : Op → Snap
  | .apply id stats => {
      s with
      applied := s.applied ++ [⟨id, stats⟩]
      unread := fun p a => s.unread p a + if p = id.part then pendingIn env s.proc ⟨id, stats⟩ a else 0
    }
  | .update dst pt => { s with proc := put s.proc dst (true, pt) }
  | .updateAll new => { s with proc := new }
  | .read part a n => { s with unread := fun p b => if p = part ∧ b = a then s.unread p b - n else s.unread p b }
  | _ => s

def Spec.step (env : Env) (s : Spec) : Op → Spec
  | .begin => { s with saved := some s.now }
  | .commit => { s with saved := none }
  | .rollback => match s.saved with
    | some x => ⟨x, none⟩
    | none => s
  | op => { s with now := s.now.step env op }

/-- No position goes back or disappears. -/
def Later (old new : ProcTo) : Prop := ∀ i k, get old i = some k → ∃ k', get new i = some k' ∧ k ≤ k'

/-- How the collator uses the statistics: a diff is added once and counts at least one message for each account in it, processed
positions do not go back, readers take only what was added for own accounts, transactions are not nested. -/
def Legal (env : Env) (s : Spec) : Op → Prop
  | .apply id stats => (∀ d ∈ s.now.applied, d.id ≠ id) ∧ Uniq stats ∧ ∀ e ∈ stats, 0 < e.2
  | .update dst pt => ∀ x, get s.now.proc dst = some x → Later x.2 pt
  | .updateAll new => Uniq new ∧ ∀ dst x, get s.now.proc dst = some x → ∃ y, get new dst = some y ∧ Later x.2 y.2
  | .read part a n => env.contains env.own a = true ∧ 0 < n ∧ n ≤ s.now.unread part a
  | .begin => s.saved = none
  | .commit => s.saved ≠ none
  | .rollback => s.saved ≠ none

/-- The specification after legal operations. -/
inductive Trace (env : Env) (proc : Table Nat (Bool × ProcTo)) : List Op → Spec → Prop
  | init : Trace env proc [] ⟨⟨[], proc, fun _ _ => 0⟩, none⟩
  | step {ops : List Op} {s : Spec} (op : Op) : Trace env proc ops s → Legal env s op → Trace env proc (ops ++ [op]) (s.step env op)

/-- Shards do not overlap. -/
def Disjoint (env : Env) : Prop := ∀ s s' a, env.contains s a = true → env.contains s' a = true → s = s'

/-- An operation of the code. -/
def Cum.step (env : Env) (c : Cum) : Op → Option Cum
  | .apply id stats => c.apply env id stats
  | .update dst pt => c.handleUpdate env dst pt
  | .updateAll new => c.updateAll env new
  | .read part a n => c.read env part a n
  | .begin => c.begin
  | .commit => c.commit env
  | .rollback => c.rollback

/-- Operations one by one; `none` after a panic. -/
def Cum.run (env : Env) (c : Cum) (ops : List Op) : Option Cum := ops.foldl (fun c op => c.bind (Cum.step env · op)) (some c)

/-- What a user of the statistics sees: the count of an account in a partition. -/
def Cum.initialCount (c : Cum) (part a : Nat) : Nat := match get c.result part with
  | some e => (e.initial.get a).getD 0
  | none => 0

/-- The count of remaining messages of an account in a partition. -/
def Cum.remainingCount (c : Cum) (part a : Nat) : Nat := match get c.result part with
  | some e => (e.remaining.q.get a).getD 0
  | none => 0

end Tycho.CumulStats
