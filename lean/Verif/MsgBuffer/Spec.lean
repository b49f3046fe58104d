import Verif.MsgBuffer.Model

/-! ## What filling a group should do -/
namespace Tycho.MsgBuffer

open Tycho.Table

/-- Messages buffered for an account. -/
def msgsOf (l : List (Acc × List Msg)) (a : Acc) : List Msg := (get l a).getD []

/-- All buffered messages. -/
def allMsgs (l : List (Acc × List Msg)) : List Msg := l.flatMap (·.2)

/-- One account: messages `p` were taken off the front of the buffer `b`, those that need not be skipped were appended to the group `g` in
order, and the rest stays, perhaps without messages to be skipped. -/
def Moved (f : Filter) (g b g' b' : List Msg) : Prop :=
  ∃ p r, b = p ++ r ∧ g' = g ++ p.filter (fun m => !f.skips m) ∧ (b' = r ∨ b' = r.filter (fun m => !f.skips m))

/-- A well formed buffer: one non-empty entry per account with messages of this account, exact counters, and a lower bound of the chain
times of externals. -/
structure BufOk (b : Buffer) : Prop where
  uniq : Uniq b.msgs
  nonempty : ∀ e ∈ b.msgs, e.2 ≠ []
  dst : ∀ e ∈ b.msgs, ∀ m ∈ e.2, m.dst = e.1
  int : b.int = (allMsgs b.msgs).countP Msg.isInt
  ext : b.ext = (allMsgs b.msgs).countP Msg.isExt
  minExt : ∀ m ∈ allMsgs b.msgs, ∀ ct, m.kind = .ext ct → ∃ t, b.minExt = some t ∧ t ≤ ct

/-- A well formed group with at most `v` messages per slot: each account with messages is in exactly one slot, slots are not empty, all
counters are exact, and each slot is found in the index under its message count. -/
structure GroupOk (v : Nat) (g : Group) : Prop where
  uniq : Uniq g.slots
  nodup : ∀ sid s, get g.slots sid = some s → s.accounts.Nodup
  nonempty : ∀ sid s, get g.slots sid = some s → s.accounts ≠ [] ∧ ∀ a ∈ s.accounts, g.msgs a ≠ []
  disjoint : ∀ i j s t a, get g.slots i = some s → get g.slots j = some t → a ∈ s.accounts → a ∈ t.accounts → i = j
  cover : ∀ a, g.msgs a ≠ [] → ∃ sid s, get g.slots sid = some s ∧ a ∈ s.accounts
  slotInt : ∀ sid s, get g.slots sid = some s → s.int = (s.accounts.flatMap g.msgs).countP Msg.isInt
  slotExt : ∀ sid s, get g.slots sid = some s → s.ext = (s.accounts.flatMap g.msgs).countP Msg.isExt
  vert : ∀ sid s, get g.slots sid = some s → s.count ≤ v
  last : ∀ sid s, get g.slots sid = some s → ∃ l, g.last = some l ∧ sid ≤ l
  int : g.int = (g.slots.map (·.2.int)).sum
  ext : g.ext = (g.slots.map (·.2.ext)).sum
  indexed : ∀ sid s, get g.slots sid = some s → sid ∈ g.index.getD s.count []
  index : ∀ n sid, sid ∈ g.index.getD n [] → (get g.slots sid).isSome

/-- Accounts that must not get messages into the group. -/
def Blocked (p : Params) (skipped : List Acc) (a : Acc) : Prop := a ∈ skipped ∨ p.check a = true

/-- Messages a fill moved from the buffer `b` into the group. -/
def movedOut (b : Buffer) (g g' : Group) : List Msg := (b.msgs.map (·.1)).flatMap (fun a => (g'.msgs a).drop (g.msgs a).length)

/-- What a fill of the group `g` from the buffer `b` with up to `n` slots has to achieve. -/
structure Filled (p : Params) (n : Nat) (b : Buffer) (g : Group) (skipped : List Acc) (r : FillResult) : Prop where
  /-- The new states are well formed; no slot has more than `p.vert` messages. -/
  buf : BufOk r.buf
  group : GroupOk p.vert r.group
  /-- Per account: order is kept, nothing is lost except messages the filter skips, nothing is duplicated. -/
  moved : ∀ a, Moved p.filter (g.msgs a) (msgsOf b.msgs a) (r.group.msgs a) (msgsOf r.buf.msgs a)
  /-- Blocked accounts get nothing into the group. -/
  blocked : ∀ a, Blocked p skipped a → r.group.msgs a = g.msgs a
  /-- No more slots than allowed. -/
  slots : r.group.slots.length ≤ max n g.slots.length
  /-- The reported messages are those moved; everything else missing in the buffer has expired. -/
  count : r.count = (movedOut b g r.group).length
  collected : r.collected.Perm (keysOf (movedOut b g r.group))
  total : (allMsgs b.msgs).length = (allMsgs r.buf.msgs).length + r.count + r.expired
  /-- Accounts keep their order in the buffer. -/
  order : (r.buf.msgs.map (·.1)).Sublist (b.msgs.map (·.1))
  /-- If a slot may still be added, every usable account with messages left is in the group. -/
  freeSlot : r.group.slots.length < n → ∀ a, ¬ Blocked p skipped a → msgsOf r.buf.msgs a ≠ [] → r.group.msgs a ≠ []
  /-- If a slot has room, its usable accounts have no messages left, and every usable account with messages left is in the group. -/
  room : ∀ sid s, get r.group.slots sid = some s → s.count < p.vert →
    (∀ a ∈ s.accounts, ¬ Blocked p skipped a → msgsOf r.buf.msgs a = []) ∧
    ∀ a, ¬ Blocked p skipped a → msgsOf r.buf.msgs a ≠ [] → r.group.msgs a ≠ []
  /-- The set of skipped accounts grows by accounts that fail the check. -/
  skippedSub : ∀ a ∈ skipped, a ∈ r.skipped
  skippedSup : ∀ a ∈ r.skipped, Blocked p skipped a

/-- How callers use buffers: one slot size, transactions are not nested, and accounts are removed only with internal messages. -/
def Legal (v : Nat) (w : World) : Op → Prop
  | .add _ _ => True
  | .remove i rm => ∀ e ∈ (w.bufs i).msgs, rm e.1 = true → ∀ m ∈ e.2, m.isInt = true
  | .fill _ p _ _ => p.vert = v
  | .begin i => (w.bufs i).tx = none
  | .commit i => (w.bufs i).tx.isSome
  | .rollback i => (w.bufs i).tx.isSome
  | .next => True

def LegalAll (v : Nat) (w : World) : List Op → Prop
  | [] => True
  | op :: ops => Legal v w op ∧ ∀ w', run w op = some w' → LegalAll v w' ops

/-- The operation begins or ends a transaction of the buffer `i`. -/
def Op.isTx (i : Nat) : Op → Prop
  | .begin j => j = i
  | .commit j => j = i
  | .rollback j => j = i
  | _ => False

end Tycho.MsgBuffer
