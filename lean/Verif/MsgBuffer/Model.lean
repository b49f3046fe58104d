import Verif.Common.Table

/-!
# The message buffer of the collator (`collator/src/collator/messages_buffer.rs`)

Buffered messages per account in the order of first arrival, and the filling of message groups. Simplifications: a message is its
destination, an opaque content and its kind; the hash map of a group is a function to lists, where an absent account is an empty list
(the code removes an entry that stayed empty, :561-564); work-unit counters (`ops_count`) are left out; `u16` slot ids do not wrap.
-/
namespace Tycho.MsgBuffer

open Tycho.Table

abbrev Acc := Nat

/-- `QueueKey` of an internal message. -/
abbrev Key := Nat × Nat

/-- `MsgInfo` of an ordinary message: internal with its queue key, or inbound external with its chain time. -/
inductive Kind
  | int (key : Key)
  | ext (chainTime : Nat)
  deriving DecidableEq, Repr

structure Msg where
  dst : Acc
  body : Nat
  kind : Kind
  deriving DecidableEq, Repr

def Msg.isInt (m : Msg) : Bool := match m.kind with
  | .int _ => true
  | .ext _ => false

def Msg.isExt (m : Msg) : Bool := !m.isInt

/-- `BufferTransaction` (:29-39). -/
structure Tx where
  int : Nat
  ext : Nat
  minExt : Option Nat
  order : List Acc
  backups : Table Acc (List Msg)
  deriving Repr, DecidableEq

/-- `MessagesBuffer` (:41-48); `msgs` in index order. -/
structure Buffer where
  msgs : List (Acc × List Msg)
  int : Nat
  ext : Nat
  minExt : Option Nat
  tx : Option Tx
  deriving Repr, DecidableEq

def Buffer.empty : Buffer := ⟨[], 0, 0, none, none⟩

/-- `begin` (:51-60); `none`: assertion. -/
def begin (b : Buffer) : Option Buffer := match b.tx with
  | some _ => none
  | none => some { b with tx := some ⟨b.int, b.ext, b.minExt, b.msgs.map (·.1), []⟩ }

/-- `commit` (:62-64). -/
def commit (b : Buffer) : Option Buffer := match b.tx with
  | none => none
  | some _ => some { b with tx := none }

/-- What is put back for one account (:84-94): the backup, else the current messages, else a panic. -/
def restoreOne (backups cur : Table Acc (List Msg)) (a : Acc) : Option (Acc × List Msg) := match get backups a with
  | some l => some (a, l)
  | none => (get cur a).map (fun l => (a, l))

/-- `rollback` (:66-97). -/
def rollback (b : Buffer) : Option Buffer := match b.tx with
  | none => none
  | some t => (t.order.mapM (restoreOne t.backups b.msgs)).map (fun l => ⟨l, t.int, t.ext, t.minExt, none⟩)

/-- `backup_account` (:107-117). -/
def backup (b : Buffer) (a : Acc) (l : List Msg) : Buffer := match b.tx with
  | none => b
  | some t => match get t.backups a with
    | some _ => b
    | none => { b with tx := some { t with backups := put t.backups a l } }

/-- `update_min_ext_chain_time` (:129-136). -/
def updateMin (old : Option Nat) (ct : Nat) : Option Nat := match old with
  | none => some ct
  | some m => if ct < m then some ct else some m

/-- The counters part of `add_message` (:153-165). -/
def countMsg (b : Buffer) (m : Msg) : Buffer := match m.kind with
  | .int _ => { b with int := b.int + 1 }
  | .ext ct => { b with ext := b.ext + 1, minExt := updateMin b.minExt ct }

def setMsgs (l : List (Acc × List Msg)) (a : Acc) (v : List Msg) : List (Acc × List Msg) := l.map (fun e => if e.1 = a then (a, v) else e)

/-- `add_message` (:146-179). -/
def addMessage (b : Buffer) (m : Msg) : Buffer :=
  let b1 := countMsg b m
  match get b1.msgs m.dst with
  | none => { b1 with msgs := b1.msgs ++ [(m.dst, [m])] }
  | some l => let b2 := backup b1 m.dst l
    { b2 with msgs := setMsgs b2.msgs m.dst (l ++ [m]) }

/-- One account in the `retain` of `remove_int_messages_by_accounts` (:186-193). -/
def removeOne (b : Buffer) (e : Acc × List Msg) : Buffer :=
  let b1 := backup b e.1 e.2
  { b1 with int := b1.int - e.2.length }

/-- `remove_int_messages_by_accounts` (:181-195). -/
def removeAccounts (b : Buffer) (rm : Acc → Bool) : Buffer :=
  let b1 := (b.msgs.filter (fun e => rm e.1)).foldl removeOne b
  { b1 with msgs := b1.msgs.filter (fun e => !rm e.1) }

/-- `MsgFilter` (:704-723). -/
inductive Filter
  | includeAll
  | skipExpired (threshold : Nat)
  deriving DecidableEq, Repr

/-- `can_skip` (:669-692). -/
def Filter.canSkip : Filter → Bool
  | .includeAll => false
  | .skipExpired _ => true

/-- `should_skip` (:676-678, :693-701). -/
def Filter.skips (f : Filter) (m : Msg) : Bool := match f, m.kind with
  | .skipExpired t, .ext ct => decide (ct < t)
  | _, _ => false

/-- `SlotInfo` (:1003-1014). -/
structure Slot where
  accounts : List Acc
  int : Nat
  ext : Nat
  deriving DecidableEq, Repr

def Slot.count (s : Slot) : Nat := s.int + s.ext
def Slot.empty : Slot := ⟨[], 0, 0⟩

/-- `SlotIndexUpdate` (:1029-1043). -/
structure Upd where
  oldInt : Nat
  oldExt : Nat
  newInt : Nat
  newExt : Nat
  deriving DecidableEq, Repr

/-- `MessageGroup` with its `SlotsInfo` (:800-803, :974-981). -/
structure Group where
  msgs : Acc → List Msg
  slots : Table Nat Slot
  last : Option Nat
  index : List (List Nat)
  int : Nat
  ext : Nat

def Group.empty : Group := ⟨fun _ => [], [], none, [], 0, 0⟩

/-- The local state of `fill_message_group`. `expired` is `total_skipped` of the filter. -/
structure Fill where
  buf : Buffer
  grp : Acc → List Msg
  slots : Table Nat Slot
  last : Option Nat
  updates : List (Nat × Upd)
  collected : List Key
  count : Nat
  skipped : List Acc
  expired : Nat

/-- What is fixed during one call: `slot_vert_size`, the filter and `check_skip_account`. -/
structure Params where
  vert : Nat
  filter : Filter
  check : Acc → Bool

/-- `check_skip_account_ext` (:231-243). -/
def checkSkip (p : Params) (st : Fill) (a : Acc) : Bool × Fill :=
  if a ∈ st.skipped then (true, st)
  else if p.check a then (true, { st with skipped := a :: st.skipped })
  else (false, st)

/-- `try_skip_account_msgs` (:613-633). -/
def trySkip (p : Params) (st : Fill) (a : Acc) : Fill :=
  if !p.filter.canSkip then st
  else match get st.buf.msgs a with
    | none => st
    | some l =>
      let b := backup st.buf a l
      { st with
        buf := { b with msgs := setMsgs b.msgs a (l.filter (fun m => !p.filter.skips m)), ext := b.ext - l.countP p.filter.skips }
        expired := st.expired + l.countP p.filter.skips }

/-- The loop of `move_account_messages_to_slot` (:528-559): what was collected, what is left, how many were skipped. -/
def takeMsgs (f : Filter) : Nat → List Msg → List Msg × List Msg × Nat
  | 0, l => ([], l, 0)
  | _ + 1, [] => ([], [], 0)
  | n + 1, m :: l =>
    if f.skips m then ((takeMsgs f (n + 1) l).1, (takeMsgs f (n + 1) l).2.1, (takeMsgs f (n + 1) l).2.2 + 1)
    else (m :: (takeMsgs f n l).1, (takeMsgs f n l).2.1, (takeMsgs f n l).2.2)

/-- Queue keys of internal messages (:546-552). -/
def keysOf (l : List Msg) : List Key := l.filterMap (fun m => match m.kind with
  | .int k => some k
  | .ext _ => none)

/-- An ordered map of updates: `entry(id).and_modify(..).or_insert(..)` (:597-608). -/
def recordUpd (u : List (Nat × Upd)) (sid : Nat) (old : Nat × Nat) (s : Slot) : List (Nat × Upd) := match u with
  | [] => [(sid, ⟨old.1, old.2, s.int, s.ext⟩)]
  | e :: u =>
    if e.1 = sid then (sid, { e.2 with newInt := s.int, newExt := s.ext }) :: u
    else if sid < e.1 then (sid, ⟨old.1, old.2, s.int, s.ext⟩) :: e :: u
    else e :: recordUpd u sid old s

/-- The slot after collecting (:583-594). -/
def growSlot (s : Slot) (a : Acc) (isNew : Bool) (taken : List Msg) : Slot :=
  ⟨if isNew then s.accounts ++ [a] else s.accounts, s.int + taken.countP Msg.isInt, s.ext + taken.countP Msg.isExt⟩

/-- The rest of `move_account_messages_to_slot` once something was collected (:579-608). -/
def collect (st : Fill) (a : Acc) (sid : Nat) (old : Nat × Nat) (s : Slot) (taken : List Msg) : Fill :=
  let s' := growSlot s a (st.grp a).isEmpty taken
  { st with
    buf := { st.buf with int := st.buf.int - taken.countP Msg.isInt, ext := st.buf.ext - taken.countP Msg.isExt }
    grp := fun x => if x = a then st.grp a ++ taken else st.grp x
    slots := put st.slots sid s'
    updates := recordUpd st.updates sid old s'
    collected := st.collected ++ keysOf taken
    count := st.count + taken.length }

/-- `move_account_messages_to_slot` (:490-611) for a slot `s` with id `sid`; the remaining capacity kept in the context is always
`slot_vert_size` less the messages of the slot. -/
def moveAcc (p : Params) (st : Fill) (a : Acc) (sid : Nat) (old : Nat × Nat) (s : Slot) : Fill := match get st.buf.msgs a with
  | none => st
  | some l =>
    let b := backup st.buf a l
    let amount := min l.length (p.vert - s.count)
    if amount = 0 then { st with buf := b }
    else
      let t := takeMsgs p.filter amount l
      let st1 := { st with buf := { b with msgs := setMsgs b.msgs a t.2.1, ext := b.ext - t.2.2 }, expired := st.expired + t.2.2 }
      if t.1.isEmpty then st1 else collect st1 a sid old s t.1

/-- The slot `sid`; slots in use are always present. -/
def slotAt (st : Fill) (sid : Nat) : Slot := (get st.slots sid).getD Slot.empty

/-- First step, inner loop (:273-309): messages of the next account that is in no slot. Returns the accounts not yet visited and whether
the slot has room left after getting messages. -/
def visitNew (p : Params) (sid : Nat) (old : Nat × Nat) : List Acc → Fill → Fill × List Acc × Bool
  | [], st => (st, [], false)
  | a :: todo, st =>
    if !(st.grp a).isEmpty then visitNew p sid old todo (trySkip p st a)
    else if (checkSkip p st a).1 then visitNew p sid old todo (trySkip p (checkSkip p st a).2 a)
    else
      let st1 := moveAcc p (checkSkip p st a).2 a sid old (slotAt (checkSkip p st a).2 sid)
      if 0 < (slotAt st1 sid).count then (st1, todo, decide ((slotAt st1 sid).count < p.vert))
      else visitNew p sid old todo st1

/-- `last_slot_id` (:257-260) and the slot entry (:263). -/
def openSlot (st : Fill) (sid : Nat) : Fill :=
  { st with
    last := some (match st.last with
      | some l => max l sid
      | none => sid)
    slots := match get st.slots sid with
      | some _ => st.slots
      | none => put st.slots sid Slot.empty }

/-- First step, outer loop (:255-333). `none`: out of fuel. Returns the slots used and the accounts not visited. -/
def fillNew (p : Params) : Nat → Nat → Nat → List Nat → List Acc → List Nat → Fill → Option (Fill × List Acc × List Nat)
  | 0, _, _, _, _, _, _ => none
  | fuel + 1, sid, remaining, notFilled, todo, used, st =>
    let st1 := openSlot st sid
    let r := visitNew p sid ((slotAt st1 sid).int, (slotAt st1 sid).ext) todo st1
    let notFilled1 := if r.2.2 then notFilled ++ [sid] else notFilled
    if (slotAt r.1 sid).count = 0 then some ({ r.1 with slots := del r.1.slots (fun j => decide (j = sid)) }, r.2.1, used)
    else if 0 < remaining then fillNew p fuel (sid + 1) (remaining - 1) notFilled1 r.2.1 (sid :: used) r.1
    else match notFilled1 with
      | s :: rest => fillNew p fuel s 0 rest r.2.1 (sid :: used) r.1
      | [] => some (r.1, r.2.1, sid :: used)

/-- Second step, accounts already in the slot (:363-388). -/
def visitOwn (p : Params) (sid : Nat) (old : Nat × Nat) : List Acc → Fill → Fill
  | [], st => st
  | a :: as, st =>
    if (checkSkip p st a).1 then visitOwn p sid old as (trySkip p (checkSkip p st a).2 a)
    else
      let st1 := moveAcc p (checkSkip p st a).2 a sid old (slotAt (checkSkip p st a).2 sid)
      if p.vert ≤ (slotAt st1 sid).count then st1 else visitOwn p sid old as st1

/-- Second step, accounts in no slot (:396-428). -/
def visitFill (p : Params) (sid : Nat) (old : Nat × Nat) : List Acc → Fill → Fill × List Acc
  | [], st => (st, [])
  | a :: todo, st =>
    if !(st.grp a).isEmpty then visitFill p sid old todo (trySkip p st a)
    else if (checkSkip p st a).1 then visitFill p sid old todo (trySkip p (checkSkip p st a).2 a)
    else
      let st1 := moveAcc p (checkSkip p st a).2 a sid old (slotAt (checkSkip p st a).2 sid)
      if p.vert ≤ (slotAt st1 sid).count then (st1, todo) else visitFill p sid old todo st1

/-- One slot of the second step (:354-428). -/
def fillSlot (p : Params) (sid : Nat) (s : Slot) (todo : List Acc) (st : Fill) : Fill × List Acc :=
  let st1 := visitOwn p sid (s.int, s.ext) s.accounts st
  if p.vert ≤ (slotAt st1 sid).count then (st1, todo) else visitFill p sid (s.int, s.ext) todo st1

/-- Second step (:340-430) over the slots found in the index; `none`: the slot of an index entry does not exist. -/
def fillOld (p : Params) (used : List Nat) : List Nat → List Acc → Fill → Option (Fill × List Acc)
  | [], todo, st => some (st, todo)
  | sid :: ids, todo, st =>
    if sid ∈ used then fillOld p used ids todo st
    else match get st.slots sid with
      | none => none
      | some s => fillOld p used ids (fillSlot p sid s todo st).2 (fillSlot p sid s todo st).1

/-- `presize` (:1066-1070). -/
def presize (ix : List (List Nat)) (len : Nat) : List (List Nat) := ix ++ List.replicate (len + 1 - ix.length) []

/-- Insertion into an `IndexSet`. -/
def insertId (l : List Nat) (x : Nat) : List Nat := if x ∈ l then l else l ++ [x]

/-- `get_mut_or_grow(idx).insert(id)` (:1073-1076). -/
def indexAdd (ix : List (List Nat)) (n sid : Nat) : List (List Nat) := (presize ix n).modify n (fun l => insertId l sid)

/-- `entry(n).and_modify(|s| s.insert(id)).or_default()` (:454-459): the first slot of a count creates an empty set. -/
def noteRemoval (r : Table Nat (List Nat)) (n sid : Nat) : Table Nat (List Nat) := match get r n with
  | some l => put r n (sid :: l)
  | none => put r n []

/-- What the third step works on. -/
structure IndexSt where
  index : List (List Nat)
  removals : Table Nat (List Nat)
  int : Nat
  ext : Nat

/-- One update (:451-471). -/
def applyUpd (x : IndexSt) (e : Nat × Upd) : IndexSt :=
  let y := if e.2.oldInt + e.2.oldExt ≠ 0
    then { x with removals := noteRemoval x.removals (e.2.oldInt + e.2.oldExt) e.1, int := x.int - e.2.oldInt, ext := x.ext - e.2.oldExt }
    else x
  { y with index := indexAdd y.index (e.2.newInt + e.2.newExt) e.1, int := y.int + e.2.newInt, ext := y.ext + e.2.newExt }

/-- :472-478. -/
def removeIds (ix : List (List Nat)) (e : Nat × List Nat) : List (List Nat) := ix.modify e.1 (fun l => l.filter (fun id => decide (id ∉ e.2)))

/-- The end of `fill_message_group` (:432-487): expired messages of accounts not visited, empty accounts, the index. -/
def finish (p : Params) (g : Group) (todo : List Acc) (st : Fill) : Fill × Group :=
  let st1 := if p.filter.canSkip then todo.foldl (trySkip p) st else st
  let msgs := st1.buf.msgs.filter (fun e => !e.2.isEmpty)
  let buf := { st1.buf with msgs := msgs, minExt := if msgs.isEmpty then none else st1.buf.minExt }
  let x := st1.updates.foldl applyUpd ⟨presize g.index p.vert, [], g.int, g.ext⟩
  ({ st1 with buf := buf },
   ⟨st1.grp, st1.slots, st1.last, x.removals.foldl removeIds x.index, x.int, x.ext⟩)

/-- First step with its condition (:246-334). -/
def stepNew (p : Params) (slotsCount : Nat) (g : Group) (todo : List Acc) (st : Fill) : Option (Fill × List Acc × List Nat) :=
  if 0 < slotsCount - g.slots.length
  then fillNew p (slotsCount + 2 * todo.length + 1) (g.last.getD 0 + 1) (slotsCount - g.slots.length - 1) [] todo [] st
  else some (st, todo, [])

structure FillResult where
  buf : Buffer
  group : Group
  collected : List Key
  count : Nat
  skipped : List Acc
  expired : Nat

def start (b : Buffer) (g : Group) (skipped : List Acc) : Fill := ⟨b, g.msgs, g.slots, g.last, [], [], 0, skipped, 0⟩

def result (r : Fill × Group) : FillResult := ⟨r.1.buf, r.2, r.1.collected, r.1.count, r.1.skipped, r.1.expired⟩

/-- `fill_message_group` (:198-488). Buckets with fewer than `slot_vert_size` messages are visited in the second step (:340). -/
def fill (p : Params) (slotsCount : Nat) (b : Buffer) (g : Group) (skipped : List Acc) : Option FillResult :=
  (stepNew p slotsCount g (b.msgs.map (·.1)) (start b g skipped)).bind (fun r =>
    (fillOld p r.2.2 (((presize g.index p.vert).take p.vert).flatten) r.2.1 r.1).map (fun q =>
      result (finish p g q.2 q.1)))

/-- `MessageGroup::check_is_filled` (:826-845). -/
def isFilled (g : Group) (slotsCount vert : Nat) : Bool :=
  if 0 < slotsCount - g.slots.length then false else (g.index.take vert).all (fun l => l.isEmpty)

/-- Putting the slots of another group behind (:861-870), `next` is the next slot id. -/
def addSlots : Group → Nat → List (Nat × Slot) → Group
  | g, _, [] => g
  | g, next, e :: es => addSlots { g with
      index := indexAdd g.index e.2.count next
      slots := put g.slots next e.2
      last := some next } (next + 1) es

/-- The accounts of a group: those in its slots. -/
def Group.accounts (g : Group) : List Acc := g.slots.flatMap (·.2.accounts)

/-- The first new slot id (:856-860). -/
def nextId (g : Group) : Nat := match g.last with
  | some l => l + 1
  | none => 0

/-- `impl Add for MessageGroup` (:852-882); `none`: an account is in both groups. -/
def addGroup (g o : Group) : Option Group :=
  if o.accounts.all (fun a => (g.msgs a).isEmpty) then
    let g1 := addSlots g (nextId g) o.slots
    some { g1 with int := g1.int + o.int, ext := g1.ext + o.ext, msgs := fun a => if (o.msgs a).isEmpty then g.msgs a else o.msgs a }
  else none

/-! ### Histories -/

/-- Several buffers (ranges, partitions) and the group being filled. -/
structure World where
  bufs : Nat → Buffer
  grp : Group

def World.init : World := ⟨fun _ => Buffer.empty, Group.empty⟩

def setBuf (w : World) (i : Nat) (b : Buffer) : World := { w with bufs := fun j => if j = i then b else w.bufs j }

/-- Calls on the buffer `i`; `next`: the group is handed out and a new one begins. -/
inductive Op
  | add (i : Nat) (m : Msg)
  | remove (i : Nat) (rm : Acc → Bool)
  | fill (i : Nat) (p : Params) (n : Nat) (skipped : List Acc)
  | begin (i : Nat)
  | commit (i : Nat)
  | rollback (i : Nat)
  | next

def run (w : World) : Op → Option World
  | .add i m => some (setBuf w i (addMessage (w.bufs i) m))
  | .remove i rm => some (setBuf w i (removeAccounts (w.bufs i) rm))
  | .fill i p n sk => (fill p n (w.bufs i) w.grp sk).map (fun r => { setBuf w i r.buf with grp := r.group })
  | .begin i => (MsgBuffer.begin (w.bufs i)).map (setBuf w i)
  | .commit i => (MsgBuffer.commit (w.bufs i)).map (setBuf w i)
  | .rollback i => (MsgBuffer.rollback (w.bufs i)).map (setBuf w i)
  | .next => some { w with grp := Group.empty }

def runs (w : World) : List Op → Option World
  | [] => some w
  | op :: ops => (run w op).bind (fun w' => runs w' ops)

end Tycho.MsgBuffer
