/-!
Model of `consensus/src/engine/input_buffer.rs`: the buffer of external messages between the node and its points.

A call runs under the lock of the buffer, so a history is a list of calls. A message is a name with a size. A panic is
recorded (`bad`); after it nothing is claimed. Simplification: times, metrics, the capacity of the deque and the overflow of
`usize` are not represented.
-/
namespace Tycho.InputBuffer

/-- An external message: a name, and its length in bytes. -/
structure Msg where
  id : Nat
  size : Nat
deriving DecidableEq, Repr

/-- `InputBufferData`, lines 77-84; `bad`: a panic happened. -/
structure St where
  data : List Msg
  bytes : Nat
  offset : Nat
  buf : Nat
  batch : Nat
  bad : Bool
deriving DecidableEq, Repr

/-- `Default`, lines 18-22 and 77. -/
def St.init : St := ⟨[], 0, 0, 0, 0, false⟩

/-- The `take_while` of `fetch`, lines 92-95: `taken` are the bytes so far. -/
def takeFit (batch : Nat) : Nat → List Msg → List Msg
  | _, [] => []
  | taken, m :: l => if taken + m.size ≤ batch then m :: takeFit batch (taken + m.size) l else []

/-- `InputBufferData::fetch`, lines 87-105. -/
def St.fetchAll (s : St) : St × List Msg :=
  let r := takeFit s.batch 0 s.data
  ({ s with offset := r.length }, r)

/-- The `take_while` of `add`, lines 119-133: how many are dropped, and what `data_bytes` becomes; `none` is the panic of
`checked_sub`. -/
def evict (max : Nat) : Nat → List Msg → Option (Nat × Nat)
  | bytes, [] => some (0, bytes)
  | bytes, m :: l =>
    if bytes > max then
      if m.size ≤ bytes then (evict max (bytes - m.size) l).map (fun (n, b) => (n + 1, b)) else none
    else some (0, bytes)

/-- `add`, lines 107-152. -/
def St.add (s : St) (m : Msg) : St :=
  if m.size ≤ s.buf then
    if s.bytes > s.buf - m.size then
      match evict (s.buf - m.size) s.bytes s.data with
      | some (n, b) => { s with data := s.data.drop n ++ [m], bytes := b + m.size, offset := s.offset - n }
      | none => { s with bad := true }
    else { s with data := s.data ++ [m], bytes := s.bytes + m.size }
  else { s with bad := true }

/-- `push`, lines 46-56. -/
def St.push (s : St) (m : Msg) : St := if s.buf = 0 ∨ s.batch = 0 then s else s.add m

/-- Sum of the sizes. -/
def total (l : List Msg) : Nat := (l.map (·.size)).sum

/-- `commit_offset`, lines 154-169. -/
def St.commitOffset (s : St) : St :=
  if s.offset ≤ s.data.length then
    if total (s.data.take s.offset) ≤ s.bytes then
      { s with data := s.data.drop s.offset, bytes := s.bytes - total (s.data.take s.offset), offset := 0 }
    else { s with bad := true }
  else { s with bad := true }

/-- `fetch_inner`, lines 58-63: `fetch`, with what it returns. -/
def St.fetch (s : St) (onlyFresh : Bool) : St × List Msg :=
  if onlyFresh then s.commitOffset.fetchAll else s.fetchAll

/-- A call. -/
inductive Op where
  | push (m : Msg)
  | fetch (onlyFresh : Bool)
  | config (buf batch : Nat)
deriving DecidableEq, Repr

/-- The effect of a call; `apply_config`, lines 65-68. -/
def step (s : St) : Op → St
  | .push m => s.push m
  | .fetch f => (s.fetch f).1
  | .config buf batch => { s with buf := buf, batch := batch }

/-- The buffer after a history. -/
def run (ops : List Op) : St := ops.foldl step St.init

end Tycho.InputBuffer
