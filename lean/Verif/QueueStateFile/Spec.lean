import Verif.QueueStateFile.Model

/-! What the properties of queue state files are stated with. -/
namespace Tycho.QueueStateFile
open Tycho.Bytes Tycho.Codec Tycho.QueueKey Tycho.QueueDiffTl

variable {Cell : Type}

/-- What is assumed of bags of cells and TL ids: ids are 32-bit, the size computed beforehand is the size
of the encoding, and a bag of at least one and at most `max` roots decodes to its roots in order. -/
structure Laws (ext : Ext Cell) : Prop where
  diffId : ext.q.tlId < 256 ^ 4
  stateId : ext.stateId < 256 ^ 4
  headerId : ext.headerId < 256 ^ 4
  size : ∀ l, (ext.encodeBoc l).length = ext.bocSize l
  decode : ∀ l max, l ≠ [] → l.length ≤ max → ext.decodeBoc max (ext.encodeBoc l) = some l

/-- The content of a queue state: diffs, newest first, each with its messages. -/
abbrev Tail (Cell : Type) := List (Diff × List Cell)

/-- All messages, in file order. -/
def allMessages (t : Tail Cell) : List Cell := t.flatMap Prod.snd

/-- A content the node may have to save: at least one and at most 1000 well-formed diffs, each carrying
its own hash and naming the next as its predecessor, and the messages are those whose hashes the diffs list. -/
structure TailOk (ext : Ext Cell) (t : Tail Cell) : Prop where
  nonempty : t ≠ []
  length : t.length ≤ 1000
  diffs : ∀ p ∈ t, DiffOk ext.q p.1 ∧ p.1.hash = ext.q.fileHash (writeDiff ext.q p.1)
  linked : Linked (t.map Prod.fst)
  messages : ∀ p ∈ t, p.2.map ext.reprHash = p.1.messages

/-- No run of at most 10000 consecutive messages makes a bag of 10 MB. -/
def Light (ext : Ext Cell) (ms : List Cell) : Prop :=
  ∀ l, l <:+: ms → l.length ≤ 10000 → ext.bocSize l < 10485760

/-- A message takes a bag below 10 MB to at most 100 MB. -/
def Moderate (ext : Ext Cell) (ms : List Cell) : Prop :=
  ∀ l m, (l ++ [m]) <:+: ms → (l = [] ∨ ext.bocSize l < 10485760) → ext.bocSize (l ++ [m]) ≤ 104857600

/-- `chunks` splits the messages in order, into runs of at most 10000 that stop at 10 MB. -/
structure Split (ext : Ext Cell) (ms : List Cell) (chunks : List (List Cell)) : Prop where
  all : chunks.flatten = ms
  nonempty : ∀ c ∈ chunks, c ≠ []
  roots : ∀ c ∈ chunks, c.length ≤ 10000
  light : ∀ c ∈ chunks, ∀ j, 0 < j → j < c.length → ext.bocSize (c.take j) < 10485760

/-- The least number of chunks of at most 10000 messages. -/
def chunksNeeded (ms : List Cell) : Nat := (ms.length + 9999) / 10000

/-- The update record of a block with this content. -/
def topOf (t : Tail Cell) : TopUpdate :=
  match t with
  | [] => ⟨[], 0⟩
  | p :: _ => ⟨p.1.hash, t.length⟩

/-- The block and its nearest ancestors, `n` in all. -/
def ancestry : Nat → Block Cell → Option (List (Block Cell))
  | 0, _ => some []
  | 1, b => some [b]
  | n + 2, b => b.prev.bind fun p => (ancestry (n + 1) p).map (b :: ·)

/-- The block's description of outgoing messages contains every message of its diff, as a new message
whose envelope ends with the message itself. -/
def HasMessages (ext : Ext Cell) (b : Block Cell) (cells : List Cell) : Prop :=
  cells.map ext.reprHash = b.diff.messages ∧
  ∀ c ∈ cells, ∃ refs, b.outMsgs (ext.reprHash c) = some (.fresh refs) ∧ refs.getLast? = some c

/-- Two different byte strings with one file hash, or two different cells with one hash. -/
def Collision (ext : Ext Cell) : Prop :=
  (∃ a b : List Nat, a ≠ b ∧ ext.q.fileHash a = ext.q.fileHash b) ∨
  (∃ c d : Cell, c ≠ d ∧ ext.reprHash c = ext.reprHash d)

end Tycho.QueueStateFile
