/-!
Model of the slasher: the scope of a block's validation (`slasher-traits/src/validator.rs`), the collector of batches of observed
signatures (`slasher/src/collector/validator_events.rs`, `slasher/src/bc/mod.rs`), the contract that accepts batches
(`contracts/src/slasher.tolk`), the stored batches (`slasher/src/storage/models.rs`), and the analyzer that turns them into
accusations (`slasher/src/analyzer.rs`).

Simplifications: numbers do not overflow; a bit set is a list of bits; cells, TL bytes and signatures of messages are not
represented (a message is taken to be from the validator it names, as the contract checks); one validator set; rates are compared by
a function that is left open here (it is floating point; `Wilson.lean` has the real numbers); the validators of a session are different.
-/
namespace Tycho.Slasher

/-- `ReceivedSignature`, validator.rs:220-235: the two bits. -/
structure Sig where
  valid : Bool
  invalid : Bool
deriving DecidableEq, Repr

/-- `BlocksBatch` with its `SignatureHistory`, bc/mod.rs:152-157, 231-235. -/
structure Batch where
  start : Nat
  committed : List Bool
  hist : List (Nat × List Bool)
deriving DecidableEq, Repr

/-- `BlocksBatch::new`, bc/mod.rs:160-174. -/
def Batch.new (start len : Nat) (ids : List Nat) : Batch :=
  ⟨start, List.replicate len false, ids.map (fun v => (v, List.replicate (len * 2) false))⟩

/-- `is_empty`, bc/mod.rs:176-178. -/
def Batch.empty (b : Batch) : Bool := b.committed.all (fun x => !x)

/-- `contains_seqno`, bc/mod.rs:199-201, with `seqno_after`. -/
def Batch.contains (b : Batch) (seqno : Nat) : Bool := decide (b.start ≤ seqno ∧ seqno < b.start + b.committed.length)

/-- The loop of `commit_signatures`, bc/mod.rs:211-215. -/
def setSigs (off : Nat) : List (Nat × List Bool) → List Sig → List (Nat × List Bool)
  | (v, bits) :: h, s :: l => (v, (bits.set (off * 2) s.invalid).set (off * 2 + 1) s.valid) :: setSigs off h l
  | h, _ => h

/-- `commit_signatures`, bc/mod.rs:203-218. -/
def Batch.commit (b : Batch) (seqno : Nat) (sigs : List Sig) : Batch :=
  if b.contains seqno = false ∨ sigs.length ≠ b.hist.length then b
  else ⟨b.start, b.committed.set (seqno - b.start) true, setSigs (seqno - b.start) b.hist sigs⟩

/-- `SessionState`, validator_events.rs:43-51; `sent` is what went into `complete_batches`, `ready` that it is there; `bad` a panic. -/
structure Session where
  size : Nat
  ids : List Nat
  cur : Batch
  first : Nat
  next : Nat
  ready : Bool
  sent : List Batch
  bad : Bool
deriving DecidableEq, Repr

/-- `on_session_started`, validator_events.rs:147-191. -/
def Session.start (size first : Nat) (ids : List Nat) : Session := ⟨size, ids, .new first size ids, first, first, false, [], false⟩

/-- `align_seqno`, validator_events.rs:330-339. -/
def Session.align (s : Session) (seqno : Nat) : Nat := seqno - (seqno - s.first) % s.size

/-- `commit_batch_impl`, validator_events.rs:310-328. -/
def Session.send (s : Session) (b : Batch) : Session := if b.empty ∨ s.ready = false then s else { s with sent := s.sent ++ [b] }

/-- `handle_block` with `try_advance_current_batch`, validator_events.rs:256-300. -/
def Session.block (s : Session) (seqno : Nat) (sigs : Option (List Sig)) : Session :=
  if seqno < s.next then s
  else if s.cur.contains seqno then match sigs with
    | some l => { s with cur := s.cur.commit seqno l }
    | none => s
  else
    let b := s.cur
    let s := if seqno < s.first then { s with bad := true } else
      { s with cur := .new (s.align seqno) s.size s.ids, next := seqno + 1 }
    let s := match sigs with
      | some l => { s with cur := s.cur.commit seqno l }
      | none => s
    s.send b

/-- The change of the batch size, validator_events.rs:98-111, 122-130. -/
def Session.resize (s : Session) (size : Nat) : Session :=
  if s.size = size then s
  else
    let s := { s with size := size }
    if s.next < s.first then { s with bad := true } else { s with cur := .new (s.align s.next) size s.ids }

/-- What may happen to a session. -/
inductive Ev where
  | validated (seqno : Nat) (sigs : List Sig)
  | skipped (seqno : Nat)
  | resize (size : Nat)
  | init (size : Nat)
deriving DecidableEq, Repr

/-- `on_block_validated`, `on_block_skipped`, `set_default_batch_size`, `init_session`; sizes are not zero. -/
def Session.step (s : Session) : Ev → Session
  | .validated n l => s.block n (some l)
  | .skipped n => s.block n none
  | .resize k => if k = 0 then s else s.resize k
  | .init k => if k = 0 then s else { s.resize k with ready := true }

/-- A session from its start. -/
def collect (size first : Nat) (ids : List Nat) (evs : List Ev) : Session := evs.foldl Session.step (.start size first ids)

/-- `on_session_finished`, validator_events.rs:193-202, 306-308. -/
def Session.finish (s : Session) : List Batch := (s.send s.cur).sent

/-- The state of the contract for the present validator set, slasher.tolk:16-24, 38-41: the number of validators and for each the
least number its next batch may start with. `stored`: the accepted batches as nodes store them by validator and start
(lib.rs:353-357, storage/mod.rs:40-50). -/
structure Contract where
  count : Nat
  minSeqno : Nat → Nat
  stored : List (Nat × Batch)

/-- `validateBlocksBatch`, slasher.tolk:189-235. The history is a dictionary: its keys go up. -/
def validBatch (minSeqno size mcSeqno count : Nat) (b : Batch) : Bool :=
  decide ((b.hist.map (·.1)).Pairwise (· < ·)) &&
  !(decide (b.start < minSeqno) || decide (b.start + size > mcSeqno) || decide (b.start + size * 2 < mcSeqno)) &&
  decide (b.committed.length = size) && !b.hist.isEmpty &&
  b.hist.all (fun h => !decide (h.1 ≥ count) && decide (h.2.length = size * 2))

/-- A batch put under its key: an older one with the same key is replaced. -/
def putBatch (l : List (Nat × Batch)) (v : Nat) (b : Batch) : List (Nat × Batch) :=
  l.filter (fun e => !decide (e.1 = v ∧ e.2.start = b.start)) ++ [(v, b)]

/-- `handleBlocksBatchMessage`, slasher.tolk:133-180, when the block `mcSeqno` is made, and what nodes store. -/
def Contract.submit (c : Contract) (size mcSeqno v : Nat) (b : Batch) : Contract :=
  if v < c.count ∧ validBatch (c.minSeqno v) size mcSeqno c.count b = true then
    { c with minSeqno := fun x => if x = v then b.start + size else c.minSeqno x, stored := putBatch c.stored v b }
  else c

/-- `onRunTickTock` for a new set, slasher.tolk:77-111. -/
def Contract.new (count : Nat) : Contract := ⟨count, fun _ => 0, []⟩

/-- Messages that come to the contract: the batch size at that time, the number of the block, the validator and its batch. -/
def accepted (count : Nat) (msgs : List (Nat × Nat × Nat × Batch)) : Contract :=
  msgs.foldl (fun c m => c.submit m.1 m.2.1 m.2.2.1 m.2.2.2) (.new count)

/-- Can a stored batch be read again? models.rs:75-121. -/
def readable (b : Batch) : Bool :=
  decide (b.start + b.committed.length < 2 ^ 32) && decide (b.hist.length ≤ 1000) && decide (b.committed.length ≤ 500) &&
  decide ((b.hist.map (·.1)).Nodup) && b.hist.all (fun h => decide (h.1 < 65536) && decide (h.2.length = b.committed.length * 2))

/-- The parts of `SlasherConfig` the analyzer uses, and its comparison of rates (analyzer.rs:136-159): the valid signatures of a
node, the samples of the observer, and the valid signatures of all the others. -/
structure Config where
  lenThr : Nat
  samplesThr : Nat
  malformedThr : Nat
  slow : Nat → Nat → List Nat → Bool

/-- What the analyzer counts: `scores` (valid signatures), `samples` and `malformed`, analyzer.rs:39-40. -/
structure Counts where
  valid : Nat → Nat → Nat
  samples : Nat → Nat
  malformed : Nat → Nat

/-- The weight of the valid signatures of others for a block of a batch, analyzer.rs:60-92. -/
def signedWeight (ws : List Nat) (obs : Nat) (b : Batch) (i : Nat) : Nat :=
  (b.hist.map (fun h => if h.1 < ws.length ∧ h.1 ≠ obs ∧ b.committed.getD i false = true ∧ h.2.getD (i * 2 + 1) false = true
    then ws.getD h.1 0 else 0)).sum

/-- `weight_per_block` after the second loop, analyzer.rs:94-106. -/
def blockWeight (ws : List Nat) (obs : Nat) (b : Batch) (i : Nat) : Nat :=
  if signedWeight ws obs b i = 0 then 0 else signedWeight ws obs b i + ws.getD obs 0

/-- `weight_threshold`, analyzer.rs:42-43. -/
def threshold (ws : List Nat) : Nat := ws.sum * 2 / 3 + 1

/-- The blocks of a batch that count. -/
def sampled (ws : List Nat) (obs : Nat) (b : Batch) : List Nat :=
  (List.range b.committed.length).filter (fun i => decide (blockWeight ws obs b i ≥ threshold ws))

/-- One batch of the loop, analyzer.rs:47-127; `none`: an error or a panic. -/
def countBatch (ws : List Nat) (c : Counts) (e : Nat × Batch) : Option Counts :=
  let obs := e.1
  let b := e.2
  if ¬ readable b ∨ ws.length ≤ obs ∨ b.hist.any (fun h => decide (h.2.length < b.committed.length * 2)) then none
  else some {
    samples := fun o => if o = obs then c.samples o + (sampled ws obs b).length else c.samples o
    valid := fun o x => if o = obs ∧ x < ws.length ∧ x ≠ obs then c.valid o x + ((b.hist.filter (fun h => decide (h.1 = x))).map (fun h =>
      ((sampled ws obs b).filter (fun i => h.2.getD (i * 2 + 1) false)).length)).sum else c.valid o x
    malformed := fun o => if o = obs ∧ b.hist.any (fun h => decide (h.1 ≥ ws.length)) = true then c.malformed o + 1 else c.malformed o }

/-- The loop over the stored batches. -/
def countAll (ws : List Nat) (l : List (Nat × Batch)) : Option Counts :=
  l.foldl (fun c e => c.bind (fun c => countBatch ws c e)) (some ⟨fun _ _ => 0, fun _ => 0, fun _ => 0⟩)

/-- Does the observer accuse? analyzer.rs:130-175. -/
def accuses (cfg : Config) (n : Nat) (c : Counts) (obs x : Nat) : Bool :=
  !decide (c.samples obs < cfg.samplesThr) && decide (x ≠ obs) &&
  cfg.slow (c.valid obs x) (c.samples obs) (((List.range n).filter (fun i => decide (i ≠ obs))).map (c.valid obs))

/-- `accusation_weights`, analyzer.rs:129-175. -/
def accWeight (cfg : Config) (ws : List Nat) (c : Counts) (x : Nat) : Nat :=
  ((List.range ws.length).map (fun o => if accuses cfg ws.length c o x then ws.getD o 0 else 0)).sum

/-- `analyze_vset`, analyzer.rs:10-204: `ws` are the weights of the whole set, `main` how many of it count, `starts` the first blocks of
the sessions. `none` is an error. -/
def analyze (cfg : Config) (allWs : List Nat) (main last own : Nat) (starts : List Nat) (l : List (Nat × Batch)) : Option (List Nat) :=
  let start := starts.foldl min (2 ^ 32 - 1)
  if min (last + 1) (2 ^ 32 - 1) - start < cfg.lenThr then some []
  else
    let ws := allWs.take main
    if ws.length ≤ 1 then some []
    else (countAll ws l).map (fun c => (List.range ws.length).filter (fun i =>
      (decide (accWeight cfg ws c i ≥ threshold ws) || decide (c.malformed i ≥ cfg.malformedThr)) && decide (i ≠ own)))

/-- `BlockValidationScope`, validator.rs:131-211: the slots, whether it is sealed, and what the listener was told. -/
structure Scope where
  ids : List Nat
  slots : List Sig
  sealed : Bool
  told : List (Option (List Sig))
deriving DecidableEq, Repr

/-- Calls of a scope. -/
inductive Call where
  | receive (validator : Nat) (valid : Bool)
  | commit
  | discard
deriving DecidableEq, Repr

/-- `begin_block`, validator.rs:103-115. -/
def Scope.begin (ids : List Nat) : Scope := ⟨ids, ids.map (fun _ => ⟨false, false⟩), false, []⟩

/-- `receive_signature`, validator.rs:148-167, `commit` and `discard`, 169-205 (a drop discards). -/
def Scope.step (s : Scope) : Call → Scope
  | .receive v ok => match s.ids.idxOf? v with
    | none => s
    | some k => match s.slots[k]? with
      | none => s
      | some x => { s with slots := s.slots.set k (if ok then { x with valid := true } else { x with invalid := true }) }
  | .commit => if s.sealed then s else { s with sealed := true, told := s.told ++ [some s.slots] }
  | .discard => if s.sealed then s else { s with sealed := true, told := s.told ++ [none] }

/-- The scope of a block to its end: it is dropped. -/
def Scope.run (ids : List Nat) (l : List Call) : Scope := (l ++ [Call.discard]).foldl Scope.step (.begin ids)

end Tycho.Slasher
