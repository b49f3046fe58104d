import Mathlib.Algebra.BigOperators.Group.Finset.Basic
import Mathlib.Algebra.Order.BigOperators.Group.Finset
import Mathlib.Data.Finset.Card
import Mathlib.Algebra.BigOperators.Fin

/-!
Model of `block-util/src/block/block_proof_stuff.rs`. Every error is `false`/`none`: which error is
returned is not modelled. Cells, BOC decoding, merkle proof parsing, the subset computation and
the ed25519 check of `tycho_types` are parameters; what is assumed of the latter is stated in
`Spec.lean`.
-/
namespace Tycho.BlockProof

/-- `u64::MAX + 1` -/
def u64 : Nat := 18446744073709551616

/-- `u64::checked_add`. -/
def checkedAdd (a b : Nat) : Option Nat := if a + b < u64 then some (a + b) else none
/-- `u64::checked_mul`. -/
def checkedMul (a b : Nat) : Option Nat := if a * b < u64 then some (a * b) else none

/-- `ShardIdent`: workchain and the depth of the prefix, as far as the checks look at them
(`is_full`: no prefix; `can_split`: prefix shorter than 60 bits). -/
structure Shard where
  workchain : Int
  prefixBits : List Bool
deriving DecidableEq

def Shard.isMasterchain (s : Shard) : Bool := s.workchain == -1
def Shard.isFull (s : Shard) : Bool := s.prefixBits.isEmpty
def Shard.canSplit (s : Shard) : Bool := s.prefixBits.length < 60

/-- `BlockId` (the file hash plays no role here but is part of the identity). -/
structure BlockId where
  shard : Shard
  seqno : Nat
  rootHash : Nat
  fileHash : Nat
deriving DecidableEq

/-- A validator of a subset: key and weight (`u64`). -/
structure Validator where
  key : Nat
  weight : Nat
deriving DecidableEq

/-- `ValidatorSubsetInfo`, block_proof_stuff.rs:538-542. -/
structure Subset where
  validators : List Validator
  shortHash : Nat

/-- `BlockSignatures` of the proof: the fields used. `signatures` are the dictionary values. -/
structure Sigs (Sig : Type) where
  listHashShort : Nat
  catchainSeqno : Nat
  vsetSwitchRound : Nat
  /-- the whole `ConsensusInfo`, compared as a value -/
  consensusInfo : Nat
  signatureCount : Nat
  totalWeight : Nat
  signatures : List Sig

/-- `BlockInfo` of the virtual block: the fields used. -/
structure Info where
  version : Nat
  seqno : Nat
  shard : Shard
  hasMasterRef : Bool
  afterMerge : Bool
  beforeSplit : Bool
  afterSplit : Bool
  keyBlock : Bool
  prevKeyBlockSeqno : Nat
  /-- `CatchainSeqnoMode::from_capabilities(..) == Original` -/
  originalMode : Bool

/-- Config of a key block or of a master state. -/
structure Config where
  /-- current validator set (`ConfigParam34` or 35), as an opaque value -/
  vset : Nat
  shuffle : Bool

/-- A proof: what is claimed (`id`), the hash of the virtual root of the merkle proof, what it parses
into, and the signatures. `keyConfigOk` is the outcome of `pre_check_key_block_proof` and `config`
the config in the block, if any. -/
structure Proof (Sig : Type) where
  id : BlockId
  /-- `none`: not a merkle proof -/
  virtHash : Option Nat
  /-- `none`: does not parse -/
  info : Option Info
  keyConfigOk : Bool
  config : Option Config
  signatures : Option (Sigs Sig)

/-- A master state. -/
structure MasterState where
  id : BlockId
  config : Option Config
  consensusInfo : Nat

/-- External operations. -/
structure Ext (Sig : Type) where
  /-- `ValidatorSet::compute_mc_subset_indexed(switch_round, shuffle)` -/
  computeSubset : Nat → Nat → Bool → Option Subset
  /-- `BlockSignaturesDict::check_signatures(validators, data for sign of the block id)` -/
  checkSignatures : List Validator → List Sig → BlockId → Option Nat

variable {Sig : Type}

/-- block_proof_stuff.rs:104-116, 118-122 `virtualize_block_root`, and 153-220 `pre_check_block_proof`. -/
def preCheck (p : Proof Sig) : Option Info :=
  if !(p.id.shard.isMasterchain || p.signatures.isNone) then none else
  match p.virtHash with
  | none => none
  | some h =>
    if h ≠ p.id.rootHash then none else
    match p.info with
    | none => none
    | some i =>
      if i.version ≠ 0 then none else
      if i.seqno ≠ p.id.seqno then none else
      if i.shard ≠ p.id.shard then none else
      if (!i.hasMasterRef) ≠ i.shard.isMasterchain then none else
      if !(!p.id.shard.isMasterchain || (!i.afterMerge && !i.beforeSplit && !i.afterSplit)) then none else
      if !(!i.afterMerge || !i.afterSplit) then none else
      if !(!i.afterSplit || !i.shard.isFull) then none else
      if !(!i.afterMerge || i.shard.canSplit) then none else
      if !(!i.keyBlock || p.id.shard.isMasterchain) then none else
      some i

/-- block_proof_stuff.rs:144-151 `check_proof_link`. -/
def checkProofLink (p : Proof Sig) : Bool :=
  !p.id.shard.isMasterchain && (preCheck p).isSome

/-- block_proof_stuff.rs:274-280, total weight of the subset; `none` is the overflow error. -/
def totalWeight : Nat → List Validator → Option Nat
  | acc, [] => some acc
  | acc, v :: vs =>
    match checkedAdd acc v.weight with
    | some a => totalWeight a vs
    | none => none

/-- block_proof_stuff.rs:238-310 `check_signatures`. The counting loop over the dictionary stops one
past the expected count, so it compares the count exactly. -/
def checkSignatures (ext : Ext Sig) (p : Proof Sig) (subset : Subset) : Bool :=
  match p.signatures with
  | none => false
  | some s =>
    if s.listHashShort ≠ subset.shortHash then false else
    if s.signatureCount ≠ s.signatures.length then false else
    match totalWeight 0 subset.validators with
    | none => false
    | some total =>
      match ext.checkSignatures subset.validators s.signatures p.id with
      | none => false
      | some weight =>
        if weight ≠ s.totalWeight then false else
        match checkedMul weight 3, checkedMul total 2 with
        | some w3, some t2 => decide (w3 > t2)
        | _, _ => false

/-- block_proof_stuff.rs:394-415 `calc_validators_subset_standard`. -/
def calcSubset (ext : Ext Sig) (p : Proof Sig) (c : Config) (original : Bool) : Option Subset :=
  match p.signatures with
  | none => none
  | some s => ext.computeSubset c.vset (if original then s.catchainSeqno else s.vsetSwitchRound) c.shuffle

/-- block_proof_stuff.rs:354-391 `process_prev_key_block_proof`. -/
def processPrevKeyBlock (ext : Ext Sig) (p prev : Proof Sig) (info : Info) : Option Subset :=
  match preCheck prev with
  | none => none
  | some pi =>
    if !pi.keyBlock then none else
    match prev.config with
    | none => none
    | some c => calcSubset ext p c info.originalMode

/-- block_proof_stuff.rs:312-352 `process_given_state`. -/
def processGivenState (ext : Ext Sig) (p : Proof Sig) (st : MasterState) (info : Info) : Option Subset :=
  if !st.id.shard.isMasterchain then none else
  if !p.id.shard.isMasterchain then none else
  if !(info.prevKeyBlockSeqno ≤ st.id.seqno) then none else
  if !(st.id.seqno < p.id.seqno) then none else
  match st.config with
  | none => none
  | some c => calcSubset ext p c info.originalMode

/-- block_proof_stuff.rs:124-131, 450-494 `check_with_prev_key_block_proof`. -/
def checkWithPrevKeyBlock (ext : Ext Sig) (p prev : Proof Sig) : Bool :=
  match preCheck p with
  | none => false
  | some info =>
    if !p.id.shard.isMasterchain then false else
    if !prev.id.shard.isMasterchain then false else
    if prev.id.seqno ≠ info.prevKeyBlockSeqno then false else
    if !(prev.id.seqno < p.id.seqno) then false else
    match processPrevKeyBlock ext p prev info with
    | none => false
    | some subset =>
      if info.keyBlock && !p.keyConfigOk then false else checkSignatures ext p subset

/-- block_proof_stuff.rs:222-236 `check_consensus_info`. -/
def checkConsensusInfo (p : Proof Sig) (ci : Nat) : Bool :=
  match p.signatures with
  | none => false
  | some s => s.consensusInfo == ci

/-- block_proof_stuff.rs:502-506, the first check of `check_with_master_state`. -/
def stateInfoOk (p : Proof Sig) (info : Info) (ci : Nat) : Bool :=
  if info.keyBlock then p.keyConfigOk else checkConsensusInfo p ci

/-- block_proof_stuff.rs:133-142, 496-510 `check_with_master_state`. -/
def checkWithMasterState (ext : Ext Sig) (p : Proof Sig) (st : MasterState) : Bool :=
  if !p.id.shard.isMasterchain then false else
  match preCheck p with
  | none => false
  | some info =>
    if !stateInfoOk p info st.consensusInfo then false else
    match processGivenState ext p st info with
    | none => false
    | some subset => checkSignatures ext p subset

end Tycho.BlockProof
