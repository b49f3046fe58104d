import Verif.Common.Codec
import Verif.Rpc.ShardReset

/-!
Values of the tables of the RPC storage: rpc/src/state/storage.rs.
-/
namespace Tycho.Rpc
open Tycho.Bytes Tycho.Codec

/-- hash of 32 bytes -/
def IsHash (h : List Nat) : Prop := h.length = 32 ∧ IsBytes h

/-- a masterchain reference: storage.rs:1747-1751 -/
structure McRef where
  seqno : Nat
  root : List Nat
  file : List Nat
deriving DecidableEq

/-- a previous block: storage.rs:1753-1758; the workchain is that of the block -/
structure PrevRef where
  shard : Nat
  seqno : Nat
  root : List Nat
  file : List Nat
deriving DecidableEq

/-- storage.rs:1651-1673 `BriefBlockInfo`; a signed number is given by its 32 bits -/
structure Brief where
  globalId : Nat
  version : Nat
  flags : Nat
  afterMerge : Bool
  afterSplit : Bool
  beforeSplit : Bool
  wantMerge : Bool
  wantSplit : Bool
  listHash : Nat
  catchain : Nat
  minRef : Nat
  isKey : Bool
  prevKey : Nat
  startLt : Nat
  endLt : Nat
  utime : Nat
  vert : Nat
  seed : List Nat
  txCount : Nat
  master : Option McRef
  prev : List PrevRef
deriving DecidableEq

def bit (b : Bool) (n : Nat) : Nat := if b then 2 ^ n else 0

/-- storage.rs:1723-1729 -/
def packFlags (master afterMerge beforeSplit afterSplit wantSplit wantMerge isKey : Bool) : Nat :=
  bit master 7 ||| bit afterMerge 6 ||| bit beforeSplit 5 ||| bit afterSplit 4 ||| bit wantSplit 3 ||| bit wantMerge 2 ||| bit isKey 1

def Brief.packed (b : Brief) : Nat := packFlags b.master.isSome b.afterMerge b.beforeSplit b.afterSplit b.wantSplit b.wantMerge b.isKey

def encMaster : Option McRef → List Nat
  | none => []
  | some m => leBytes 4 m.seqno ++ m.root ++ m.file

def encPrev (p : PrevRef) : List Nat := leBytes 8 p.shard ++ leBytes 4 p.seqno ++ p.root ++ p.file

/-- storage.rs:1721-1759 `write_to_bytes` -/
def Brief.enc (b : Brief) : List Nat :=
  [0] ++ leBytes 4 b.globalId ++ leBytes 4 b.version ++ [b.flags] ++ [b.packed] ++ leBytes 4 b.listHash ++ leBytes 4 b.catchain ++
  leBytes 4 b.minRef ++ leBytes 4 b.prevKey ++ leBytes 8 b.startLt ++ leBytes 8 b.endLt ++ leBytes 4 b.utime ++ leBytes 4 b.vert ++ b.seed ++
  leBytes 4 b.txCount ++ encMaster b.master ++ [b.prev.length % 256] ++ b.prev.flatMap encPrev

def rdMaster : Rd McRef := do
  return ⟨← rdLe 4, ← rdBytes 32, ← rdBytes 32⟩

def rdPrev : Rd PrevRef := do
  let shard ← rdLe 8
  let seqno ← rdLe 4
  let root ← rdBytes 32
  let file ← rdBytes 32
  -- a prefix of zero bits is not the prefix of a shard: `unwrap`
  if shard = 0 then Rd.fail else return ⟨shard, seqno, root, file⟩

/-- storage.rs:1761-1837 `load_from_bytes`; a panic is `none` -/
def rdBrief : Rd Brief := do
  let v ← rdLe 1
  if v ≠ 0 then Rd.fail else
  let globalId ← rdLe 4
  let version ← rdLe 4
  let flags ← rdLe 1
  let packed ← rdLe 1
  let listHash ← rdLe 4
  let catchain ← rdLe 4
  let minRef ← rdLe 4
  let prevKey ← rdLe 4
  let startLt ← rdLe 8
  let endLt ← rdLe 8
  let utime ← rdLe 4
  let vert ← rdLe 4
  let seed ← rdBytes 32
  let txCount ← rdLe 4
  let master ← (if packed &&& 0b10000000 ≠ 0 then do return some (← rdMaster) else return none)
  let n ← rdLe 1
  let prev ← rdMany rdPrev n
  return ⟨globalId, version, flags, decide (packed &&& 0b01000000 ≠ 0), decide (packed &&& 0b00010000 ≠ 0), decide (packed &&& 0b00100000 ≠ 0),
    decide (packed &&& 0b00000100 ≠ 0), decide (packed &&& 0b00001000 ≠ 0), listHash, catchain, minRef, decide (packed &&& 0b00000010 ≠ 0), prevKey,
    startLt, endLt, utime, vert, seed, txCount, master, prev⟩

/-- fields are in the ranges of their types -/
structure Brief.Ok (b : Brief) : Prop where
  globalId : b.globalId < 2 ^ 32
  version : b.version < 2 ^ 32
  flags : b.flags < 256
  listHash : b.listHash < 2 ^ 32
  catchain : b.catchain < 2 ^ 32
  minRef : b.minRef < 2 ^ 32
  prevKey : b.prevKey < 2 ^ 32
  startLt : b.startLt < 2 ^ 64
  endLt : b.endLt < 2 ^ 64
  utime : b.utime < 2 ^ 32
  vert : b.vert < 2 ^ 32
  seed : b.seed.length = 32
  txCount : b.txCount < 2 ^ 32
  master : ∀ m, b.master = some m → m.seqno < 2 ^ 32 ∧ m.root.length = 32 ∧ m.file.length = 32
  /-- one previous block, or two after a merge -/
  count : b.prev.length ≤ 2
  prev : ∀ p ∈ b.prev, 0 < p.shard ∧ p.shard < 2 ^ 64 ∧ p.seqno < 2 ^ 32 ∧ p.root.length = 32 ∧ p.file.length = 32

theorem packed_bits : ∀ x1 x2 x3 x4 x5 x6 x7 : Bool, packFlags x1 x2 x3 x4 x5 x6 x7 < 256 ∧
    decide (packFlags x1 x2 x3 x4 x5 x6 x7 &&& 0b10000000 ≠ 0) = x1 ∧
    decide (packFlags x1 x2 x3 x4 x5 x6 x7 &&& 0b01000000 ≠ 0) = x2 ∧ decide (packFlags x1 x2 x3 x4 x5 x6 x7 &&& 0b00100000 ≠ 0) = x3 ∧
    decide (packFlags x1 x2 x3 x4 x5 x6 x7 &&& 0b00010000 ≠ 0) = x4 ∧ decide (packFlags x1 x2 x3 x4 x5 x6 x7 &&& 0b00001000 ≠ 0) = x5 ∧
    decide (packFlags x1 x2 x3 x4 x5 x6 x7 &&& 0b00000100 ≠ 0) = x6 ∧ decide (packFlags x1 x2 x3 x4 x5 x6 x7 &&& 0b00000010 ≠ 0) = x7 := by decide

theorem master_roundTrip : RoundTrip (fun m => encMaster (some m)) rdMaster (fun m => m.seqno < 2 ^ 32 ∧ m.root.length = 32 ∧ m.file.length = 32) := by
  rintro m ⟨h1, h2, h3⟩ r
  unfold rdMaster encMaster
  simp only [List.append_assoc]
  rw [Rd.bind_of (rdLe_append (by simpa using h1) _), Rd.bind_of (rdBytes_append' h2 _), Rd.bind_of (rdBytes_append' h3 _), Rd.pure_run]

theorem prev_roundTrip : RoundTrip encPrev rdPrev (fun p => 0 < p.shard ∧ p.shard < 2 ^ 64 ∧ p.seqno < 2 ^ 32 ∧ p.root.length = 32 ∧ p.file.length = 32) := by
  rintro p ⟨h0, h1, h2, h3, h4⟩ r
  unfold rdPrev encPrev
  simp only [List.append_assoc]
  rw [Rd.bind_of (rdLe_append (by simpa using h1) _), Rd.bind_of (rdLe_append (by simpa using h2) _), Rd.bind_of (rdBytes_append' h3 _),
    Rd.bind_of (rdBytes_append' h4 _), Rd.ite_run, if_neg (by omega), Rd.pure_run]

theorem rd1 {x : Nat} (h : x < 256) (r : List Nat) : rdLe 1 (x :: r) = some (x, r) := by
  have := rdLe_append (n := 1) (x := x) (by simpa using h) r
  have e : leBytes 1 x = [x] := by simp [leBytes, Nat.mod_eq_of_lt h]
  rw [e] at this
  exact this

/-- **The stored description of a block is read back as it was written.** -/
theorem brief_roundTrip : RoundTrip Brief.enc rdBrief Brief.Ok := by
  intro b hb r
  obtain ⟨p1, p2, p3, p4, p5, p6, p7, p8⟩ := packed_bits b.master.isSome b.afterMerge b.beforeSplit b.afterSplit b.wantSplit b.wantMerge b.isKey
  have p1 : b.packed < 256 := p1
  unfold rdBrief Brief.enc
  simp only [List.append_assoc, List.cons_append, List.nil_append]
  have hlen : b.prev.length % 256 = b.prev.length := Nat.mod_eq_of_lt (by have := hb.count; omega)
  rw [Rd.bind_of (rd1 (x := 0) (by decide) _), Rd.ite_run, if_neg (by simp)]
  rw [Rd.bind_of (rdLe_append (by simpa using hb.globalId) _), Rd.bind_of (rdLe_append (by simpa using hb.version) _), Rd.bind_of (rd1 hb.flags _),
    Rd.bind_of (rd1 p1 _), Rd.bind_of (rdLe_append (by simpa using hb.listHash) _), Rd.bind_of (rdLe_append (by simpa using hb.catchain) _),
    Rd.bind_of (rdLe_append (by simpa using hb.minRef) _), Rd.bind_of (rdLe_append (by simpa using hb.prevKey) _),
    Rd.bind_of (rdLe_append (by simpa using hb.startLt) _), Rd.bind_of (rdLe_append (by simpa using hb.endLt) _),
    Rd.bind_of (rdLe_append (by simpa using hb.utime) _), Rd.bind_of (rdLe_append (by simpa using hb.vert) _), Rd.bind_of (rdBytes_append' hb.seed _),
    Rd.bind_of (rdLe_append (by simpa using hb.txCount) _)]
  have hm : ∀ r', (if b.packed &&& 0b10000000 ≠ 0 then (do return some (← rdMaster)) else return none : Rd (Option McRef)) (encMaster b.master ++ r') =
      some (b.master, r') := by
    intro r'
    rw [Rd.ite_run]
    have p2 : decide (b.packed &&& 0b10000000 ≠ 0) = b.master.isSome := p2
    cases hm : b.master with
    | none =>
      rw [hm] at p2
      rw [if_neg (by simpa using p2)]
      rfl
    | some m =>
      rw [hm] at p2
      rw [if_pos (by simpa using p2), Rd.bind_of (master_roundTrip m (hb.master m hm) r'), Rd.pure_run]
  rw [Rd.bind_of (hm _), Rd.bind_of (rd1 (Nat.mod_lt _ (by decide)) _), hlen, Rd.bind_of (rdMany_append prev_roundTrip b.prev hb.prev r), Rd.pure_run]
  unfold Brief.packed
  rw [p3, p4, p5, p6, p7, p8]

/-! ### Values of `transactions_by_hash` -/

/-- storage.rs:2218-2224 `TransactionInfo`: the address is a number of 33 bytes, the shard of the block is its prefix with the bit one at the end -/
structure TxInfo where
  addr : Nat
  lt : Nat
  shard : Nat
  seqno : Nat
  root : List Nat
  file : List Nat
  mcSeqno : Nat
deriving DecidableEq

/-- storage.rs:1161-1170, 1240, 1258: `tx_info`; `len` is the length of the prefix of the shard of the block -/
def encInfo (addr lt len seqno : Nat) (root file : List Nat) (mcSeqno : Nat) : List Nat :=
  beBytes 33 addr ++ beBytes 8 lt ++ [len] ++ leBytes 4 seqno ++ root ++ file ++ leBytes 4 mcSeqno

/-- storage.rs:2237-2243 -/
def shardOfInfo (addr len : Nat) : Nat := (topOf addr ||| 2 ^ (63 - len)) &&& (2 ^ 64 - 1 - (2 ^ (63 - len) - 1))

/-- storage.rs:2227-2262 `from_bytes` -/
def rdInfo : Rd TxInfo := do
  let addr ← rdBe 33
  let lt ← rdBe 8
  let len ← rdLe 1
  let seqno ← rdLe 4
  let root ← rdBytes 32
  let file ← rdBytes 32
  let mcSeqno ← rdLe 4
  return ⟨addr, lt, shardOfInfo addr len, seqno, root, file, mcSeqno⟩

theorem shard_of_prefix (x q k : Nat) (hk : k < 64) (hx : x < 2 ^ 64) (h : x / 2 ^ (k + 1) = q) :
    (x ||| 2 ^ k) &&& (2 ^ 64 - 1 - (2 ^ k - 1)) = 2 ^ k * (2 * q + 1) := by
  have hp := Nat.two_pow_pos k
  have hle : 2 ^ k ≤ 2 ^ 63 := Nat.pow_le_pow_right (by omega) (by omega)
  have e1 : 2 ^ 64 - 1 - (2 ^ k - 1) = 2 ^ 64 - ((2 ^ k - 1) + 1) := by omega
  rw [e1]
  apply Nat.eq_of_testBit_eq
  intro j
  have e0 : (2 ^ k * (2 * q + 1)).testBit j = if j < k then Nat.testBit 0 j else (2 * q + 1).testBit (j - k) :=
    Nat.testBit_two_pow_mul_add (2 * q + 1) (b := 0) hp j
  rw [e0, Nat.testBit_and, Nat.testBit_or, Nat.testBit_two_pow, Nat.testBit_two_pow_sub_succ (by omega), Nat.testBit_two_pow_sub_one, bit_odd]
  have hq : ∀ i, q.testBit i = x.testBit (i + (k + 1)) := by
    intro i; rw [← h, ← Nat.testBit_div_two_pow]
  by_cases h1 : j < k
  · have : ¬ k = j := by omega
    simp [h1]
  · by_cases h2 : j - k = 0
    · have : j = k := by omega
      subst this
      simp [hk]
    · have h3 : ¬ k = j := by omega
      have h4 : j - k - 1 + (k + 1) = j := by omega
      simp only [h1, if_false, h2, h3, decide_false, Bool.or_false, Bool.not_false, Bool.and_true, hq, h4]
      by_cases h5 : j < 64
      · simp [h5]
      · rw [Nat.testBit_lt_two_pow (Nat.lt_of_lt_of_le hx (Nat.pow_le_pow_right (by omega) (by omega)))]; rfl

/-- **What is stored of a transaction by its hash is read back**: account, logical time and the block, whose shard is restored from the account and the length
of the prefix: the account is in the shard of its block. -/
theorem info_roundTrip (addr lt q k seqno mcSeqno : Nat) (root file : List Nat) (ha : addr < 256 ^ 33) (hlt : lt < 2 ^ 64) (hk : k < 64)
    (hs : seqno < 2 ^ 32) (hm : mcSeqno < 2 ^ 32) (hr : root.length = 32) (hf : file.length = 32) (wc : Nat) (hin : InShard wc q k addr) (r : List Nat) :
    rdInfo (encInfo addr lt (63 - k) seqno root file mcSeqno ++ r) = some (⟨addr, lt, 2 ^ k * (2 * q + 1), seqno, root, file, mcSeqno⟩, r) := by
  unfold rdInfo encInfo
  simp only [List.append_assoc, List.cons_append, List.nil_append]
  rw [Rd.bind_of (rdBe_append ha _), Rd.bind_of (rdBe_append (by simpa using hlt) _), Rd.bind_of (rd1 (by omega) _),
    Rd.bind_of (rdLe_append (by simpa using hs) _), Rd.bind_of (rdBytes_append' hr _), Rd.bind_of (rdBytes_append' hf _),
    Rd.bind_of (rdLe_append (by simpa using hm) _), Rd.pure_run]
  have e : 63 - (63 - k) = k := by omega
  have htop : topOf addr < 2 ^ 64 := by
    unfold topOf
    rw [Nat.div_lt_iff_lt_mul (by decide), ← Nat.pow_add]
    exact Nat.mod_lt _ (by decide)
  unfold shardOfInfo
  rw [e, shard_of_prefix (topOf addr) q k hk htop hin.2]

/-! ### Order of keys -/

/-- **Keys are ordered as their parts**: bytes of the key of a transaction compare as the address and then the logical time. -/
theorem tx_key_order (a b x y : Nat) (ha : a < 256 ^ 33) (hb : b < 256 ^ 33) (hx : x < 256 ^ 8) (hy : y < 256 ^ 8) :
    beBytes 33 a ++ beBytes 8 x < beBytes 33 b ++ beBytes 8 y ↔ a < b ∨ (a = b ∧ x < y) := by
  rw [append_lt_append_iff _ _ _ _ (by simp), beBytes_lt_iff _ _ _ ha hb, beBytes_lt_iff _ _ _ hx hy]
  refine or_congr Iff.rfl (and_congr ⟨beBytes_inj 33 a b ha hb, fun h => by rw [h]⟩ Iff.rfl)

/-- keys of `code_hashes`: 32 bytes of the hash and 33 of the address -/
theorem code_key_order (a b x y : Nat) (ha : a < 256 ^ 32) (hb : b < 256 ^ 32) (hx : x < 256 ^ 33) (hy : y < 256 ^ 33) :
    beBytes 32 a ++ beBytes 33 x < beBytes 32 b ++ beBytes 33 y ↔ a < b ∨ (a = b ∧ x < y) := by
  rw [append_lt_append_iff _ _ _ _ (by simp), beBytes_lt_iff _ _ _ ha hb, beBytes_lt_iff _ _ _ hx hy]
  refine or_congr Iff.rfl (and_congr ⟨beBytes_inj 32 a b ha hb, fun h => by rw [h]⟩ Iff.rfl)

end Tycho.Rpc
