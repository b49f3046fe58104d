import Verif.QueueDiffTl.Model

/-! C23: the binary form of queue diffs. -/
namespace Tycho.QueueDiffTl
open Tycho.Bytes Tycho.Codec Tycho.QueueKey

/-! ### What a well-formed diff is -/

/-- Strictly ascending. -/
def Ascending {α : Type} (lt : α → α → Bool) (l : List α) : Prop := l.IsChain (fun a b => lt a b = true)

def ShardOk (ext : Ext) (s : Shard) : Prop := s.WF ∧ ext.validShard s.workchain s.pfx = true

/-- A diff of sane sizes: an integer fits its width, a hash has 32 bytes, maps and message hashes are
sorted without repetition, no zero message hash, `min_message ≤ max_message`. -/
structure DiffOk (ext : Ext) (d : Diff) : Prop where
  prevHash : d.prevHash.length = 32 ∧ IsBytes d.prevHash
  shard : ShardOk ext d.shard
  seqno : d.seqno < 256 ^ 4
  processedLen : d.processedTo.length ≤ 1000
  processed : ∀ e ∈ d.processedTo, ShardOk ext e.1 ∧ e.2.WF
  processedAsc : Ascending (fun a b => shardLt a.1 b.1) d.processedTo
  minMessage : d.minMessage.WF
  maxMessage : d.maxMessage.WF
  minMax : ¬ d.maxMessage.Lt d.minMessage
  messagesLen : d.messages.length ≤ 10000000
  messages : ∀ h ∈ d.messages, h.length = 32 ∧ IsBytes h
  messagesAsc : Ascending (fun a b => decide (a < b)) (List.replicate 32 0 :: d.messages)
  src : d.partitionsSrc.length ≤ 65536 ∧ Ascending (fun a b => decide (a.1 < b.1)) d.partitionsSrc ∧
    ∀ p ∈ d.partitionsSrc, p.1 < 65536 ∧ p.2.length ≤ 10000000 ∧ Ascending addrLt p.2 ∧ ∀ a ∈ p.2, a.WF
  dst : d.partitionsDst.length ≤ 65536 ∧ Ascending (fun a b => decide (a.1 < b.1)) d.partitionsDst ∧
    ∀ p ∈ d.partitionsDst, p.1 < 65536 ∧ p.2.length ≤ 10000000 ∧ Ascending addrLt p.2 ∧ ∀ a ∈ p.2, a.WF

/-! ### Pieces -/

theorem shard_rt (ext : Ext) : RoundTrip writeShard (readShard ext) (ShardOk ext) := by
  rintro ⟨wc, pfx⟩ ⟨⟨h1, h2, h3⟩, h4⟩ r
  unfold writeShard readShard
  rw [List.append_assoc, Rd.bind_of (rdLe_append (u32_lt _) _), Rd.bind_of (rdLe_append h3 _)]
  dsimp only at h1 h2 h3 h4 ⊢
  rw [i32_u32 wc h1 h2, if_pos h4, Rd.pure_run]

theorem shard_can (ext : Ext) : Canonical writeShard (readShard ext) (ShardOk ext) := by
  intro s x r hs h
  obtain ⟨wc, s1, h1, h⟩ := Rd.bind_some.1 h
  obtain ⟨pfx, s2, h2, h⟩ := Rd.bind_some.1 h
  obtain ⟨e1, w1, b1⟩ := rdLe_some hs h1
  obtain ⟨e2, w2, b2⟩ := rdLe_some b1 h2
  rw [Rd.ite_run] at h
  split at h
  · rename_i hv
    cases h
    refine ⟨⟨⟨(i32_range wc w1).1, (i32_range wc w1).2, w2⟩, hv⟩, ?_, b2⟩
    rw [e1, e2]
    simp [writeShard, u32_i32 wc w1]
  · cases h

theorem key_rt : RoundTrip writeKey readKey Key.WF := by
  rintro ⟨lt, hash⟩ ⟨h1, h2, h3⟩ r
  unfold writeKey readKey
  rw [List.append_assoc, Rd.bind_of (rdLe_append h1 _), Rd.bind_of (rdBytes_append' h2 _), Rd.pure_run]

theorem key_can : Canonical writeKey readKey Key.WF := by
  intro s x r hs h
  obtain ⟨lt, s1, h1, h⟩ := Rd.bind_some.1 h
  obtain ⟨hash, s2, h2, h⟩ := Rd.bind_some.1 h
  cases h
  obtain ⟨e1, w1, b1⟩ := rdLe_some hs h1
  obtain ⟨e2, w2⟩ := rdBytes_some h2
  subst e2
  have hb := isBytes_append.1 b1
  exact ⟨⟨w1, w2, hb.1⟩, by rw [e1]; simp [writeKey], hb.2⟩

theorem addr_rt : RoundTrip writeAddr readAddr Addr.WF := by
  rintro ⟨wc, acc⟩ ⟨h1, h2, h3, h4⟩ r
  unfold writeAddr readAddr
  dsimp only at h1 h2 h3 h4 ⊢
  rw [List.append_assoc, Rd.bind_of (rdLe_append (u32_lt _) _), i32_u32 wc (by omega) (by omega),
    if_pos ⟨h1, h2⟩, Rd.bind_of (rdBytes_append' h3 _), Rd.pure_run]

theorem addr_can : Canonical writeAddr readAddr Addr.WF := by
  intro s x r hs h
  obtain ⟨wc, s1, h1, h⟩ := Rd.bind_some.1 h
  obtain ⟨e1, w1, b1⟩ := rdLe_some hs h1
  rw [Rd.ite_run] at h
  split at h
  · rename_i hv
    obtain ⟨acc, s2, h2, h⟩ := Rd.bind_some.1 h
    cases h
    obtain ⟨e2, w2⟩ := rdBytes_some h2
    subst e2
    have hb := isBytes_append.1 b1
    refine ⟨⟨hv.1, hv.2, w2, hb.1⟩, ?_, hb.2⟩
    rw [e1]
    simp [writeAddr, u32_i32 wc w1]
  · cases h

theorem entry_rt (ext : Ext) :
    RoundTrip writeEntry (readEntry ext) (fun e => ShardOk ext e.1 ∧ e.2.WF) := by
  rintro ⟨s, k⟩ ⟨h1, h2⟩ r
  unfold writeEntry readEntry
  rw [List.append_assoc, Rd.bind_of (shard_rt ext _ h1 _), Rd.bind_of (key_rt _ h2 _), Rd.pure_run]

theorem entry_can (ext : Ext) :
    Canonical writeEntry (readEntry ext) (fun e => ShardOk ext e.1 ∧ e.2.WF) := by
  intro s x r hs h
  obtain ⟨a, s1, h1, h⟩ := Rd.bind_some.1 h
  obtain ⟨k, s2, h2, h⟩ := Rd.bind_some.1 h
  cases h
  obtain ⟨p1, e1, b1⟩ := shard_can ext _ _ _ hs h1
  obtain ⟨p2, e2, b2⟩ := key_can _ _ _ b1 h2
  exact ⟨⟨p1, p2⟩, by rw [e1, e2]; simp [writeEntry], b2⟩

def ProcessedOk (ext : Ext) (m : List (Shard × Key)) : Prop :=
  m.length ≤ 1000 ∧ Ascending (fun a b => shardLt a.1 b.1) m ∧ ∀ e ∈ m, ShardOk ext e.1 ∧ e.2.WF

theorem processed_rt (ext : Ext) : RoundTrip writeProcessedTo (readProcessedTo ext) (ProcessedOk ext) := by
  intro m ⟨h1, h2, h3⟩ r
  unfold writeProcessedTo readProcessedTo
  have hl : m.length < 256 ^ 4 := Nat.lt_of_le_of_lt h1 (by decide)
  rw [List.append_assoc, Rd.bind_of (rdLe_append hl _), Rd.ite_run, if_neg (by omega)]
  exact rdAscending_append (entry_rt ext) m none h3 (by simpa [Ascending] using h2) r

theorem processed_can (ext : Ext) : Canonical writeProcessedTo (readProcessedTo ext) (ProcessedOk ext) := by
  intro s x r hs h
  obtain ⟨len, s1, h1, h⟩ := Rd.bind_some.1 h
  obtain ⟨e1, w1, b1⟩ := rdLe_some hs h1
  rw [Rd.ite_run] at h
  split at h
  · cases h
  rename_i hlen
  obtain ⟨q1, q2, q3, q4, q5⟩ := rdAscending_some (entry_can ext) len none s1 r x b1 h
  refine ⟨⟨by omega, by simpa [Ascending] using q3, q2⟩, ?_, q5⟩
  rw [e1, q4, ← q1]
  simp [writeProcessedTo]

def PartitionOk (p : Nat × List Addr) : Prop :=
  p.1 < 65536 ∧ p.2.length ≤ 10000000 ∧ Ascending addrLt p.2 ∧ ∀ a ∈ p.2, a.WF

theorem partition_rt : RoundTrip writePartition readPartition PartitionOk := by
  rintro ⟨idx, acc⟩ ⟨h1, h2, h3, h4⟩ r
  unfold writePartition readPartition
  dsimp only at *
  have hi : idx < 256 ^ 4 := Nat.lt_trans h1 (by decide)
  have hl : acc.length < 256 ^ 4 := Nat.lt_of_le_of_lt h2 (by decide)
  rw [List.append_assoc, List.append_assoc, Rd.bind_of (rdLe_append hi _), Rd.ite_run, if_neg (by omega),
    Rd.bind_of (rdLe_append hl _), Rd.ite_run, if_neg (by omega),
    Rd.bind_of (rdAscending_append addr_rt acc none h4 (by simpa [Ascending] using h3) r), Rd.pure_run]

theorem partition_can : Canonical writePartition readPartition PartitionOk := by
  intro s x r hs h
  obtain ⟨idx, s1, h1, h⟩ := Rd.bind_some.1 h
  obtain ⟨e1, w1, b1⟩ := rdLe_some hs h1
  rw [Rd.ite_run] at h
  split at h
  · cases h
  rename_i hidx
  obtain ⟨len, s2, h2, h⟩ := Rd.bind_some.1 h
  obtain ⟨e2, w2, b2⟩ := rdLe_some b1 h2
  rw [Rd.ite_run] at h
  split at h
  · cases h
  rename_i hlen
  obtain ⟨acc, s3, h3, h⟩ := Rd.bind_some.1 h
  cases h
  obtain ⟨q1, q2, q3, q4, q5⟩ := rdAscending_some addr_can len none s2 r acc b2 h3
  refine ⟨⟨by simpa using hidx, by simp only; omega, by simpa [Ascending] using q3, q2⟩, ?_, q5⟩
  rw [e1, e2, q4, ← q1]
  simp [writePartition]

def PartitionsOk (m : List (Nat × List Addr)) : Prop :=
  m.length ≤ 65536 ∧ Ascending (fun a b => decide (a.1 < b.1)) m ∧ ∀ p ∈ m, PartitionOk p

theorem partitions_rt : RoundTrip writePartitions readPartitions PartitionsOk := by
  intro m ⟨h1, h2, h3⟩ r
  unfold writePartitions readPartitions
  have hl : m.length < 256 ^ 4 := Nat.lt_of_le_of_lt h1 (by decide)
  rw [List.append_assoc, Rd.bind_of (rdLe_append hl _), Rd.ite_run, if_neg (by omega)]
  exact rdAscending_append partition_rt m none h3 (by simpa [Ascending] using h2) r

theorem partitions_can : Canonical writePartitions readPartitions PartitionsOk := by
  intro s x r hs h
  obtain ⟨len, s1, h1, h⟩ := Rd.bind_some.1 h
  obtain ⟨e1, w1, b1⟩ := rdLe_some hs h1
  rw [Rd.ite_run] at h
  split at h
  · cases h
  rename_i hlen
  obtain ⟨q1, q2, q3, q4, q5⟩ := rdAscending_some partition_can len none s1 r x b1 h
  refine ⟨⟨by omega, by simpa [Ascending] using q3, q2⟩, ?_, q5⟩
  rw [e1, q4, ← q1]
  simp [writePartitions]

def HashOk (h : List Nat) : Prop := h.length = 32 ∧ IsBytes h

theorem hash_rt : RoundTrip id (rdBytes 32) HashOk := fun _ h r => rdBytes_append' h.1 r
theorem hash_can : Canonical id (rdBytes 32) HashOk := by
  intro s x r hs h
  obtain ⟨e, w⟩ := rdBytes_some h
  subst e
  have hb := isBytes_append.1 hs
  exact ⟨⟨w, hb.1⟩, rfl, hb.2⟩

def MessagesOk (m : List (List Nat)) : Prop :=
  m.length ≤ 10000000 ∧ Ascending (fun a b => decide (a < b)) (List.replicate 32 0 :: m) ∧ ∀ h ∈ m, HashOk h

theorem messages_rt : RoundTrip writeMessages readMessages MessagesOk := by
  intro m ⟨h1, h2, h3⟩ r
  unfold writeMessages readMessages
  have hl : m.length < 256 ^ 4 := Nat.lt_of_le_of_lt h1 (by decide)
  rw [List.append_assoc, Rd.bind_of (rdLe_append hl _), Rd.ite_run, if_neg (by omega)]
  exact rdAscending_append hash_rt m _ h3 (by simpa [Ascending] using h2) r

theorem messages_can : Canonical writeMessages readMessages MessagesOk := by
  intro s x r hs h
  obtain ⟨len, s1, h1, h⟩ := Rd.bind_some.1 h
  obtain ⟨e1, w1, b1⟩ := rdLe_some hs h1
  rw [Rd.ite_run] at h
  split at h
  · cases h
  rename_i hlen
  obtain ⟨q1, q2, q3, q4, q5⟩ := rdAscending_some hash_can len _ s1 r x b1 h
  refine ⟨⟨by omega, by simpa [Ascending] using q3, q2⟩, ?_, q5⟩
  rw [e1, q4, ← q1]
  simp [writeMessages]

/-! ### The diff -/

theorem body_rt (ext : Ext) (hid : ext.tlId < 256 ^ 4) (d : Diff) (h : DiffOk ext d) (r : List Nat) :
    readDiffBody ext (writeDiff ext d ++ r) = some ({ d with hash := List.replicate 32 0 }, r) := by
  unfold writeDiff readDiffBody
  simp only [List.append_assoc]
  rw [Rd.bind_of (rdLe_append hid _), Rd.ite_run, if_neg (by simp),
    Rd.bind_of (rdBytes_append' h.prevHash.1 _), Rd.bind_of (shard_rt ext _ h.shard _),
    Rd.bind_of (rdLe_append h.seqno _),
    Rd.bind_of (processed_rt ext _ ⟨h.processedLen, h.processedAsc, h.processed⟩ _),
    Rd.bind_of (key_rt _ h.minMessage _), Rd.bind_of (key_rt _ h.maxMessage _),
    Rd.bind_of (messages_rt _ ⟨h.messagesLen, h.messagesAsc, h.messages⟩ _),
    Rd.bind_of (partitions_rt _ h.src _), Rd.bind_of (partitions_rt _ h.dst _),
    Rd.ite_run, if_neg h.minMax, Rd.pure_run]

theorem body_can (ext : Ext) (s : List Nat) (d : Diff) (r : List Nat) (hs : IsBytes s)
    (h : readDiffBody ext s = some (d, r)) :
    DiffOk ext d ∧ s = writeDiff ext d ++ r ∧ IsBytes r ∧ d.hash = List.replicate 32 0 := by
  unfold readDiffBody at h
  obtain ⟨id, s1, h1, h⟩ := Rd.bind_some.1 h
  obtain ⟨e1, w1, b1⟩ := rdLe_some hs h1
  rw [Rd.ite_run] at h
  split at h
  · cases h
  rename_i hid
  obtain ⟨prev, s2, h2, h⟩ := Rd.bind_some.1 h
  obtain ⟨p2, e2, b2⟩ := hash_can _ _ _ b1 h2
  obtain ⟨sh, s3, h3, h⟩ := Rd.bind_some.1 h
  obtain ⟨p3, e3, b3⟩ := shard_can ext _ _ _ b2 h3
  obtain ⟨n, s4, h4, h⟩ := Rd.bind_some.1 h
  obtain ⟨e4, w4, b4⟩ := rdLe_some b3 h4
  obtain ⟨pt, s5, h5, h⟩ := Rd.bind_some.1 h
  obtain ⟨p5, e5, b5⟩ := processed_can ext _ _ _ b4 h5
  obtain ⟨mn, s6, h6, h⟩ := Rd.bind_some.1 h
  obtain ⟨p6, e6, b6⟩ := key_can _ _ _ b5 h6
  obtain ⟨mx, s7, h7, h⟩ := Rd.bind_some.1 h
  obtain ⟨p7, e7, b7⟩ := key_can _ _ _ b6 h7
  obtain ⟨ms, s8, h8, h⟩ := Rd.bind_some.1 h
  obtain ⟨p8, e8, b8⟩ := messages_can _ _ _ b7 h8
  obtain ⟨src, s9, h9, h⟩ := Rd.bind_some.1 h
  obtain ⟨p9, e9, b9⟩ := partitions_can _ _ _ b8 h9
  obtain ⟨dst, s10, h10, h⟩ := Rd.bind_some.1 h
  obtain ⟨p10, e10, b10⟩ := partitions_can _ _ _ b9 h10
  rw [Rd.ite_run] at h
  split at h
  · cases h
  rename_i hmm
  cases h
  refine ⟨?_, ?_, b10, rfl⟩
  · exact
      { prevHash := p2, shard := p3, seqno := w4, processedLen := p5.1, processed := p5.2.2,
        processedAsc := p5.2.1, minMessage := p6, maxMessage := p7, minMax := hmm,
        messagesLen := p8.1, messages := p8.2.2, messagesAsc := p8.2.1, src := p9, dst := p10 }
  · have hid' : id = ext.tlId := by simpa using hid
    rw [e1, e2, e3, e4, e5, e6, e7, e8, e9, e10, hid']
    simp [writeDiff]

/-- C23: a well-formed diff reads back as itself with its hash recomputed, whatever follows it. -/
theorem diff_reads_back (ext : Ext) (hid : ext.tlId < 256 ^ 4) (d : Diff) (h : DiffOk ext d) (r : List Nat) :
    readDiff ext (writeDiff ext d ++ r) = some (recomputeHash ext d, r) := by
  unfold readDiff
  rw [body_rt ext hid d h r]
  simp [recomputeHash]

/-- C23: whatever bytes are accepted as a diff are exactly the encoding of the diff returned, which is
well-formed and whose hash is the hash of its own encoding. -/
theorem accepted_diff_is_canonical (ext : Ext) (s : List Nat) (d : Diff) (r : List Nat) (hs : IsBytes s)
    (h : readDiff ext s = some (d, r)) :
    DiffOk ext d ∧ s = writeDiff ext d ++ r ∧ d.hash = ext.fileHash (writeDiff ext d) ∧ IsBytes r := by
  unfold readDiff at h
  cases hb : readDiffBody ext s with
  | none => rw [hb] at h; cases h
  | some p =>
    obtain ⟨d0, r0⟩ := p
    rw [hb] at h
    cases h
    obtain ⟨h1, h2, h3, h4⟩ := body_can ext s d0 r hs hb
    have hw : ∀ x, writeDiff ext { d0 with hash := x } = writeDiff ext d0 := fun _ => rfl
    refine ⟨?_, ?_, ?_, h3⟩
    · exact
        { prevHash := h1.prevHash, shard := h1.shard, seqno := h1.seqno, processedLen := h1.processedLen,
          processed := h1.processed, processedAsc := h1.processedAsc, minMessage := h1.minMessage,
          maxMessage := h1.maxMessage, minMax := h1.minMax, messagesLen := h1.messagesLen,
          messages := h1.messages, messagesAsc := h1.messagesAsc, src := h1.src, dst := h1.dst }
    · rw [hw]; exact h2
    · rw [hw]
      have : s.take (s.length - r.length) = writeDiff ext d0 := by
        rw [h2, List.length_append, Nat.add_sub_cancel, List.take_left]
      rw [← this]

/-- C23: two accepted encodings of equal diffs are the same bytes, so a diff has one hash. -/
theorem one_encoding_per_diff (ext : Ext) (s t : List Nat) (d e : Diff) (hs : IsBytes s) (ht : IsBytes t)
    (h1 : readDiff ext s = some (d, [])) (h2 : readDiff ext t = some (e, []))
    (he : { d with hash := [] } = { e with hash := [] }) : s = t ∧ d = e := by
  obtain ⟨-, a1, a2, -⟩ := accepted_diff_is_canonical ext s d [] hs h1
  obtain ⟨-, b1, b2, -⟩ := accepted_diff_is_canonical ext t e [] ht h2
  rw [List.append_nil] at a1 b1
  have hw : writeDiff ext d = writeDiff ext e := by
    have : writeDiff ext { d with hash := [] } = writeDiff ext { e with hash := [] } := by rw [he]
    exact this
  refine ⟨by rw [a1, b1, hw], ?_⟩
  have hh : d.hash = e.hash := by rw [a2, b2, hw]
  cases d; cases e; simp_all

/-- C23: the keys of a diff just read are strictly ascending in every ordered field, hence without
repetitions: no shard twice in `processed_to`, no message hash twice. -/
theorem accepted_diff_no_repetition (ext : Ext) (s : List Nat) (d : Diff) (r : List Nat) (hs : IsBytes s)
    (h : readDiff ext s = some (d, r)) :
    (d.processedTo.map Prod.fst).Nodup ∧ d.messages.Nodup ∧ (d.partitionsSrc.map Prod.fst).Nodup ∧
    (d.partitionsDst.map Prod.fst).Nodup := by
  obtain ⟨hd, -⟩ := accepted_diff_is_canonical ext s d r hs h
  have hmsg : d.messages.Pairwise (· < ·) := by
    have h1 := hd.messagesAsc
    unfold Ascending at h1
    have h2 : List.IsChain (fun a b : List Nat => a < b) (List.replicate 32 0 :: d.messages) :=
      h1.imp (fun a b h => by simpa using h)
    have : Trans (fun a b : List Nat => a < b) (fun a b : List Nat => a < b) (fun a b : List Nat => a < b) :=
      ⟨fun h1 h2 => List.lt_trans h1 h2⟩
    exact (List.isChain_iff_pairwise.1 h2).of_cons
  have hproc : (d.processedTo.map Prod.fst).Nodup := by
    have h1 := hd.processedAsc
    unfold Ascending at h1
    have : Trans (fun a b : Shard × Key => shardLt a.1 b.1 = true) (fun a b : Shard × Key => shardLt a.1 b.1 = true)
        (fun a b : Shard × Key => shardLt a.1 b.1 = true) := ⟨by
      intro a b c h1 h2
      simp only [shardLt, decide_eq_true_eq] at *
      omega⟩
    have h2 := List.isChain_iff_pairwise.1 h1
    rw [List.Nodup, List.pairwise_map]
    refine h2.imp ?_
    intro a b hab he
    simp [he, shardLt] at hab
  have hpart : ∀ m : List (Nat × List Addr), Ascending (fun a b => decide (a.1 < b.1)) m →
      (m.map Prod.fst).Nodup := by
    intro m h1
    unfold Ascending at h1
    have : Trans (fun a b : Nat × List Addr => decide (a.1 < b.1) = true)
        (fun a b : Nat × List Addr => decide (a.1 < b.1) = true)
        (fun a b : Nat × List Addr => decide (a.1 < b.1) = true) := ⟨by
      intro a b c h1 h2
      simp only [decide_eq_true_eq] at *
      omega⟩
    have h2 := List.isChain_iff_pairwise.1 h1
    rw [List.Nodup, List.pairwise_map]
    refine h2.imp ?_
    intro a b hab he
    simp only [decide_eq_true_eq] at hab
    omega
  refine ⟨hproc, ?_, hpart _ hd.src.2.1, hpart _ hd.dst.2.1⟩
  refine hmsg.imp ?_
  intro a b hab he
  subst he
  exact list_lt_irrefl _ hab

/-! ### Lists of diffs -/

/-- Newest first: each next diff is older and is the one named by `prev_hash`. -/
def Linked (ds : List Diff) : Prop := ds.IsChain (fun a b => b.seqno < a.seqno ∧ a.prevHash = b.hash)

theorem loop_some (ext : Ext) (n latest : Nat) (prev : List Nat) (s r : List Nat) (ds : List Diff)
    (hs : IsBytes s) (h : readDiffsLoop ext n latest prev s = some (ds, r)) :
    ds.length = n ∧ s = ds.flatMap (writeDiff ext) ++ r ∧ IsBytes r ∧ Linked ds ∧
    (∀ d ∈ ds, DiffOk ext d ∧ d.hash = ext.fileHash (writeDiff ext d)) ∧
    (∀ d ∈ ds.head?, d.seqno < latest ∧ prev = d.hash) := by
  induction n generalizing latest prev s ds with
  | zero => cases h; simp [hs, Linked]
  | succ n ih =>
    unfold readDiffsLoop at h
    obtain ⟨d, s1, h1, h⟩ := Rd.bind_some.1 h
    obtain ⟨p1, e1, q1, b1⟩ := accepted_diff_is_canonical ext _ _ _ hs h1
    rw [Rd.ite_run] at h
    split at h
    · cases h
    rename_i hc
    obtain ⟨ds', s2, h2, h⟩ := Rd.bind_some.1 h
    cases h
    obtain ⟨i1, i2, i3, i4, i5, i6⟩ := ih d.seqno d.prevHash s1 ds' b1 h2
    simp only [not_or, Nat.not_le, Decidable.not_not] at hc
    refine ⟨by simp [i1], by rw [e1, i2]; simp, i3, ?_, ?_, ?_⟩
    · unfold Linked at *
      cases ds' with
      | nil => simp
      | cons e es =>
        rw [List.isChain_cons_cons]
        have := i6 e (by simp)
        exact ⟨this, i4⟩
    · intro x hx
      rcases List.mem_cons.1 hx with rfl | hx
      · exact ⟨p1, q1⟩
      · exact i5 x hx
    · intro x hx
      simp at hx
      subst hx
      exact hc

/-- C23: an accepted list of diffs is not empty, its bytes are its canonical encoding, sequence numbers
strictly fall, and each diff names the hash of the encoding of the next. -/
theorem accepted_diff_list_is_chain (ext : Ext) (s r : List Nat) (ds : List Diff) (hs : IsBytes s)
    (h : readDiffs ext s = some (ds, r)) :
    ds ≠ [] ∧ ds.length ≤ 1000 ∧ s = writeDiffs ext ds ++ r ∧ Linked ds ∧
    (∀ d ∈ ds, DiffOk ext d ∧ d.hash = ext.fileHash (writeDiff ext d)) := by
  unfold readDiffs at h
  obtain ⟨len, s1, h1, h⟩ := Rd.bind_some.1 h
  obtain ⟨e1, w1, b1⟩ := rdLe_some hs h1
  rw [Rd.ite_run] at h
  split at h
  · cases h
  rename_i hlen
  obtain ⟨d, s2, h2, h⟩ := Rd.bind_some.1 h
  obtain ⟨p2, e2, q2, b2⟩ := accepted_diff_is_canonical ext _ _ _ b1 h2
  obtain ⟨ds', s3, h3, h⟩ := Rd.bind_some.1 h
  cases h
  obtain ⟨i1, i2, i3, i4, i5, i6⟩ := loop_some ext (len - 1) d.seqno d.prevHash s2 _ ds' b2 h3
  have hl : (d :: ds').length = len := by simp [i1]; omega
  refine ⟨by simp, by omega, ?_, ?_, ?_⟩
  · rw [e1, e2, i2, ← hl]; simp [writeDiffs]
  · unfold Linked at *
    cases ds' with
    | nil => simp
    | cons e es =>
      rw [List.isChain_cons_cons]
      exact ⟨i6 e (by simp), i4⟩
  · intro x hx
    rcases List.mem_cons.1 hx with rfl | hx
    · exact ⟨p2, q2⟩
    · exact i5 x hx

theorem loop_rt (ext : Ext) (hid : ext.tlId < 256 ^ 4) (ds : List Diff) (latest : Nat) (prev r : List Nat)
    (hd : ∀ d ∈ ds, DiffOk ext d ∧ d.hash = ext.fileHash (writeDiff ext d)) (hl : Linked ds)
    (hh : ∀ d ∈ ds.head?, d.seqno < latest ∧ prev = d.hash) :
    readDiffsLoop ext ds.length latest prev (ds.flatMap (writeDiff ext) ++ r) = some (ds, r) := by
  induction ds generalizing latest prev with
  | nil => rfl
  | cons d ds ih =>
    simp only [List.length_cons, readDiffsLoop, List.flatMap_cons, List.append_assoc]
    have hd0 := hd d (by simp)
    have hr : recomputeHash ext d = d := by
      unfold recomputeHash
      rw [← hd0.2]
    rw [Rd.bind_of (diff_reads_back ext hid d hd0.1 _), hr]
    have := hh d (by simp)
    rw [Rd.ite_run, if_neg (by simp only [not_or, Nat.not_le, Decidable.not_not]; exact this)]
    rw [Rd.bind_of (ih d.seqno d.prevHash (fun x hx => hd x (by simp [hx])) ?_ ?_), Rd.pure_run]
    · unfold Linked at *
      exact hl.tail
    · intro x hx
      cases ds with
      | nil => simp at hx
      | cons e es =>
        simp at hx
        subst hx
        unfold Linked at hl
        rw [List.isChain_cons_cons] at hl
        exact hl.1

/-- C23: conversely a linked list of well-formed diffs reads back. -/
theorem diff_list_reads_back (ext : Ext) (hid : ext.tlId < 256 ^ 4) (ds : List Diff) (r : List Nat)
    (hne : ds ≠ []) (hlen : ds.length ≤ 1000)
    (hd : ∀ d ∈ ds, DiffOk ext d ∧ d.hash = ext.fileHash (writeDiff ext d)) (hl : Linked ds) :
    readDiffs ext (writeDiffs ext ds ++ r) = some (ds, r) := by
  cases ds with
  | nil => exact absurd rfl hne
  | cons d ds =>
    unfold writeDiffs readDiffs
    have hw : (d :: ds).length < 256 ^ 4 := Nat.lt_of_le_of_lt hlen (by decide)
    have hd0 := hd d (by simp)
    have hr : recomputeHash ext d = d := by
      unfold recomputeHash
      rw [← hd0.2]
    rw [List.append_assoc, Rd.bind_of (rdLe_append hw _), Rd.ite_run, if_neg (by simp at hlen ⊢; omega),
      List.flatMap_cons, List.append_assoc, Rd.bind_of (diff_reads_back ext hid d hd0.1 _), hr]
    have e : (d :: ds).length - 1 = ds.length := by simp
    rw [e, Rd.bind_of (loop_rt ext hid ds d.seqno d.prevHash r (fun x hx => hd x (by simp [hx])) ?_ ?_),
      Rd.pure_run]
    · unfold Linked at *
      exact hl.tail
    · intro x hx
      cases ds with
      | nil => simp at hx
      | cons e es =>
        simp at hx
        subst hx
        unfold Linked at hl
        rw [List.isChain_cons_cons] at hl
        exact hl.1

/-! ### Byte strings -/

theorem writeBig_eq (b : List Nat) :
    writeBig b = leBytes 4 b.length ++ (b ++ List.replicate (padding b.length) 0) := by
  unfold writeBig padding
  split
  · rename_i h
    have : (4 - b.length % 4) % 4 = 4 - b.length % 4 := by omega
    rw [this]
  · rename_i h
    have : (4 - b.length % 4) % 4 = 0 := by omega
    rw [this]; rfl

/-- C23: a byte string of allowed length reads back, and its encoding is a multiple of four long. -/
theorem big_bytes_read_back (maxSize : Nat) (hm : maxSize < 256 ^ 4) (b r : List Nat) (hb : b.length ≤ maxSize) :
    readBig maxSize (writeBig b ++ r) = some (b, r) ∧ (writeBig b).length % 4 = 0 := by
  rw [writeBig_eq]
  constructor
  · unfold readBig
    rw [List.append_assoc, Rd.bind_of (rdLe_append (Nat.lt_of_le_of_lt hb hm) _), Rd.ite_run,
      if_neg (by omega), Rd.bind_of (rdBytes_append' (by simp) _), Rd.pure_run, List.take_left]
  · simp only [List.length_append, leBytes_length, List.length_replicate, padding]
    omega

/-- Reading never goes past the limit and never reads past the end. -/
theorem big_bytes_bounded (maxSize : Nat) (s b r : List Nat) (hs : IsBytes s)
    (h : readBig maxSize s = some (b, r)) :
    b.length ≤ maxSize ∧ ∃ pad, pad.length = padding b.length ∧ s = leBytes 4 b.length ++ (b ++ (pad ++ r)) := by
  unfold readBig at h
  obtain ⟨len, s1, h1, h⟩ := Rd.bind_some.1 h
  obtain ⟨e1, w1, b1⟩ := rdLe_some hs h1
  rw [Rd.ite_run] at h
  split at h
  · cases h
  obtain ⟨all, s2, h2, h⟩ := Rd.bind_some.1 h
  obtain ⟨e2, w2⟩ := rdBytes_some h2
  cases h
  have hl : (all.take len).length = len := by simp; omega
  refine ⟨by omega, all.drop len, by rw [hl]; simp [w2], ?_⟩
  rw [e1, e2, hl, ← List.append_assoc (all.take len), List.take_append_drop]

/-- The padding is not checked: unlike diffs, byte strings have several accepted encodings. -/
theorem big_bytes_padding_unchecked (maxSize : Nat) (hm : 3 ≤ maxSize) (x : Nat) :
    readBig maxSize ([3, 0, 0, 0, 1, 1, 1] ++ [x]) = some ([1, 1, 1], []) := by
  unfold readBig
  rw [Rd.bind_of (show rdLe 4 ([3, 0, 0, 0, 1, 1, 1] ++ [x]) = some (3, [1, 1, 1, x]) from rfl), Rd.ite_run,
    if_neg (by omega)]
  rfl

/-! ### A concrete diff -/

def demoExt : Ext := { validShard := fun _ p => p != 0, fileHash := fun l => List.replicate 32 (l.length % 256), tlId := 7 }

def demoDiff : Diff where
  hash := List.replicate 32 1
  prevHash := List.replicate 32 2
  shard := ⟨0, 2 ^ 63⟩
  seqno := 5
  processedTo := [(⟨-1, 2 ^ 63⟩, ⟨9, List.replicate 32 3⟩), (⟨0, 2 ^ 63⟩, ⟨4, List.replicate 32 0⟩)]
  minMessage := ⟨10, List.replicate 32 0⟩
  maxMessage := ⟨12, List.replicate 32 1⟩
  messages := [List.replicate 32 1, List.replicate 32 9]
  partitionsSrc := [(1, [⟨-1, List.replicate 32 5⟩])]
  partitionsDst := []

theorem demoDiff_ok : DiffOk demoExt demoDiff := by
  have rb : ∀ n x, x < 256 → IsBytes (List.replicate n x) := by
    intro n x hx b hb; rw [List.eq_of_mem_replicate hb]; exact hx
  constructor
  · exact ⟨by decide, rb _ _ (by decide)⟩
  · exact ⟨by unfold Shard.WF; decide, by decide⟩
  · decide
  · decide
  · intro e he
    simp only [demoDiff, List.mem_cons, List.not_mem_nil, or_false] at he
    rcases he with rfl | rfl
    · exact ⟨⟨by unfold Shard.WF; decide, by decide⟩, by decide, by decide, rb _ _ (by decide)⟩
    · exact ⟨⟨by unfold Shard.WF; decide, by decide⟩, by decide, by decide, rb _ _ (by decide)⟩
  · simp only [Ascending, demoDiff, List.isChain_cons_cons, List.isChain_singleton]; decide
  · exact ⟨by decide, by decide, rb _ _ (by decide)⟩
  · exact ⟨by decide, by decide, rb _ _ (by decide)⟩
  · decide
  · decide
  · intro e he
    simp only [demoDiff, List.mem_cons, List.not_mem_nil, or_false] at he
    rcases he with rfl | rfl
    · exact ⟨by decide, rb _ _ (by decide)⟩
    · exact ⟨by decide, rb _ _ (by decide)⟩
  · simp only [Ascending, demoDiff, List.isChain_cons_cons, List.isChain_singleton]; decide
  · refine ⟨by decide, by simp [Ascending, demoDiff], ?_⟩
    intro p hp
    simp only [demoDiff, List.mem_cons, List.not_mem_nil, or_false] at hp
    subst hp
    refine ⟨by decide, by decide, by simp [Ascending], ?_⟩
    intro a ha
    simp only [List.mem_cons, List.not_mem_nil, or_false] at ha
    subst ha
    exact ⟨by decide, by decide, by decide, rb _ _ (by decide)⟩
  · refine ⟨by decide, by simp [Ascending, demoDiff], ?_⟩
    intro p hp
    simp [demoDiff] at hp

example : readDiff demoExt (writeDiff demoExt demoDiff ++ [1, 2, 3]) =
    some (recomputeHash demoExt demoDiff, [1, 2, 3]) :=
  diff_reads_back demoExt (by decide) demoDiff demoDiff_ok _

end Tycho.QueueDiffTl
