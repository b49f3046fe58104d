import Verif.QueueStateFile.Lemmas

namespace Tycho.QueueStateFile
open Tycho.Bytes Tycho.Codec Tycho.QueueKey Tycho.QueueDiffTl

variable {Cell : Type}

/-! ### Writing and reading back -/

theorem mem_infix_flatten {c : List Cell} {cs : List (List Cell)} (h : c ∈ cs) : c <:+: cs.flatten := by
  obtain ⟨a, b, rfl⟩ := List.append_of_mem h
  exact ⟨a.flatten, b.flatten, by simp⟩

theorem flatten_entries (t : Tail Cell) :
    (t.map (fun p => p.2.map some)).flatten = (allMessages t).map some := by
  induction t with
  | nil => rfl
  | cons p t ih => simp [allMessages, ih, List.flatMap_cons]

theorem needed_bound (ext : Ext Cell) (t : Tail Cell) (ht : TailOk ext t) :
    chunksNeeded (allMessages t) ≤ maxChunks := by
  have h : (allMessages t).length ≤ 10000000 * t.length := by
    have hall : ∀ p ∈ t, p.2.length ≤ 10000000 := by
      intro p hp
      have h1 := ht.messages p hp
      have h2 := (ht.diffs p hp).1.messagesLen
      rw [← h1] at h2
      simpa using h2
    clear ht
    induction t with
    | nil => simp [allMessages]
    | cons p t ih =>
      have h1 := hall p (by simp)
      have h2 := ih (fun x hx => hall x (by simp [hx]))
      simp only [allMessages, List.flatMap_cons, List.length_append, List.length_cons] at *
      omega
  have h2 := ht.length
  unfold chunksNeeded maxChunks
  omega

theorem split_of_write (ext : Ext Cell) (ms : List Cell) :
    ∃ chunks, writeChunks ext ((ms.map some).length + 1) (ms.map some) = some chunks ∧ Split ext ms chunks := by
  obtain ⟨chunks, h1, h2, h3⟩ := writeChunks_spec ext ((ms.map some).length + 1) ms (by simp)
  exact ⟨chunks, h1, h2, fun c hc => (h3 c hc).1, fun c hc => (h3 c hc).2.1, fun c hc => (h3 c hc).2.2⟩

theorem write_eq (ext : Ext Cell) (t : Tail Cell) (ht : TailOk ext t) (shard : Shard) (seqno : Nat)
    (chunks : List (List Cell))
    (h : writeChunks ext (((allMessages t).map some).length + 1) ((allMessages t).map some) = some chunks) :
    writeState ext ⟨shard, seqno, t.map Prod.fst⟩ (t.map (fun p => p.2.map some)) =
      some (leBytes 4 ext.stateId ++ (writeHeader ext ⟨shard, seqno, t.map Prod.fst⟩ ++
        (leBytes 4 (chunksNeeded (allMessages t)) ++ chunks.flatMap (writeChunk ext)))) := by
  unfold writeState
  dsimp only
  rw [if_neg (by simp [ht.nonempty]), flatten_entries, h, declared_eq ext t shard seqno ht.messages]

theorem readState_written (ext : Ext Cell) (L : Laws ext) (t : Tail Cell) (ht : TailOk ext t) (shard : Shard)
    (seqno : Nat) (hs : ShardOk ext.q shard) (hn : seqno < 256 ^ 4) (r : List Nat) :
    readState ext (leBytes 4 ext.stateId ++ (writeHeader ext ⟨shard, seqno, t.map Prod.fst⟩ ++ r)) =
      match readChunkList r with
      | none => none
      | some (cs, r') => some ((⟨shard, seqno, t.map Prod.fst⟩, cs), r') := by
  unfold readState
  rw [Rd.bind_of (rdLe_append L.stateId _), Rd.ite_run, if_neg (by simp),
    Rd.bind_of (readHeader_rt ext L ⟨shard, seqno, t.map Prod.fst⟩ hs hn (by simp [ht.nonempty])
      (by simpa using ht.length) ?_ ht.linked r)]
  · rw [Rd.bind_run]
    cases readChunkList r with
    | none => rfl
    | some p => rfl
  · intro d hd
    obtain ⟨p, hp, rfl⟩ := List.mem_map.1 hd
    exact ht.diffs p hp

theorem split_sizes (ext : Ext Cell) (ms : List Cell) (chunks : List (List Cell)) (hs : Split ext ms chunks)
    (hm : Moderate ext ms) : ∀ c ∈ chunks, ext.bocSize c ≤ maxReadChunk := by
  intro c hc
  have hne := hs.nonempty c hc
  have hi : c <:+: ms := by rw [← hs.all]; exact mem_infix_flatten hc
  have e := List.dropLast_append_getLast hne
  have := hm c.dropLast (c.getLast hne) (by rw [e]; exact hi) ?_
  · rw [e] at this; exact this
  · by_cases h1 : c.length = 1
    · left
      rw [List.dropLast_eq_take, h1]; rfl
    · right
      rw [List.dropLast_eq_take]
      have : 0 < c.length := List.length_pos_of_ne_nil hne
      exact hs.light c hc _ (by omega) (by omega)

theorem rdMany_left (ext : Ext Cell) (L : Laws ext) (n : Nat) (chunks : List (List Cell))
    (hn : n < chunks.length) (hsz : ∀ c ∈ chunks, ext.bocSize c < 256 ^ 4) (xs : List (List Nat)) (r : List Nat)
    (h : rdMany (readBig maxReadChunk) n (chunks.flatMap (writeChunk ext)) = some (xs, r)) : r ≠ [] := by
  induction n generalizing chunks xs with
  | zero =>
    cases h
    cases chunks with
    | nil => simp at hn
    | cons c cs =>
      rw [List.flatMap_cons]
      intro h
      exact writeChunk_ne ext c (List.append_eq_nil_iff.1 h).1
  | succ n ih =>
    cases chunks with
    | nil => simp at hn
    | cons c cs =>
      rw [List.flatMap_cons] at h
      unfold rdMany at h
      obtain ⟨x, s1, h1, h⟩ := Rd.bind_some.1 h
      obtain ⟨ys, s2, h2, h⟩ := Rd.bind_some.1 h
      cases h
      by_cases hc : ext.bocSize c ≤ maxReadChunk
      · rw [writeChunk_eq ext L, (big_bytes_read_back maxReadChunk (by decide) _ _ (by rw [L.size]; exact hc)).1] at h1
        cases h1
        exact ih cs (by simpa using hn) (fun y hy => hsz y (by simp [hy])) ys h2
      · exfalso
        rw [writeChunk_eq ext L, writeBig_eq] at h1
        unfold readBig at h1
        rw [List.append_assoc, Rd.bind_of (rdLe_append (by rw [L.size]; exact hsz c (by simp)) _), Rd.ite_run,
          if_pos (by rw [L.size]; omega)] at h1
        cases h1

theorem begin_written (ext : Ext Cell) (L : Laws ext) (t : Tail Cell) (ht : TailOk ext t) (shard : Shard)
    (seqno : Nat) (hs : ShardOk ext.q shard) (hn : seqno < 256 ^ 4) (chunks : List (List Cell))
    (hc : Split ext (allMessages t) chunks) (hsz : ∀ c ∈ chunks, ext.bocSize c ≤ maxReadChunk)
    (hlen : chunks.length = chunksNeeded (allMessages t)) :
    beginRead ext (leBytes 4 ext.stateId ++ (writeHeader ext ⟨shard, seqno, t.map Prod.fst⟩ ++
        (leBytes 4 (chunksNeeded (allMessages t)) ++ chunks.flatMap (writeChunk ext)))) (topOf t) =
      some ⟨t.map Prod.fst, chunks.map ext.encodeBoc, 0, 0, 0, none⟩ := by
  unfold beginRead
  rw [readState_written ext L t ht shard seqno hs hn,
    readChunkList_rt ext L _ chunks (by omega) (needed_bound ext t ht) hsz, ← hlen, List.take_length,
    List.drop_length]
  dsimp only [List.flatMap_nil]
  rw [if_neg (by simp)]
  cases t with
  | nil => exact absurd rfl ht.nonempty
  | cons p t => simp [topOf]

theorem read_written (ext : Ext Cell) (L : Laws ext) (t : Tail Cell) (ht : TailOk ext t) (shard : Shard)
    (seqno : Nat) (hs : ShardOk ext.q shard) (hn : seqno < 256 ^ 4) (chunks : List (List Cell))
    (hc : Split ext (allMessages t) chunks) (hsz : ∀ c ∈ chunks, ext.bocSize c ≤ maxReadChunk)
    (hlen : chunks.length = chunksNeeded (allMessages t)) :
    readFile ext (leBytes 4 ext.stateId ++ (writeHeader ext ⟨shard, seqno, t.map Prod.fst⟩ ++
        (leBytes 4 (chunksNeeded (allMessages t)) ++ chunks.flatMap (writeChunk ext)))) (topOf t) = .ok t := by
  unfold readFile
  rw [begin_written ext L t ht shard seqno hs hn chunks hc hsz hlen]
  dsimp only
  obtain ⟨r', h1, h2⟩ := drainAll_good ext L chunks (fun c hc' => ⟨hc.nonempty c hc', hc.roots c hc'⟩) t
    ht.messages ((t.map Prod.fst).length + 1) (by simp)
    ⟨t.map Prod.fst, chunks.map ext.encodeBoc, 0, 0, 0, none⟩ ⟨rfl, by simp⟩ rfl rfl
    (by simp [remaining, hc.all]) (by simp)
  rw [h1]
  dsimp only
  rw [if_pos h2]

/-- C66: a saved queue state whose messages are light (no 10000 consecutive ones make a bag of 10 MB)
is written, and read by a node that knows the block's update record it gives every diff of the tail with
exactly its messages, in order, and the read finishes without complaint. -/
theorem queue_state_reads_back (ext : Ext Cell) (L : Laws ext) (t : Tail Cell) (ht : TailOk ext t)
    (shard : Shard) (seqno : Nat) (hs : ShardOk ext.q shard) (hn : seqno < 256 ^ 4)
    (hl : Light ext (allMessages t)) :
    ∃ bytes, writeState ext ⟨shard, seqno, t.map Prod.fst⟩ (t.map (fun p => p.2.map some)) = some bytes ∧
      readFile ext bytes (topOf t) = .ok t := by
  obtain ⟨chunks, h1, h2⟩ := split_of_write ext (allMessages t)
  refine ⟨_, write_eq ext t ht shard seqno chunks h1, ?_⟩
  refine read_written ext L t ht shard seqno hs hn chunks h2 ?_ ?_
  · intro c hc
    have hi : c <:+: allMessages t := by rw [← h2.all]; exact mem_infix_flatten hc
    have := hl c hi (h2.roots c hc)
    unfold maxReadChunk
    omega
  · exact writeChunks_light ext _ (allMessages t) (by simp) hl chunks h1

/-- C66: exactly when a written file can be read back. The writer splits the messages into runs that also
stop at 10 MB, but announces only as many chunks as 10000-message runs need: if it wrote more, the file is
rejected, otherwise all of the content is read back. -/
theorem queue_state_readable_iff (ext : Ext Cell) (L : Laws ext) (t : Tail Cell) (ht : TailOk ext t)
    (shard : Shard) (seqno : Nat) (hs : ShardOk ext.q shard) (hn : seqno < 256 ^ 4)
    (hm : Moderate ext (allMessages t)) :
    ∃ chunks bytes, Split ext (allMessages t) chunks ∧
      writeState ext ⟨shard, seqno, t.map Prod.fst⟩ (t.map (fun p => p.2.map some)) = some bytes ∧
      chunksNeeded (allMessages t) ≤ chunks.length ∧
      readFile ext bytes (topOf t) = if chunks.length = chunksNeeded (allMessages t) then .ok t else .err := by
  obtain ⟨chunks, h1, h2⟩ := split_of_write ext (allMessages t)
  have hle := needed_le (allMessages t) chunks h2.all h2.roots
  have hsz := split_sizes ext _ chunks h2 hm
  refine ⟨chunks, _, h2, write_eq ext t ht shard seqno chunks h1, hle, ?_⟩
  split
  · rename_i he
    exact read_written ext L t ht shard seqno hs hn chunks h2 hsz he
  · rename_i hne
    unfold readFile beginRead
    rw [readState_written ext L t ht shard seqno hs hn,
      readChunkList_rt ext L _ chunks hle (needed_bound ext t ht) hsz]
    dsimp only
    rw [if_pos]
    obtain ⟨c, cs, hc⟩ : ∃ c cs, chunks.drop (chunksNeeded (allMessages t)) = c :: cs := by
      cases hd : chunks.drop (chunksNeeded (allMessages t)) with
      | nil => rw [List.drop_eq_nil_iff] at hd; omega
      | cons c cs => exact ⟨c, cs, rfl⟩
    rw [hc, List.flatMap_cons]
    intro h
    exact writeChunk_ne ext c (List.append_eq_nil_iff.1 h).1

/-- C66, a defect of the code: at most 10000 messages of which a proper part already makes a bag of
10 MB are written without an error to a file that can never be read. -/
theorem heavy_queue_state_is_unreadable (ext : Ext Cell) (L : Laws ext) (t : Tail Cell) (ht : TailOk ext t)
    (shard : Shard) (seqno : Nat) (hs : ShardOk ext.q shard) (hn : seqno < 256 ^ 4)
    (hfew : (allMessages t).length ≤ 10000) (j : Nat) (hj : 0 < j) (hj' : j < (allMessages t).length)
    (hheavy : 10485760 ≤ ext.bocSize ((allMessages t).take j))
    (h4g : ∀ l, l <:+: allMessages t → ext.bocSize l < 256 ^ 4) (top : TopUpdate) :
    ∃ bytes, writeState ext ⟨shard, seqno, t.map Prod.fst⟩ (t.map (fun p => p.2.map some)) = some bytes ∧
      readFile ext bytes top = .err := by
  obtain ⟨chunks, h1, h2⟩ := split_of_write ext (allMessages t)
  refine ⟨_, write_eq ext t ht shard seqno chunks h1, ?_⟩
  have hone : chunksNeeded (allMessages t) = 1 := by unfold chunksNeeded; omega
  have hmore : 1 < chunks.length := by
    match chunks, h2 with
    | [], h => have := h.all; rw [← this] at hj'; simp at hj'
    | [c], h =>
      exfalso
      have := h.all
      simp at this
      have h3 := h.light c (by simp) j hj (by rw [this]; exact hj')
      rw [this] at h3
      omega
    | _ :: _ :: _, _ => simp
  rw [hone]
  unfold readFile beginRead
  rw [readState_written ext L t ht shard seqno hs hn]
  unfold readChunkList
  rw [Rd.bind_of (rdLe_append (by decide) _), Rd.ite_run, if_neg (by decide)]
  cases hr : rdMany (readBig maxReadChunk) 1 (chunks.flatMap (writeChunk ext)) with
  | none => rfl
  | some p =>
    obtain ⟨xs, r⟩ := p
    have := rdMany_left ext L 1 chunks hmore
      (fun c hc => h4g c (by rw [← h2.all]; exact mem_infix_flatten hc)) xs r hr
    dsimp only
    rw [if_pos this]

/-! ### From the block -/

theorem entries_of_has (ext : Ext Cell) (b : Block Cell) (cells : List Cell) (h : HasMessages ext b cells) :
    zipEntries b = cells.map some := by
  unfold zipEntries
  rw [← h.1, List.map_map]
  apply List.map_congr_left
  intro c hc
  obtain ⟨refs, h1, h2⟩ := h.2 c hc
  simp [entryOf, h1, h2]

theorem collectTail_spec (n : Nat) (b : Block Cell) (bs : List (Block Cell)) (h : ancestry n b = some bs) :
    collectTail n b = some (bs.map (fun x => (x.diff, zipEntries x))) ∧ bs.length = n ∧
    (0 < n → bs.head? = some b) := by
  induction n generalizing b bs with
  | zero => cases h; simp [collectTail]
  | succ n ih =>
    cases n with
    | zero => cases h; simp [collectTail]
    | succ n =>
      rw [ancestry] at h
      cases hp : b.prev with
      | none => rw [hp] at h; cases h
      | some p =>
        rw [hp] at h
        simp only [Option.bind_some, Option.map_eq_some_iff] at h
        obtain ⟨bs', h1, rfl⟩ := h
        obtain ⟨i1, i2, -⟩ := ih p bs' h1
        refine ⟨?_, by simp [i2], by simp⟩
        rw [collectTail, hp]
        simp only [i1]
        simp

/-- C66: what is saved for a block is its own diff and those of its ancestors, as many as the block's
update record says, each with all its messages; with light messages a node that knows the block reads
exactly this back. -/
theorem stored_block_tail_reads_back (ext : Ext Cell) (L : Laws ext) (b : Block Cell) (bs : List (Block Cell))
    (t : Tail Cell) (hb : ancestry b.tailLen b = some bs)
    (hbt : List.Forall₂ (fun x p => p.1 = x.diff ∧ HasMessages ext x p.2) bs t) (ht : TailOk ext t)
    (shard : Shard) (seqno : Nat) (hs : ShardOk ext.q shard) (hn : seqno < 256 ^ 4)
    (hl : Light ext (allMessages t)) :
    ∃ bytes, storeQueueState ext shard seqno b = some bytes ∧
      readFile ext bytes ⟨b.diff.hash, b.tailLen⟩ = .ok t := by
  obtain ⟨h1, h2, h3⟩ := collectTail_spec b.tailLen b bs hb
  have hlen : bs.length = t.length := hbt.length_eq
  have e1 : bs.map (fun x => (x.diff, zipEntries x)) = t.map (fun p => (p.1, p.2.map some)) := by
    clear h1 h2 h3 hb ht hl hlen
    induction hbt with
    | nil => rfl
    | cons hd _ ih =>
      rw [List.map_cons, List.map_cons, ih, ← hd.1, entries_of_has ext _ _ hd.2]
  obtain ⟨bytes, w1, w2⟩ := queue_state_reads_back ext L t ht shard seqno hs hn hl
  refine ⟨bytes, ?_, ?_⟩
  · unfold storeQueueState
    rw [h1, e1]
    simp only [List.map_map]
    exact w1
  · have htop : topOf t = ⟨b.diff.hash, b.tailLen⟩ := by
      cases hbt with
      | nil => exact absurd rfl ht.nonempty
      | cons hd tl =>
        have hpos : 0 < b.tailLen := by rw [← h2]; simp
        have := h3 hpos
        simp at this
        subst this
        simp only [topOf]
        rw [hd.1, ← hlen, h2]
    rw [← htop]
    exact w2

/-- C66, a limit of the code: a tail of more than 1000 diffs is written to a file that can never be read. -/
theorem long_tail_is_unreadable (ext : Ext Cell) (L : Laws ext) (h : Header)
    (hs : ShardOk ext.q h.shard) (hn : h.seqno < 256 ^ 4) (entries : List (List (Option Cell)))
    (hlong : 1000 < h.diffs.length) (h32 : h.diffs.length < 256 ^ 4) (bytes : List Nat)
    (hw : writeState ext h entries = some bytes) (top : TopUpdate) : readFile ext bytes top = .err := by
  unfold writeState at hw
  split at hw
  · cases hw
  cases hc : writeChunks ext (entries.flatten.length + 1) entries.flatten with
  | none => rw [hc] at hw; cases hw
  | some chunks =>
    rw [hc] at hw
    cases hw
    have : readState ext (leBytes 4 ext.stateId ++ (writeHeader ext h ++
        (leBytes 4 (declaredChunks h) ++ chunks.flatMap (writeChunk ext)))) = none := by
      unfold readState
      rw [Rd.bind_of (rdLe_append L.stateId _), Rd.ite_run, if_neg (by simp), Rd.bind_run]
      have hh : readHeader ext (writeHeader ext h ++
          (leBytes 4 (declaredChunks h) ++ chunks.flatMap (writeChunk ext))) = none := by
        unfold readHeader writeHeader
        simp only [List.append_assoc]
        rw [Rd.bind_of (rdLe_append L.headerId _), Rd.ite_run, if_neg (by simp),
          Rd.bind_of (shard_rt ext.q _ hs _), Rd.bind_of (rdLe_append hn _), Rd.bind_run]
        unfold readDiffs writeDiffs
        rw [List.append_assoc, Rd.bind_of (rdLe_append h32 _), Rd.ite_run, if_pos (by omega)]
        rfl
      rw [hh]
    unfold readFile beginRead
    rw [this]

/-! ### What is accepted -/

theorem begin_sound (ext : Ext Cell) (data : List Nat) (hd : IsBytes data) (top : TopUpdate) (r : Reader Cell)
    (h : beginRead ext data top = some r) :
    r.msgIdx = 0 ∧ r.diffIdx = 0 ∧ r.bocIdx = 0 ∧ r.parsed = none ∧ r.diffs ≠ [] ∧ r.diffs.length ≤ 1000 ∧
      Linked r.diffs ∧ (∀ d ∈ r.diffs, DiffOk ext.q d ∧ d.hash = ext.q.fileHash (writeDiff ext.q d)) ∧
      r.diffs.length = top.tailLen ∧ r.diffs.head?.map Diff.hash = some top.diffHash ∧
      ∃ header, readState ext data = some ((header, r.chunks), []) := by
  unfold beginRead at h
  cases hr : readState ext data with
  | none => rw [hr] at h; cases h
  | some p =>
    obtain ⟨⟨header, chunks⟩, rest⟩ := p
    rw [hr] at h
    dsimp only at h
    split at h
    · cases h
    rename_i hrest
    have hrest : rest = [] := by simpa using hrest
    cases hds : header.diffs with
    | nil => rw [hds] at h; cases h
    | cons d ds =>
      rw [hds] at h
      dsimp only at h
      split at h
      · cases h
      rename_i h1
      split at h
      · cases h
      rename_i h2
      cases h
      have hr' := hr
      unfold readState at hr'
      obtain ⟨id, s1, a1, hr'⟩ := Rd.bind_some.1 hr'
      obtain ⟨-, -, b1⟩ := rdLe_some hd a1
      rw [Rd.ite_run] at hr'
      split at hr'
      · cases hr'
      obtain ⟨hdr, s2, a2, hr'⟩ := Rd.bind_some.1 hr'
      obtain ⟨cks, s3, a3, hr'⟩ := Rd.bind_some.1 hr'
      cases hr'
      unfold readHeader at a2
      obtain ⟨hid, s4, a4, a2⟩ := Rd.bind_some.1 a2
      obtain ⟨-, -, b4⟩ := rdLe_some b1 a4
      rw [Rd.ite_run] at a2
      split at a2
      · cases a2
      obtain ⟨sh, s5, a5, a2⟩ := Rd.bind_some.1 a2
      obtain ⟨-, -, b5⟩ := shard_can ext.q _ _ _ b4 a5
      obtain ⟨sq, s6, a6, a2⟩ := Rd.bind_some.1 a2
      obtain ⟨-, -, b6⟩ := rdLe_some b5 a6
      obtain ⟨dss, s7, a7, a2⟩ := Rd.bind_some.1 a2
      cases a2
      dsimp only at hds
      subst hds
      obtain ⟨c1, c2, -, c4, c5⟩ := accepted_diff_list_is_chain ext.q s6 _ _ b6 a7
      refine ⟨rfl, rfl, rfl, rfl, c1, c2, c4, c5, ?_, ?_, ?_⟩
      · simpa using h2
      · simpa using h1
      · exact ⟨_, by rw [hrest]⟩

/-- C67: whatever bytes are accepted, the content returned is well-formed, has the number of diffs and
the newest diff the block's update record demands, every diff hashes to its own hash and is the
predecessor named by the one before it, and the messages of every diff are those it lists, all of them, in
order. -/
theorem accepted_queue_state_is_complete (ext : Ext Cell) (data : List Nat) (hd : IsBytes data)
    (top : TopUpdate) (out : Tail Cell) (h : readFile ext data top = .ok out) :
    TailOk ext out ∧ topOf out = top := by
  unfold readFile at h
  cases hb : beginRead ext data top with
  | none => rw [hb] at h; cases h
  | some r =>
    rw [hb] at h
    dsimp only at h
    obtain ⟨b1, b2, -, -, b3, b4, b5, b6, b7, b8, -⟩ := begin_sound ext data hd top r hb
    cases ha : drainAll ext (r.diffs.length + 1) r with
    | mk o r' =>
      rw [ha] at h
      cases o with
      | err => cases h
      | hang => cases h
      | ok o =>
        dsimp only at h
        split at h
        · cases h
          obtain ⟨h1, h2⟩ := drainAll_sound ext _ r r' out ha b1
          rw [b2, List.drop_zero] at h1
          have hlen : out.length = r.diffs.length := by rw [← h1]; simp
          refine ⟨⟨?_, by omega, ?_, by rw [h1]; exact b5, h2⟩, ?_⟩
          · rintro rfl
            simp at h1
            exact b3 h1
          · intro p hp
            exact b6 p.1 (by rw [← h1]; exact List.mem_map_of_mem hp)
          · cases out with
            | nil =>
              simp at h1
              exact absurd h1 b3
            | cons p out =>
              rw [← h1] at b8
              simp at b8
              simp only [topOf]
              rw [b8, hlen, b7]
        · cases h

theorem diffs_determined (ext : QueueDiffTl.Ext) (hid : ext.tlId < 256 ^ 4)
    (hinj : ∀ a b : List Nat, ext.fileHash a = ext.fileHash b → a = b) (ds es : List Diff)
    (hd : ∀ d ∈ ds, DiffOk ext d ∧ d.hash = ext.fileHash (writeDiff ext d))
    (he : ∀ d ∈ es, DiffOk ext d ∧ d.hash = ext.fileHash (writeDiff ext d))
    (ld : Linked ds) (le : Linked es) (hlen : ds.length = es.length)
    (hh : ds.head?.map Diff.hash = es.head?.map Diff.hash) : ds = es := by
  induction ds generalizing es with
  | nil => cases es with
    | nil => rfl
    | cons _ _ => simp at hlen
  | cons d ds ih =>
    cases es with
    | nil => simp at hlen
    | cons e es =>
      simp only [List.head?_cons, Option.map_some, Option.some.injEq] at hh
      have h1 := hd d (by simp)
      have h2 := he e (by simp)
      have hw : writeDiff ext d = writeDiff ext e := hinj _ _ (by rw [← h1.2, ← h2.2, hh])
      have hde : d = e := by
        have r1 := diff_reads_back ext hid d h1.1 []
        have r2 := diff_reads_back ext hid e h2.1 []
        rw [hw, r2] at r1
        simp only [Option.some.injEq, Prod.mk.injEq, and_true] at r1
        have f1 : recomputeHash ext d = d := by unfold recomputeHash; rw [← h1.2]
        have f2 : recomputeHash ext e = e := by unfold recomputeHash; rw [← h2.2]
        rw [f1, f2] at r1
        exact r1.symm
      subst hde
      congr 1
      refine ih es (fun x hx => hd x (by simp [hx])) (fun x hx => he x (by simp [hx])) ?_ ?_
        (by simpa using hlen) ?_
      · unfold Linked at *; exact ld.tail
      · unfold Linked at *; exact le.tail
      · unfold Linked at *
        cases ds with
        | nil => cases es with
          | nil => rfl
          | cons _ _ => simp at hlen
        | cons a ds =>
          cases es with
          | nil => simp at hlen
          | cons b es =>
            rw [List.isChain_cons_cons] at ld le
            simp only [List.head?_cons, Option.map_some]
            rw [← ld.1.2, ← le.1.2]

/-- C67: the content is determined by the block: two files, from whatever sources, accepted for the same
update record give the same diffs and the same messages, unless they exhibit a hash collision. -/
theorem queue_state_determined_by_block (ext : Ext Cell) (L : Laws ext) (data1 data2 : List Nat)
    (hd1 : IsBytes data1) (hd2 : IsBytes data2) (top : TopUpdate) (out1 out2 : Tail Cell)
    (h1 : readFile ext data1 top = .ok out1) (h2 : readFile ext data2 top = .ok out2) :
    out1 = out2 ∨ Collision ext := by
  by_cases hc : Collision ext
  · exact Or.inr hc
  left
  have hinj : ∀ a b : List Nat, ext.q.fileHash a = ext.q.fileHash b → a = b := by
    intro a b hab
    by_contra hne
    exact hc (Or.inl ⟨a, b, hne, hab⟩)
  have hinj2 : ∀ a b : Cell, ext.reprHash a = ext.reprHash b → a = b := by
    intro a b hab
    by_contra hne
    exact hc (Or.inr ⟨a, b, hne, hab⟩)
  obtain ⟨t1, p1⟩ := accepted_queue_state_is_complete ext data1 hd1 top out1 h1
  obtain ⟨t2, p2⟩ := accepted_queue_state_is_complete ext data2 hd2 top out2 h2
  have htop : topOf out1 = topOf out2 := by rw [p1, p2]
  have hdiffs : out1.map Prod.fst = out2.map Prod.fst := by
    refine diffs_determined ext.q L.diffId hinj _ _ ?_ ?_ t1.linked t2.linked ?_ ?_
    · intro d hd
      obtain ⟨p, hp, rfl⟩ := List.mem_map.1 hd
      exact t1.diffs p hp
    · intro d hd
      obtain ⟨p, hp, rfl⟩ := List.mem_map.1 hd
      exact t2.diffs p hp
    · cases out1 with
      | nil => exact absurd rfl t1.nonempty
      | cons a o1 =>
        cases out2 with
        | nil => exact absurd rfl t2.nonempty
        | cons b o2 =>
          simp only [topOf, TopUpdate.mk.injEq] at htop
          simpa using htop.2
    · cases out1 with
      | nil => exact absurd rfl t1.nonempty
      | cons a o1 =>
        cases out2 with
        | nil => exact absurd rfl t2.nonempty
        | cons b o2 =>
          simp only [topOf, TopUpdate.mk.injEq] at htop
          simpa using htop.1
  have hmapinj : ∀ xs ys : List Cell, xs.map ext.reprHash = ys.map ext.reprHash → xs = ys := by
    intro xs
    induction xs with
    | nil => intro ys h; simpa using h.symm
    | cons x xs ih =>
      intro ys h
      cases ys with
      | nil => simp at h
      | cons y ys =>
        simp only [List.map_cons, List.cons.injEq] at h
        rw [hinj2 _ _ h.1, ih ys h.2]
  have hm1 := t1.messages
  have hm2 := t2.messages
  clear t1 t2 p1 p2 htop h1 h2
  induction out1 generalizing out2 with
  | nil => simp at hdiffs; exact hdiffs.symm
  | cons a o1 ih =>
    cases out2 with
    | nil => simp at hdiffs
    | cons b o2 =>
      simp only [List.map_cons, List.cons.injEq] at hdiffs
      have q1 := hm1 a (by simp)
      have q2 := hm2 b (by simp)
      rw [← hdiffs.1] at q2
      have e1 : a = b := Prod.ext hdiffs.1 (hmapinj _ _ (q1.trans q2.symm))
      rw [e1, ih o2 hdiffs.2 (fun x hx => hm1 x (by simp [hx])) (fun x hx => hm2 x (by simp [hx]))]

/-- C67: the only way reading can go on for ever is a chunk whose bag has no roots at all. -/
theorem reading_ends (ext : Ext Cell) (data : List Nat) (top : TopUpdate)
    (h : readFile ext data top = .hang) :
    ∃ header chunks, readState ext data = some ((header, chunks), []) ∧
      ∃ c ∈ chunks, ext.decodeBoc 10000 c = some [] := by
  unfold readFile at h
  cases hb : beginRead ext data top with
  | none => rw [hb] at h; cases h
  | some r =>
    rw [hb] at h
    dsimp only at h
    have hst : ∃ header, readState ext data = some ((header, r.chunks), []) ∧ r.diffIdx = 0 := by
      unfold beginRead at hb
      split at hb
      · cases hb
      · rename_i header chunks rest heq
        split at hb
        · cases hb
        rename_i hrest
        split at hb
        · cases hb
        · split at hb
          · cases hb
          · split at hb
            · cases hb
            · cases hb
              exact ⟨header, by rw [heq]; simp at hrest; rw [hrest], rfl⟩
    obtain ⟨header, hst, hz⟩ := hst
    cases ha : drainAll ext (r.diffs.length + 1) r with
    | mk o r' =>
      rw [ha] at h
      cases o with
      | err => cases h
      | ok o => dsimp only at h; split at h <;> cases h
      | hang =>
        obtain ⟨c, hc, hcd⟩ := drainAll_hang ext (r.diffs.length + 1) r (by omega) (by rw [ha])
        exact ⟨header, r.chunks, hst, c, hc, hcd⟩

end Tycho.QueueStateFile
