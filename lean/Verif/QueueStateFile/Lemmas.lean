import Verif.QueueStateFile.Spec
import Mathlib.Tactic.ByContra

namespace Tycho.QueueStateFile
open Tycho.Bytes Tycho.Codec Tycho.QueueKey Tycho.QueueDiffTl

variable {Cell : Type}

/-! ### Writer -/

theorem takeChunk_spec (ext : Ext Cell) (n : Nat) (acc ms : List Cell) :
    ∃ k, k ≤ n ∧ k ≤ ms.length ∧ (0 < n → ms ≠ [] → 0 < k) ∧
      takeChunk ext n acc (ms.map some) = some (acc ++ ms.take k, (ms.drop k).map some) ∧
      ((∀ j, 0 < j → j < k → ext.bocSize (acc ++ ms.take j) < maxChunkSize)) ∧
      (k < n → k < ms.length → maxChunkSize ≤ ext.bocSize (acc ++ ms.take k)) := by
  induction n generalizing acc ms with
  | zero => exact ⟨0, by simp, by simp, by simp, by simp [takeChunk], by omega, by omega⟩
  | succ n ih =>
    cases ms with
    | nil => exact ⟨0, by simp, by simp, by simp, by simp [takeChunk], by omega, by simp⟩
    | cons m ms =>
      by_cases h : maxChunkSize ≤ ext.bocSize (acc ++ [m])
      · refine ⟨1, by omega, by simp, by simp, ?_, by omega, ?_⟩
        · simp [takeChunk, h]
        · intro _ _
          simpa using h
      · obtain ⟨k, h1, h2, h3, h4, h5, h6⟩ := ih (acc ++ [m]) ms
        refine ⟨k + 1, by omega, by simp; omega, by simp, ?_, ?_, ?_⟩
        · simp only [List.map_cons, takeChunk, if_neg h, h4]
          simp
        · intro j hj hk
          cases j with
          | zero => omega
          | succ j =>
            by_cases hj0 : j = 0
            · subst hj0; simpa using h
            · have := h5 j (by omega) (by omega)
              simpa using this
        · intro hk hm
          have := h6 (by omega) (by simpa using hm)
          simpa using this

/-- The chunks are a split of the messages; chunks are not empty and hold at most 10000 messages. -/
theorem writeChunks_spec (ext : Ext Cell) (fuel : Nat) (ms : List Cell) (hf : ms.length < fuel) :
    ∃ chunks, writeChunks ext fuel (ms.map some) = some chunks ∧ chunks.flatten = ms ∧
      (∀ c ∈ chunks, c ≠ [] ∧ c.length ≤ 10000 ∧
        ∀ j, 0 < j → j < c.length → ext.bocSize (c.take j) < maxChunkSize) := by
  induction fuel generalizing ms with
  | zero => omega
  | succ fuel ih =>
    obtain ⟨k, h1, h2, h3, h4, h5, -⟩ := takeChunk_spec ext maxRootsPerChunk [] ms
    rw [List.nil_append] at h4
    rw [writeChunks, h4]
    by_cases hm : ms = []
    · subst hm
      exact ⟨[], by simp, rfl, by simp⟩
    · have hk := h3 (by decide) hm
      obtain ⟨c, cs, hc⟩ : ∃ c cs, ms.take k = c :: cs := by
        cases hms : ms with
        | nil => exact absurd hms hm
        | cons a b =>
          cases k with
          | zero => omega
          | succ k => exact ⟨a, b.take k, by simp⟩
      obtain ⟨chunks, q1, q2, q3⟩ := ih (ms.drop k) (by simp; omega)
      refine ⟨(c :: cs) :: chunks, ?_, ?_, ?_⟩
      · rw [hc]
        simp only [q1]
      · rw [List.flatten_cons, q2, ← hc, List.take_append_drop]
      · intro x hx
        rcases List.mem_cons.1 hx with rfl | hx
        · refine ⟨by simp, ?_, ?_⟩
          · rw [← hc, List.length_take]
            have hmr : maxRootsPerChunk = 10000 := rfl
            omega
          · intro j hj hl
            rw [← hc] at hl ⊢
            rw [List.take_take, Nat.min_eq_left (by simp at hl; omega)]
            have := h5 j hj (by simp at hl; omega)
            simpa using this
        · exact q3 x hx

/-- Without heavy runs all chunks but the last are full. -/
theorem writeChunks_light (ext : Ext Cell) (fuel : Nat) (ms : List Cell) (hf : ms.length < fuel)
    (hl : Light ext ms) (chunks : List (List Cell)) (h : writeChunks ext fuel (ms.map some) = some chunks) :
    chunks.length = chunksNeeded ms := by
  induction fuel generalizing ms chunks with
  | zero => omega
  | succ fuel ih =>
    obtain ⟨k, h1, h2, h3, h4, h5, h6⟩ := takeChunk_spec ext maxRootsPerChunk [] ms
    rw [List.nil_append] at h4 h6
    rw [writeChunks, h4] at h
    by_cases hm : ms = []
    · subst hm
      simp at h
      subst h
      simp [chunksNeeded]
    · have hk := h3 (by decide) hm
      obtain ⟨c, cs, hc⟩ : ∃ c cs, ms.take k = c :: cs := by
        cases hms : ms with
        | nil => exact absurd hms hm
        | cons a b =>
          cases k with
          | zero => omega
          | succ k => exact ⟨a, b.take k, by simp⟩
      rw [hc] at h
      dsimp only at h
      cases hw : writeChunks ext fuel ((ms.drop k).map some) with
      | none => rw [hw] at h; cases h
      | some rest =>
        rw [hw] at h
        simp only [Option.some.injEq] at h
        subst h
        have hdrop : Light ext (ms.drop k) := by
          intro l hi hn
          exact hl l (hi.trans (List.drop_suffix k ms).isInfix) hn
        have := ih (ms.drop k) (by simp; omega) hdrop rest hw
        rw [List.length_cons, this]
        have hfull : k = 10000 ∨ k = ms.length := by
          by_contra hne
          simp only [not_or] at hne
          have hmr : maxRootsPerChunk = 10000 := rfl
          have := h6 (by omega) (by omega)
          have h7 := hl (ms.take k) (List.take_prefix k ms).isInfix (by simp; omega)
          have : maxChunkSize = 10485760 := rfl
          omega
        unfold chunksNeeded
        rw [List.length_drop]
        have hmr : maxRootsPerChunk = 10000 := rfl
        rcases hfull with e | e <;> omega

theorem flatten_length_le (chunks : List (List Cell)) (n : Nat) (h : ∀ c ∈ chunks, c.length ≤ n) :
    chunks.flatten.length ≤ n * chunks.length := by
  induction chunks with
  | nil => simp
  | cons c cs ih =>
    have h1 := h c (by simp)
    have h2 := ih (fun x hx => h x (by simp [hx]))
    simp only [List.flatten_cons, List.length_append, List.length_cons, Nat.mul_succ]
    omega

theorem needed_le (ms : List Cell) (chunks : List (List Cell)) (hf : chunks.flatten = ms)
    (hc : ∀ c ∈ chunks, c.length ≤ 10000) : chunksNeeded ms ≤ chunks.length := by
  have := flatten_length_le chunks 10000 hc
  rw [hf] at this
  unfold chunksNeeded
  omega

theorem writeChunk_eq (ext : Ext Cell) (L : Laws ext) (c : List Cell) :
    writeChunk ext c = writeBig (ext.encodeBoc c) := by
  unfold writeChunk writeBig
  rw [L.size]

theorem messages_sum (ext : Ext Cell) (t : Tail Cell) (hm : ∀ p ∈ t, p.2.map ext.reprHash = p.1.messages) :
    ((t.map Prod.fst).map (fun d => d.messages.length)).sum = (allMessages t).length := by
  induction t with
  | nil => rfl
  | cons p t ih =>
    have h1 := hm p (by simp)
    have h2 := ih (fun x hx => hm x (by simp [hx]))
    simp only [List.map_cons, List.sum_cons, allMessages, List.flatMap_cons, List.length_append] at *
    rw [h2, ← h1]
    simp

theorem declared_eq (ext : Ext Cell) (t : Tail Cell) (shard : Shard) (seqno : Nat)
    (hm : ∀ p ∈ t, p.2.map ext.reprHash = p.1.messages) :
    declaredChunks ⟨shard, seqno, t.map Prod.fst⟩ = chunksNeeded (allMessages t) := by
  unfold declaredChunks chunksNeeded
  rw [messages_sum ext t hm]
  rfl

/-! ### Reading the TL -/

theorem readHeader_rt (ext : Ext Cell) (L : Laws ext) (h : Header) (hs : ShardOk ext.q h.shard)
    (hn : h.seqno < 256 ^ 4) (hne : h.diffs ≠ []) (hlen : h.diffs.length ≤ 1000)
    (hd : ∀ d ∈ h.diffs, DiffOk ext.q d ∧ d.hash = ext.q.fileHash (writeDiff ext.q d))
    (hl : Linked h.diffs) (r : List Nat) :
    readHeader ext (writeHeader ext h ++ r) = some (h, r) := by
  unfold readHeader writeHeader
  simp only [List.append_assoc]
  rw [Rd.bind_of (rdLe_append L.headerId _), Rd.ite_run, if_neg (by simp),
    Rd.bind_of (shard_rt ext.q _ hs _), Rd.bind_of (rdLe_append hn _),
    Rd.bind_of (diff_list_reads_back ext.q L.diffId h.diffs r hne hlen hd hl), Rd.pure_run]

theorem big_rt : RoundTrip writeBig (readBig maxReadChunk) (fun b => b.length ≤ maxReadChunk) :=
  fun b hb r => (big_bytes_read_back maxReadChunk (by decide) b r hb).1

theorem readChunks_rt (ext : Ext Cell) (L : Laws ext) (chunks : List (List Cell))
    (hsz : ∀ c ∈ chunks, ext.bocSize c ≤ maxReadChunk) (r : List Nat) :
    rdMany (readBig maxReadChunk) chunks.length (chunks.flatMap (writeChunk ext) ++ r) =
      some (chunks.map ext.encodeBoc, r) := by
  have h := rdMany_append big_rt (chunks.map ext.encodeBoc)
    (by
      intro x hx
      obtain ⟨c, hc, rfl⟩ := List.mem_map.1 hx
      rw [L.size]
      exact hsz c hc) r
  rw [List.length_map, List.flatMap_map] at h
  have e : (chunks.flatMap (writeChunk ext)) = chunks.flatMap (fun c => writeBig (ext.encodeBoc c)) := by
    congr 1
    funext c
    exact writeChunk_eq ext L c
  rw [e]
  exact h

theorem writeChunk_ne (ext : Ext Cell) (c : List Cell) : writeChunk ext c ≠ [] := by
  intro h
  have := congrArg List.length h
  simp [writeChunk, leBytes_length] at this

/-- With `n` chunks announced, reading the list of chunks takes the first `n` and leaves the others. -/
theorem readChunkList_rt (ext : Ext Cell) (L : Laws ext) (n : Nat) (chunks : List (List Cell))
    (hn : n ≤ chunks.length) (hmax : n ≤ maxChunks)
    (hsz : ∀ c ∈ chunks, ext.bocSize c ≤ maxReadChunk) :
    readChunkList (leBytes 4 n ++ chunks.flatMap (writeChunk ext)) =
      some ((chunks.take n).map ext.encodeBoc, (chunks.drop n).flatMap (writeChunk ext)) := by
  unfold readChunkList
  have hw : n < 256 ^ 4 := Nat.lt_of_le_of_lt hmax (by decide)
  rw [Rd.bind_of (rdLe_append hw _), Rd.ite_run, if_neg (by omega)]
  have h := readChunks_rt ext L (chunks.take n) (fun c hc => hsz c (List.mem_of_mem_take hc))
    ((chunks.drop n).flatMap (writeChunk ext))
  rw [List.length_take, Nat.min_eq_left hn, ← List.flatMap_append, List.take_append_drop] at h
  exact h

/-! ### Reading messages -/

/-- What is left to deliver when the chunks of the file are bags of `cs`. -/
def remaining (cs : List (List Cell)) (bocIdx : Nat) : Option (List Cell) → List Cell
  | none => (cs.drop bocIdx).flatten
  | some l => l.reverse ++ (cs.drop (bocIdx + 1)).flatten

structure Good (ext : Ext Cell) (cs : List (List Cell)) (r : Reader Cell) : Prop where
  chunks : r.chunks = cs.map ext.encodeBoc
  parsed : ∀ l, r.parsed = some l → l ≠ []

theorem popRoot_none : popRoot (none : Option (List Cell)) = none := rfl

theorem popRoot_reverse (c : Cell) (cs : List Cell) : popRoot (some (c :: cs).reverse) = some (c, cs.reverse) := by
  simp [popRoot]

theorem deliver_good (ext : Ext Cell) (cs : List (List Cell)) (c : Cell) (left : List Cell) (r : Reader Cell)
    (g : r.chunks = cs.map ext.encodeBoc) :
    ∃ r', deliver ext (ext.reprHash c) c left.reverse r = (.ok (some c), r') ∧ Good ext cs r' ∧
      r'.diffs = r.diffs ∧ r'.diffIdx = r.diffIdx ∧ r'.msgIdx = r.msgIdx + 1 ∧
      remaining cs r'.bocIdx r'.parsed = left ++ (cs.drop (r.bocIdx + 1)).flatten := by
  unfold deliver
  cases left with
  | nil =>
    refine ⟨{ r with parsed := none, bocIdx := r.bocIdx + 1, msgIdx := r.msgIdx + 1 }, by simp,
      ⟨g, by simp⟩, rfl, rfl, rfl, by simp [remaining]⟩
  | cons a l =>
    refine ⟨{ r with parsed := some (a :: l).reverse, msgIdx := r.msgIdx + 1 }, by simp,
      ⟨g, by simp⟩, rfl, rfl, rfl, by simp [remaining]⟩

theorem readNext_good (ext : Ext Cell) (L : Laws ext) (cs : List (List Cell))
    (hcs : ∀ c ∈ cs, c ≠ [] ∧ c.length ≤ 10000) (d : Diff) (r : Reader Cell) (g : Good ext cs r)
    (m : Cell) (rest : List Cell) (hrem : remaining cs r.bocIdx r.parsed = m :: rest)
    (hm : d.messages[r.msgIdx]? = some (ext.reprHash m)) :
    ∃ r', readNextMessage ext d r = (.ok (some m), r') ∧ Good ext cs r' ∧ r'.diffs = r.diffs ∧
      r'.diffIdx = r.diffIdx ∧ r'.msgIdx = r.msgIdx + 1 ∧ remaining cs r'.bocIdx r'.parsed = rest := by
  unfold readNextMessage
  rw [hm]
  dsimp only
  cases hp : r.parsed with
  | some l =>
    rw [hp] at hrem
    have hl := g.parsed l hp
    obtain ⟨c, cs', hc⟩ : ∃ c cs', l.reverse = c :: cs' := by
      cases hr : l.reverse with
      | nil => simp at hr; exact absurd hr hl
      | cons a b => exact ⟨a, b, rfl⟩
    have hl' : l = (c :: cs').reverse := by rw [← hc, List.reverse_reverse]
    rw [hl', popRoot_reverse]
    dsimp only
    simp only [remaining, hc, List.cons_append, List.cons.injEq] at hrem
    obtain ⟨rfl, hrest⟩ := hrem
    obtain ⟨r', q1, q2, q3, q4, q5, q6⟩ := deliver_good ext cs c cs' r g.chunks
    exact ⟨r', q1, q2, q3, q4, q5, q6.trans hrest⟩
  | none =>
    rw [hp] at hrem
    simp only [popRoot_none]
    simp only [remaining] at hrem
    cases hd : cs.drop r.bocIdx with
    | nil => rw [hd] at hrem; simp at hrem
    | cons ch more =>
      have hget : cs[r.bocIdx]? = some ch := by
        have := congrArg List.head? hd
        simpa [List.head?_drop] using this
      have hmem : ch ∈ cs := List.mem_of_getElem? hget
      have h1 := hcs ch hmem
      rw [hd, List.flatten_cons] at hrem
      rw [g.chunks, List.getElem?_map, hget]
      simp only [Option.map_some]
      rw [L.decode ch maxAllowedRoots h1.1 h1.2]
      dsimp only
      cases ch with
      | nil => exact absurd rfl h1.1
      | cons c left =>
        rw [popRoot_reverse]
        dsimp only
        simp only [List.cons_append, List.cons.injEq] at hrem
        obtain ⟨rfl, hrest⟩ := hrem
        obtain ⟨r', q1, q2, q3, q4, q5, q6⟩ := deliver_good ext cs c left r g.chunks
        refine ⟨r', q1, q2, q3, q4, q5, ?_⟩
        rw [q6, ← hrest]
        have : cs.drop (r.bocIdx + 1) = more := by
          rw [← List.tail_drop, hd]; rfl
        rw [this]

theorem drainDiff_good (ext : Ext Cell) (L : Laws ext) (cs : List (List Cell))
    (hcs : ∀ c ∈ cs, c ≠ [] ∧ c.length ≤ 10000) (d : Diff) (ms : List Cell) (rest : List Cell)
    (fuel : Nat) (hf : ms.length < fuel) (r : Reader Cell) (g : Good ext cs r)
    (hrem : remaining cs r.bocIdx r.parsed = ms ++ rest)
    (hm : d.messages.drop r.msgIdx = ms.map ext.reprHash) :
    ∃ r', drainDiff ext d fuel r = (.ok ms, r') ∧ Good ext cs r' ∧ r'.diffs = r.diffs ∧
      r'.diffIdx = r.diffIdx + 1 ∧ r'.msgIdx = 0 ∧ remaining cs r'.bocIdx r'.parsed = rest := by
  induction fuel generalizing ms r with
  | zero => omega
  | succ fuel ih =>
    rw [drainDiff]
    cases ms with
    | nil =>
      have hnone : d.messages[r.msgIdx]? = none := by
        have := congrArg List.head? hm
        simpa [List.head?_drop] using this
      refine ⟨{ r with diffIdx := r.diffIdx + 1, msgIdx := 0 }, ?_, ⟨g.chunks, g.parsed⟩, rfl, rfl, rfl, by simpa using hrem⟩
      unfold readNextMessage
      rw [hnone]
    | cons m ms =>
      have hsome : d.messages[r.msgIdx]? = some (ext.reprHash m) := by
        have := congrArg List.head? hm
        simpa [List.head?_drop] using this
      obtain ⟨r1, q1, q2, q3, q4, q5, q6⟩ := readNext_good ext L cs hcs d r g m (ms ++ rest) hrem hsome
      rw [q1]
      dsimp only
      have hm' : d.messages.drop r1.msgIdx = ms.map ext.reprHash := by
        rw [q5, ← List.tail_drop, hm]; rfl
      obtain ⟨r2, p1, p2, p3, p4, p5, p6⟩ := ih ms (by simp at hf; omega) r1 q2 q6 hm'
      rw [p1]
      exact ⟨r2, rfl, p2, p3.trans q3, by rw [p4, q4], p5, p6⟩

theorem drainAll_good (ext : Ext Cell) (L : Laws ext) (cs : List (List Cell))
    (hcs : ∀ c ∈ cs, c ≠ [] ∧ c.length ≤ 10000) (t : Tail Cell)
    (hm : ∀ p ∈ t, p.2.map ext.reprHash = p.1.messages) (fuel : Nat) (hf : t.length < fuel)
    (r : Reader Cell) (g : Good ext cs r) (hd : r.diffs.drop r.diffIdx = t.map Prod.fst) (hi : r.msgIdx = 0)
    (hrem : remaining cs r.bocIdx r.parsed = allMessages t) (hle : r.diffIdx ≤ r.diffs.length) :
    ∃ r', drainAll ext fuel r = (.ok t, r') ∧ finishRead r' = true := by
  induction fuel generalizing t r with
  | zero => omega
  | succ fuel ih =>
    rw [drainAll]
    cases t with
    | nil =>
      have hnone : r.diffs[r.diffIdx]? = none := by
        have := congrArg List.head? hd
        simpa [List.head?_drop] using this
      have hpar : r.parsed = none := by
        cases hp : r.parsed with
        | none => rfl
        | some l =>
          have := g.parsed l hp
          rw [hp] at hrem
          simp [remaining, allMessages] at hrem
          exact absurd hrem.1 this
      refine ⟨r, ?_, ?_⟩
      · unfold readNextDiff
        rw [hnone, hpar]
        rfl
      · have : r.diffs.length ≤ r.diffIdx := by
          have := congrArg List.length hd
          simp at this
          omega
        simp [finishRead, hpar]
        left
        omega
    | cons p t =>
      have hsome : r.diffs[r.diffIdx]? = some p.1 := by
        have := congrArg List.head? hd
        simpa [List.head?_drop] using this
      have h1 : readNextDiff r = .ok (some p.1) := by
        unfold readNextDiff
        rw [hsome]
      rw [h1]
      dsimp only
      have hp := hm p (by simp)
      obtain ⟨r1, q1, q2, q3, q4, q5, q6⟩ := drainDiff_good ext L cs hcs p.1 p.2 (allMessages t)
        (p.1.messages.length + 1) (by rw [← hp]; simp) r g
        (by rw [hrem]; simp [allMessages]) (by rw [hi, hp]; rfl)
      rw [q1]
      dsimp only
      obtain ⟨r2, p1, p2⟩ := ih t (fun x hx => hm x (by simp [hx])) (by simp at hf; omega) r1 q2
        (by rw [q3, q4, ← List.tail_drop, hd]; rfl) q5 q6
        (by
          have := (List.getElem?_eq_some_iff.1 hsome).1
          rw [q3, q4]; omega)
      rw [p1]
      exact ⟨r2, rfl, p2⟩

/-! ### What a successful read has checked -/

def After (ext : Ext Cell) (d : Diff) (r r' : Reader Cell) : Option Cell → Prop
  | some c => d.messages[r.msgIdx]? = some (ext.reprHash c) ∧ r'.msgIdx = r.msgIdx + 1 ∧ r'.diffIdx = r.diffIdx
  | none => d.messages[r.msgIdx]? = none ∧ r'.msgIdx = 0 ∧ r'.diffIdx = r.diffIdx + 1

theorem readNext_sound (ext : Ext Cell) (d : Diff) (r r' : Reader Cell) (o : Option Cell)
    (h : readNextMessage ext d r = (.ok o, r')) :
    r'.diffs = r.diffs ∧ r'.chunks = r.chunks ∧ After ext d r r' o := by
  unfold readNextMessage at h
  cases hm : d.messages[r.msgIdx]? with
  | none =>
    rw [hm] at h
    simp only [Prod.mk.injEq, Res.ok.injEq] at h
    obtain ⟨rfl, rfl⟩ := h
    exact ⟨rfl, rfl, hm, rfl, rfl⟩
  | some e =>
    rw [hm] at h
    dsimp only at h
    have hdel : ∀ c left, deliver ext e c left r = (.ok o, r') →
        r'.diffs = r.diffs ∧ r'.chunks = r.chunks ∧ o = some c ∧ ext.reprHash c = e ∧
        r'.msgIdx = r.msgIdx + 1 ∧ r'.diffIdx = r.diffIdx := by
      intro c left hd
      unfold deliver at hd
      dsimp only at hd
      split at hd
      · cases hd
      · rename_i hne
        have hne : ext.reprHash c = e := by simpa using hne
        cases hd
        split <;> exact ⟨rfl, rfl, rfl, hne, rfl, rfl⟩
    have fin : ∀ c left, deliver ext e c left r = (.ok o, r') → r'.diffs = r.diffs ∧ r'.chunks = r.chunks ∧
        After ext d r r' o := by
      intro c left hd
      obtain ⟨a1, a2, rfl, a3, a4, a5⟩ := hdel c left hd
      exact ⟨a1, a2, by rw [a3, hm], a4, a5⟩
    cases hp : popRoot r.parsed with
    | some x =>
      obtain ⟨c, left⟩ := x
      rw [hp] at h
      exact fin c left h
    | none =>
      rw [hp] at h
      dsimp only at h
      cases hc : r.chunks[r.bocIdx]? with
      | none => rw [hc] at h; cases h
      | some data =>
        rw [hc] at h
        dsimp only at h
        cases hb : ext.decodeBoc maxAllowedRoots data with
        | none => rw [hb] at h; cases h
        | some cells =>
          rw [hb] at h
          dsimp only at h
          cases hq : popRoot (some cells.reverse) with
          | none => rw [hq] at h; cases h
          | some x =>
            obtain ⟨c, left⟩ := x
            rw [hq] at h
            exact fin c left h

theorem drainDiff_sound (ext : Ext Cell) (d : Diff) (fuel : Nat) (r r' : Reader Cell) (cells : List Cell)
    (h : drainDiff ext d fuel r = (.ok cells, r')) :
    cells.map ext.reprHash = d.messages.drop r.msgIdx ∧ r'.diffs = r.diffs ∧ r'.msgIdx = 0 ∧
    r'.diffIdx = r.diffIdx + 1 := by
  induction fuel generalizing r cells with
  | zero => simp [drainDiff] at h
  | succ fuel ih =>
    rw [drainDiff] at h
    cases hn : readNextMessage ext d r with
    | mk o r1 =>
      rw [hn] at h
      cases o with
      | err => simp at h
      | hang => simp at h
      | ok o =>
        have hs := readNext_sound ext d r r1 o hn
        cases o with
        | none =>
          simp only [Prod.mk.injEq, Res.ok.injEq] at h
          obtain ⟨rfl, rfl⟩ := h
          obtain ⟨h1, -, h3, h4, h5⟩ := hs
          refine ⟨?_, h1, h4, h5⟩
          rw [List.drop_eq_nil_of_le (List.getElem?_eq_none_iff.1 h3)]
          rfl
        | some c =>
          dsimp only at h
          cases hd : drainDiff ext d fuel r1 with
          | mk o2 r2 =>
            rw [hd] at h
            cases o2 with
            | err => simp at h
            | hang => simp at h
            | ok cs =>
              simp only [Prod.mk.injEq, Res.ok.injEq] at h
              obtain ⟨rfl, rfl⟩ := h
              obtain ⟨h1, -, h3, h4, h5⟩ := hs
              obtain ⟨i1, i2, i3, i4⟩ := ih r1 cs hd
              refine ⟨?_, i2.trans h1, i3, by rw [i4, h5]⟩
              obtain ⟨hlt, hg⟩ := List.getElem?_eq_some_iff.1 h3
              rw [List.map_cons, i1, h4, ← hg, List.drop_eq_getElem_cons hlt]

theorem drainAll_sound (ext : Ext Cell) (fuel : Nat) (r r' : Reader Cell) (out : Tail Cell)
    (h : drainAll ext fuel r = (.ok out, r')) (hi : r.msgIdx = 0) :
    out.map Prod.fst = r.diffs.drop r.diffIdx ∧ ∀ p ∈ out, p.2.map ext.reprHash = p.1.messages := by
  induction fuel generalizing r out with
  | zero => simp [drainAll] at h
  | succ fuel ih =>
    rw [drainAll] at h
    cases hn : readNextDiff r with
    | err => rw [hn] at h; simp at h
    | hang => rw [hn] at h; simp at h
    | ok o =>
      rw [hn] at h
      cases o with
      | none =>
        simp only [Prod.mk.injEq, Res.ok.injEq] at h
        obtain ⟨rfl, rfl⟩ := h
        refine ⟨?_, by simp⟩
        unfold readNextDiff at hn
        cases hg : r.diffs[r.diffIdx]? with
        | none =>
          rw [List.drop_eq_nil_of_le (List.getElem?_eq_none_iff.1 hg)]
          rfl
        | some d => rw [hg] at hn; simp at hn
      | some d =>
        have hg : r.diffs[r.diffIdx]? = some d := by
          unfold readNextDiff at hn
          cases hg : r.diffs[r.diffIdx]? with
          | none => rw [hg] at hn; dsimp only at hn; split at hn <;> simp at hn
          | some d' => rw [hg] at hn; simpa using hn
        dsimp only at h
        cases hd : drainDiff ext d (d.messages.length + 1) r with
        | mk o1 r1 =>
          rw [hd] at h
          cases o1 with
          | err => simp at h
          | hang => simp at h
          | ok cells =>
            dsimp only at h
            obtain ⟨j1, j2, j3, j4⟩ := drainDiff_sound ext d _ r r1 cells hd
            cases ha : drainAll ext fuel r1 with
            | mk o2 r2 =>
              rw [ha] at h
              cases o2 with
              | err => simp at h
              | hang => simp at h
              | ok rest =>
                simp only [Prod.mk.injEq, Res.ok.injEq] at h
                obtain ⟨rfl, rfl⟩ := h
                obtain ⟨k1, k2⟩ := ih r1 rest ha j3
                obtain ⟨hlt, hge⟩ := List.getElem?_eq_some_iff.1 hg
                refine ⟨?_, ?_⟩
                · rw [List.map_cons, k1, j2, j4, List.drop_eq_getElem_cons hlt, hge]
                · intro p hp
                  rcases List.mem_cons.1 hp with rfl | hp
                  · rw [j1, hi]; rfl
                  · exact k2 p hp

/-! ### No endless loop -/

theorem readNext_hang (ext : Ext Cell) (d : Diff) (r r' : Reader Cell)
    (h : readNextMessage ext d r = (.hang, r')) :
    ∃ data ∈ r.chunks, ext.decodeBoc maxAllowedRoots data = some [] := by
  unfold readNextMessage at h
  have hdel : ∀ e c left, deliver ext e c left r ≠ (.hang, r') := by
    intro e c left hd
    unfold deliver at hd
    dsimp only at hd
    split at hd <;> cases hd
  split at h
  · cases h
  · split at h
    · exact absurd h (hdel _ _ _)
    · split at h
      · cases h
      · rename_i data hdata
        split at h
        · cases h
        · rename_i cells hcells
          split at h
          · rename_i hq
            refine ⟨data, List.mem_of_getElem? hdata, ?_⟩
            rw [hcells]
            cases cells with
            | nil => rfl
            | cons c cs => rw [popRoot_reverse] at hq; cases hq
          · exact absurd h (hdel _ _ _)

theorem drainDiff_hang (ext : Ext Cell) (d : Diff) (fuel : Nat) (r : Reader Cell)
    (hf : d.messages.length - r.msgIdx < fuel) (h : (drainDiff ext d fuel r).1 = .hang) :
    ∃ data ∈ r.chunks, ext.decodeBoc maxAllowedRoots data = some [] := by
  induction fuel generalizing r with
  | zero => omega
  | succ fuel ih =>
    rw [drainDiff] at h
    cases hn : readNextMessage ext d r with
    | mk o r1 =>
      rw [hn] at h
      cases o with
      | err => simp at h
      | hang => exact readNext_hang ext d r r1 hn
      | ok o =>
        have hs := readNext_sound ext d r r1 o hn
        cases o with
        | none => simp at h
        | some c =>
          dsimp only at h
          obtain ⟨h1, h2, h3, h4, h5⟩ := hs
          have hlt := (List.getElem?_eq_some_iff.1 h3).1
          cases hd : drainDiff ext d fuel r1 with
          | mk o2 r2 =>
            rw [hd] at h
            cases o2 with
            | err => simp at h
            | ok cs => simp at h
            | hang =>
              have := ih r1 (by rw [h4]; omega) (by rw [hd])
              rwa [h2] at this

theorem drainDiff_chunks (ext : Ext Cell) (d : Diff) (fuel : Nat) (r r' : Reader Cell) (cells : List Cell)
    (h : drainDiff ext d fuel r = (.ok cells, r')) : r'.chunks = r.chunks := by
  induction fuel generalizing r cells with
  | zero => simp [drainDiff] at h
  | succ fuel ih =>
    rw [drainDiff] at h
    cases hn : readNextMessage ext d r with
    | mk o r1 =>
      rw [hn] at h
      cases o with
      | err => simp at h
      | hang => simp at h
      | ok o =>
        have hs := readNext_sound ext d r r1 o hn
        cases o with
        | none =>
          simp only [Prod.mk.injEq, Res.ok.injEq] at h
          obtain ⟨-, rfl⟩ := h
          exact hs.2.1
        | some c =>
          dsimp only at h
          cases hd : drainDiff ext d fuel r1 with
          | mk o2 r2 =>
            rw [hd] at h
            cases o2 with
            | err => simp at h
            | hang => simp at h
            | ok cs =>
              simp only [Prod.mk.injEq, Res.ok.injEq] at h
              obtain ⟨-, rfl⟩ := h
              exact (ih r1 cs hd).trans hs.2.1

theorem drainAll_hang (ext : Ext Cell) (fuel : Nat) (r : Reader Cell)
    (hf : r.diffs.length - r.diffIdx < fuel) (h : (drainAll ext fuel r).1 = .hang) :
    ∃ data ∈ r.chunks, ext.decodeBoc maxAllowedRoots data = some [] := by
  induction fuel generalizing r with
  | zero => omega
  | succ fuel ih =>
    rw [drainAll] at h
    cases hn : readNextDiff r with
    | err => rw [hn] at h; simp at h
    | hang =>
      unfold readNextDiff at hn
      split at hn
      · split at hn <;> cases hn
      · cases hn
    | ok o =>
      rw [hn] at h
      cases o with
      | none => simp at h
      | some d =>
        have hg : r.diffs[r.diffIdx]? = some d := by
          unfold readNextDiff at hn
          cases hg : r.diffs[r.diffIdx]? with
          | none => rw [hg] at hn; dsimp only at hn; split at hn <;> simp at hn
          | some d' => rw [hg] at hn; simpa using hn
        have hlt := (List.getElem?_eq_some_iff.1 hg).1
        dsimp only at h
        cases hd : drainDiff ext d (d.messages.length + 1) r with
        | mk o1 r1 =>
          rw [hd] at h
          cases o1 with
          | err => simp at h
          | hang => exact drainDiff_hang ext d (d.messages.length + 1) r (by omega) (by rw [hd])
          | ok cells =>
            dsimp only at h
            obtain ⟨j1, j2, j3, j4⟩ := drainDiff_sound ext d _ r r1 cells hd
            have hc := drainDiff_chunks ext d _ r r1 cells hd
            cases ha : drainAll ext fuel r1 with
            | mk o2 r2 =>
              rw [ha] at h
              cases o2 with
              | err => simp at h
              | ok rest => simp at h
              | hang =>
                have := ih r1 (by rw [j2, j4]; omega) (by rw [ha])
                rwa [hc] at this

end Tycho.QueueStateFile
