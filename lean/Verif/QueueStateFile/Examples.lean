import Verif.QueueStateFile.Props

/-! Concrete cases: a toy bag of cells satisfies the laws, a two-diff tail is saved and read back, and the
defect with heavy messages. -/
namespace Tycho.QueueStateFile
open Tycho.Bytes Tycho.Codec Tycho.QueueKey Tycho.QueueDiffTl

/-- A toy message: an id below 256 and whether it is 10 MB big. -/
structure Toy where
  id : Nat
  big : Bool
deriving DecidableEq

def toyBody (K : Nat) (c : Toy) : List Nat := if c.big then List.replicate K 0 else []
def toyEnc (K : Nat) (c : Toy) : List Nat := [c.id, if c.big then 1 else 0] ++ toyBody K c
def toyEncAll (K : Nat) (l : List Toy) : List Nat := l.flatMap (toyEnc K)
def toySize (K : Nat) (l : List Toy) : Nat := (l.map (fun c => 2 + if c.big then K else 0)).sum

def toyDec (K : Nat) : Nat → List Nat → Option (List Toy)
  | _, [] => some []
  | 0, _ :: _ => none
  | n + 1, id :: flag :: rest =>
    if flag = 1 then (toyDec K n (rest.drop K)).map (⟨id, true⟩ :: ·)
    else (toyDec K n rest).map (⟨id, false⟩ :: ·)
  | _ + 1, [_] => none

def toyExt : Ext Toy where
  q := demoExt
  stateId := 1
  headerId := 2
  reprHash := fun c => List.replicate 31 0 ++ [c.id]
  encodeBoc := toyEncAll 10485760
  bocSize := toySize 10485760
  decodeBoc := toyDec 10485760

theorem toyDec_enc (K : Nat) (l : List Toy) (n : Nat) (h : l.length ≤ n) : toyDec K n (toyEncAll K l) = some l := by
  induction l generalizing n with
  | nil => cases n <;> rfl
  | cons c l ih =>
    cases n with
    | zero => simp at h
    | succ n =>
      have hi := ih n (by simpa using h)
      obtain ⟨id, big⟩ := c
      have e : toyEncAll K (⟨id, big⟩ :: l) = id :: (if big then 1 else 0) :: (toyBody K ⟨id, big⟩ ++ toyEncAll K l) := by
        simp [toyEncAll, toyEnc]
      rw [e, toyDec]
      cases big with
      | false =>
        simp only [Bool.false_eq_true, if_false, if_neg (show ¬ ((0 : Nat) = 1) by decide)]
        have : toyBody K ⟨id, false⟩ = [] := by simp [toyBody]
        rw [this, List.nil_append, hi]
        rfl
      | true =>
        simp only [if_true]
        have : toyBody K ⟨id, true⟩ = List.replicate K 0 := by simp [toyBody]
        rw [this, List.drop_left' (List.length_replicate), hi]
        rfl

theorem toySize_enc (K : Nat) (l : List Toy) : (toyEncAll K l).length = toySize K l := by
  induction l with
  | nil => rfl
  | cons c l ih =>
    have e1 : toyEncAll K (c :: l) = toyEnc K c ++ toyEncAll K l := rfl
    have e2 : toySize K (c :: l) = (2 + if c.big then K else 0) + toySize K l := by simp [toySize]
    rw [e1, e2, List.length_append, ih]
    congr 1
    unfold toyEnc toyBody
    rw [List.length_append]
    split
    · rw [List.length_replicate]; rfl
    · rfl

theorem toyLaws : Laws toyExt where
  diffId := by decide
  stateId := by decide
  headerId := by decide
  size := toySize_enc 10485760
  decode := fun l max _ h => toyDec_enc 10485760 l max h

/-- A diff with one-byte message ids. -/
def mkDiff (prev : List Nat) (seqno : Nat) (ids : List Nat) : Diff where
  hash := List.replicate 32 0
  prevHash := prev
  shard := ⟨0, 2 ^ 63⟩
  seqno := seqno
  processedTo := []
  minMessage := ⟨10, List.replicate 32 0⟩
  maxMessage := ⟨12, List.replicate 32 1⟩
  messages := ids.map (fun i => List.replicate 31 0 ++ [i])
  partitionsSrc := []
  partitionsDst := []

theorem rb (n x : Nat) (hx : x < 256) : IsBytes (List.replicate n x) := by
  intro b hb; rw [List.eq_of_mem_replicate hb]; exact hx

theorem mkDiff_ok (prev : List Nat) (seqno : Nat) (ids : List Nat) (x : List Nat) (hp : prev.length = 32 ∧ IsBytes prev)
    (hs : seqno < 256 ^ 4) (hl : ids.length ≤ 10000000) (hi : ∀ i ∈ ids, i < 256)
    (ha : Ascending (fun a b => decide (a < b)) (List.replicate 32 0 :: (mkDiff prev seqno ids).messages)) :
    DiffOk demoExt { mkDiff prev seqno ids with hash := x } where
  prevHash := hp
  shard := by
    show ShardOk demoExt ⟨0, 2 ^ 63⟩
    exact ⟨by unfold Shard.WF; decide, by decide⟩
  seqno := hs
  processedLen := by simp [mkDiff]
  processed := by intro e he; simp [mkDiff] at he
  processedAsc := by simp [Ascending, mkDiff]
  minMessage := by
    show Key.WF ⟨10, List.replicate 32 0⟩
    exact ⟨by decide, by decide, rb _ _ (by decide)⟩
  maxMessage := by
    show Key.WF ⟨12, List.replicate 32 1⟩
    exact ⟨by decide, by decide, rb _ _ (by decide)⟩
  minMax := by
    show ¬ Key.Lt ⟨12, List.replicate 32 1⟩ ⟨10, List.replicate 32 0⟩
    decide
  messagesLen := by simpa [mkDiff] using hl
  messages := by
    intro h hh
    simp only [mkDiff, List.mem_map] at hh
    obtain ⟨i, hi', rfl⟩ := hh
    refine ⟨by simp, ?_⟩
    rw [isBytes_append]
    exact ⟨rb _ _ (by decide), by intro b hb; simp at hb; subst hb; exact hi _ hi'⟩
  messagesAsc := ha
  src := ⟨by simp [mkDiff], by simp [Ascending, mkDiff], by intro p hp; simp [mkDiff] at hp⟩
  dst := ⟨by simp [mkDiff], by simp [Ascending, mkDiff], by intro p hp; simp [mkDiff] at hp⟩

def older : Diff := recomputeHash demoExt (mkDiff (List.replicate 32 9) 4 [5])
def newer : Diff := recomputeHash demoExt (mkDiff older.hash 7 [1, 2])

def toyTail (big : Bool) : Tail Toy := [(newer, [⟨1, big⟩, ⟨2, false⟩]), (older, [⟨5, false⟩])]

theorem recompute_hash (e : QueueDiffTl.Ext) (d : Diff) :
    (recomputeHash e d).hash = e.fileHash (writeDiff e (recomputeHash e d)) := rfl

theorem toy_q : toyExt.q = demoExt := rfl

theorem newer_hash : newer.hash = demoExt.fileHash (writeDiff demoExt newer) := by
  unfold newer; exact recompute_hash demoExt _
theorem older_hash : older.hash = demoExt.fileHash (writeDiff demoExt older) := by
  unfold older; exact recompute_hash demoExt _

theorem older_ok : DiffOk demoExt older := by
  unfold older recomputeHash
  refine mkDiff_ok (List.replicate 32 9) 4 [5] _ ⟨by decide, rb _ _ (by decide)⟩ (by decide) (by simp) (by simp) ?_
  simp only [Ascending, mkDiff, List.map_cons, List.map_nil, List.isChain_cons_cons, List.isChain_singleton]
  decide +kernel

theorem toyTail_ok (big : Bool) : TailOk toyExt (toyTail big) where
  nonempty := by simp [toyTail]
  length := by simp [toyTail]
  diffs := by
    intro p hp
    simp only [toyTail, List.mem_cons, List.not_mem_nil, or_false] at hp
    rcases hp with rfl | rfl
    · refine ⟨mkDiff_ok older.hash 7 [1, 2] _ ⟨by decide +kernel, ?_⟩ (by decide) (by simp)
        (by simp) ?_, ?_⟩
      · unfold older recomputeHash demoExt
        exact rb _ _ (Nat.mod_lt _ (by decide))
      · simp only [Ascending, mkDiff, List.map_cons, List.map_nil, List.isChain_cons_cons, List.isChain_singleton]
        decide +kernel
      · exact newer_hash
    · rw [toy_q]
      dsimp only
      exact ⟨older_ok, older_hash⟩
  linked := by
    simp only [toyTail, List.map_cons, List.map_nil, Linked, List.isChain_cons_cons, List.isChain_singleton]
    exact ⟨⟨by decide, rfl⟩, trivial⟩
  messages := by
    intro p hp
    simp only [toyTail, List.mem_cons, List.not_mem_nil, or_false] at hp
    rcases hp with rfl | rfl <;> rfl

theorem toyShard : ShardOk toyExt.q ⟨0, 2 ^ 63⟩ := ⟨by unfold Shard.WF; decide, by decide⟩

theorem toyTail_light : Light toyExt (allMessages (toyTail false)) := by
  intro l hl hl0
  clear hl0
  have hs : ∀ c ∈ l, c.big = false := by
    intro c hc
    have := hl.subset hc
    simp only [allMessages, toyTail, List.flatMap_cons, List.flatMap_nil, List.mem_append, List.mem_cons,
      List.not_mem_nil, or_false] at this
    rcases this with (rfl | rfl) | rfl <;> rfl
  have hlen : l.length ≤ 3 := hl.length_le
  have : toySize 10485760 l = 2 * l.length := by
    clear hl hlen
    induction l with
    | nil => rfl
    | cons c l ih =>
      have h1 := hs c (by simp)
      have h2 := ih (fun x hx => hs x (by simp [hx]))
      simp only [toySize, List.map_cons, List.sum_cons, List.length_cons, h1] at *
      simp at *
      omega
  show toySize 10485760 l < 10485760
  omega

/-- The hypotheses of `queue_state_reads_back` hold for a tail of two diffs with three messages. -/
example : ∃ bytes, writeState toyExt ⟨⟨0, 2 ^ 63⟩, 7, [newer, older]⟩
      [[some ⟨1, false⟩, some ⟨2, false⟩], [some ⟨5, false⟩]] = some bytes ∧
    readFile toyExt bytes ⟨newer.hash, 2⟩ =
      .ok [(newer, [⟨1, false⟩, ⟨2, false⟩]), (older, [⟨5, false⟩])] :=
  queue_state_reads_back toyExt toyLaws (toyTail false) (toyTail_ok false) ⟨0, 2 ^ 63⟩ 7 toyShard (by decide)
    toyTail_light

theorem toyTail_4g (l : List Toy) (hl : l <:+: allMessages (toyTail true)) : toyExt.bocSize l < 256 ^ 4 := by
  have hlen : l.length ≤ 3 := hl.length_le
  have : toySize 10485760 l ≤ 10485762 * l.length := by
    clear hl hlen
    induction l with
    | nil => simp [toySize]
    | cons c l ih =>
      simp only [toySize, List.map_cons, List.sum_cons, List.length_cons] at *
      split <;> omega
  show toySize 10485760 l < 256 ^ 4
  omega

/-- The defect is reachable: one message of 10 MB before two small ones gives an unreadable file. -/
example : ∃ bytes, writeState toyExt ⟨⟨0, 2 ^ 63⟩, 7, [newer, older]⟩
      [[some ⟨1, true⟩, some ⟨2, false⟩], [some ⟨5, false⟩]] = some bytes ∧
    readFile toyExt bytes ⟨newer.hash, 2⟩ = .err :=
  heavy_queue_state_is_unreadable toyExt toyLaws (toyTail true) (toyTail_ok true) ⟨0, 2 ^ 63⟩ 7 toyShard
    (by decide) (by simp [allMessages, toyTail]) 1 (by decide) (by simp [allMessages, toyTail])
    (by
      show 10485760 ≤ toySize 10485760 (List.take 1 (allMessages (toyTail true)))
      simp [allMessages, toyTail, toySize])
    toyTail_4g ⟨newer.hash, 2⟩

/-- A stored block with an ancestor meets the hypotheses of `stored_block_tail_reads_back`. -/
def oldBlock : Block Toy :=
  .mk 1 older (fun h => if h = List.replicate 31 0 ++ [5] then some (.fresh [⟨0, false⟩, ⟨5, false⟩]) else none) none
def newBlock : Block Toy :=
  .mk 2 newer (fun h => if h = List.replicate 31 0 ++ [1] then some (.fresh [⟨1, false⟩])
    else if h = List.replicate 31 0 ++ [2] then some (.fresh [⟨0, false⟩, ⟨2, false⟩]) else some .other) (some oldBlock)

example : ∃ bytes, storeQueueState toyExt ⟨0, 2 ^ 63⟩ 7 newBlock = some bytes ∧
    readFile toyExt bytes ⟨newer.hash, 2⟩ = .ok (toyTail false) :=
  stored_block_tail_reads_back toyExt toyLaws newBlock [newBlock, oldBlock] (toyTail false) rfl
    (by
      refine .cons ⟨rfl, rfl, ?_⟩ (.cons ⟨rfl, rfl, ?_⟩ .nil)
      · intro c hc
        simp only [List.mem_cons, List.not_mem_nil, or_false] at hc
        rcases hc with rfl | rfl
        · exact ⟨_, rfl, rfl⟩
        · exact ⟨_, rfl, rfl⟩
      · intro c hc
        simp only [List.mem_cons, List.not_mem_nil, or_false] at hc
        subst hc
        exact ⟨_, rfl, rfl⟩)
    (toyTail_ok false) ⟨0, 2 ^ 63⟩ 7 toyShard (by decide) toyTail_light

/-- A reader that stopped in the middle of the first of two diffs, at the end of a chunk, passes `finish`. -/
example : finishRead (Cell := Toy) ⟨[newer, older], [[], []], 0, 1, 1, none⟩ = true := by decide +kernel

/-- If the decoder accepts a bag without roots, reading does not end. -/
example : (readNextMessage toyExt newer ⟨[newer, older], [[]], 0, 0, 0, none⟩).1 = .hang := by
  rfl

end Tycho.QueueStateFile
