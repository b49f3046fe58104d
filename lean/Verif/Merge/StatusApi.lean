import Verif.Merge.StatusMerge

/-! ## Point statuses: reading back, and the meaning of a merge -/
namespace Tycho.Merge
open Tycho.Bytes Tycho.Codec

/-- Field widths. -/
def CommitFits (c : Option (Nat × Nat)) : Prop := ∀ p, c = some p → 0 < p.1 ∧ p.1 < 2 ^ 32 ∧ p.2 < 2 ^ 32

structure Link.Fits (l : Link) : Prop where
  round : l.round < 2 ^ 32
  digest : l.digest.length = 32
  author : l.author.length = 32
  peer : l.peer.length = 32

def Status.Fits : Status → Prop
  | .valid _ _ a c => a < 256 ∧ CommitFits c
  | .transInvalid _ _ a c l => a < 256 ∧ CommitFits c ∧ l.Fits
  | .committable _ a c => a < 256 ∧ CommitFits c
  | .notFound _ author => author.length = 32
  | _ => True

/-- The commit part as a number: anchor round, then seq no. -/
def commitKey (c : Option (Nat × Nat)) : Nat := (c.getD (0, 0)).1 * 2 ^ 32 + (c.getD (0, 0)).2

theorem commitKey_inj {c d : Option (Nat × Nat)} (hc : CommitFits c) (hd : CommitFits d) (h : commitKey c = commitKey d) : c = d := by
  unfold commitKey at h
  cases c with
  | none =>
    cases d with
    | none => rfl
    | some q => have := hd q rfl; simp only [Option.getD_none, Option.getD_some] at h; omega
  | some p =>
    have hp := hc p rfl
    cases d with
    | none => simp only [Option.getD_none, Option.getD_some] at h; omega
    | some q =>
      have hq := hd q rfl
      simp only [Option.getD_some] at h
      have h1 : p.1 = q.1 := by omega
      have h2 : p.2 = q.2 := by omega
      exact congrArg some (Prod.ext h1 h2)

theorem leBytes_add (m n x : Nat) : leBytes (m + n) x = leBytes m x ++ leBytes n (x / 256 ^ m) := by
  induction m generalizing x with
  | zero => simp [leBytes]
  | succ m ih =>
    rw [Nat.succ_add, leBytes, ih, leBytes, List.cons_append, Nat.div_div_eq_div_mul, Nat.pow_succ, Nat.mul_comm 256]

theorem leBytes_mod (n x : Nat) : leBytes n x = leBytes n (x % 256 ^ n) := by
  have := congrArg List.reverse (beBytes_mod n x)
  simpa [beBytes] using this

theorem commitKey_lt {c : Option (Nat × Nat)} (hc : CommitFits c) : commitKey c < 256 ^ 8 := by
  have e : (256 : Nat) ^ 8 = 2 ^ 32 * 2 ^ 32 := by decide
  rw [e]
  unfold commitKey
  cases c with
  | none => simp
  | some p => have := hc p rfl; simp only [Option.getD_some]; omega

theorem encCommitted_eq {c : Option (Nat × Nat)} (hc : CommitFits c) : encCommitted c = beBytes 8 (commitKey c) := by
  have hb : (c.getD (0, 0)).2 < 2 ^ 32 := by
    cases c with
    | none => simp
    | some p => exact (hc p rfl).2.2
  unfold encCommitted commitKey
  generalize (c.getD (0, 0)).1 = r at *
  generalize (c.getD (0, 0)).2 = q at *
  have e4 : (256 : Nat) ^ 4 = 2 ^ 32 := by decide
  show _ = (leBytes (4 + 4) _).reverse
  rw [leBytes_add, List.reverse_append, e4]
  have h1 : (r * 2 ^ 32 + q) / 2 ^ 32 = r := by omega
  have h2 : leBytes 4 (r * 2 ^ 32 + q) = leBytes 4 q := by
    rw [leBytes_mod, e4, show (r * 2 ^ 32 + q) % 2 ^ 32 = q by omega]
  rw [h1, h2]
  rfl

theorem ofBe_take_beBytes (k : Nat) (h : k < 256 ^ 8) :
    ofBe ((beBytes 8 k).take 4) = k / 2 ^ 32 ∧ ofBe ((beBytes 8 k).drop 4) = k % 2 ^ 32 := by
  have e4 : (256 : Nat) ^ 4 = 2 ^ 32 := by decide
  have e8 : (256 : Nat) ^ 8 = 2 ^ 32 * 2 ^ 32 := by decide
  have e : beBytes 8 k = beBytes 4 (k / 2 ^ 32) ++ beBytes 4 (k % 2 ^ 32) := by
    show (leBytes (4 + 4) _).reverse = _
    rw [leBytes_add, List.reverse_append, e4, leBytes_mod 4 k, e4]
    rfl
  rw [e, List.take_left' (by simp), List.drop_left' (by simp)]
  exact ⟨ofBe_beBytes 4 _ (by omega), ofBe_beBytes 4 _ (by omega)⟩

theorem rdCommitted_beBytes {k : Nat} (h : k < 256 ^ 8) (hk : k = 0 ∨ 2 ^ 32 ≤ k) :
    commitKey (rdCommitted (beBytes 8 k)) = k ∧ CommitFits (rdCommitted (beBytes 8 k)) := by
  obtain ⟨h1, h2⟩ := ofBe_take_beBytes k h
  have e8 : (256 : Nat) ^ 8 = 2 ^ 32 * 2 ^ 32 := by decide
  unfold rdCommitted
  rw [h1, h2]
  split
  · refine ⟨?_, fun p hp => by cases hp⟩
    have hz : commitKey none = 0 := by simp [commitKey]
    rw [hz]
    omega
  · refine ⟨?_, ?_⟩
    · show k / 2 ^ 32 * 2 ^ 32 + k % 2 ^ 32 = k
      omega
    · intro p hp
      obtain rfl := Option.some.inj hp
      show 0 < k / 2 ^ 32 ∧ k / 2 ^ 32 < 2 ^ 32 ∧ k % 2 ^ 32 < 2 ^ 32
      omega

theorem commitKey_range {c : Option (Nat × Nat)} (hc : CommitFits c) : commitKey c = 0 ∨ 2 ^ 32 ≤ commitKey c := by
  unfold commitKey
  cases c with
  | none => simp
  | some p => have := hc p rfl; simp only [Option.getD_some]; omega

theorem rdCommitted_enc {c : Option (Nat × Nat)} (hc : CommitFits c) : rdCommitted (encCommitted c) = c := by
  rw [encCommitted_eq hc]
  obtain ⟨h1, h2⟩ := rdCommitted_beBytes (commitKey_lt hc) (commitKey_range hc)
  exact commitKey_inj h2 hc h1

theorem encCommitted_length (c : Option (Nat × Nat)) : (encCommitted c).length = 8 := by simp [encCommitted]

theorem rdId_append {id : Nat} (h : id < 2 ^ 32) (r : List Nat) : rdId id (leBytes 4 id ++ r) = some ((), r) := by
  unfold rdId
  rw [Rd.bind_of (rdLe_append (n := 4) (by simpa using h) r), if_pos rfl]
  rfl

theorem rdLink_enc {i : Ids} (hi : i.Ok) {l : Link} (hl : l.Fits) (r : List Nat) : rdLink i (l.enc i ++ r) = some (l, r) := by
  obtain ⟨round, digest, author, tw, peer⟩ := l
  have h1 := hl.round
  have h2 := hl.digest
  have h3 := hl.author
  have h4 := hl.peer
  simp only at h1 h2 h3 h4
  have ht : rdThrough i (leBytes 4 (if tw then i.witness else i.includes) ++ (leBytes 4 i.peerId ++ (peer ++ r))) =
      some (tw, leBytes 4 i.peerId ++ (peer ++ r)) := by
    unfold rdThrough
    cases tw with
    | false =>
      simp only [Bool.false_eq_true, if_false]
      rw [Rd.bind_of (rdLe_append (n := 4) (by simpa using hi.includes) _), if_pos rfl]; rfl
    | true =>
      simp only [if_true]
      rw [Rd.bind_of (rdLe_append (n := 4) (by simpa using hi.witness) _), if_neg (Ne.symm hi.differ), if_pos rfl]; rfl
  simp only [Link.enc, List.append_assoc]
  unfold rdLink
  rw [Rd.bind_of (rdId_append hi.link _), Rd.bind_of (rdId_append hi.pointId _),
    Rd.bind_of (rdLe_append (n := 4) (by simpa using h1) _), Rd.bind_of (rdBytes_append' h2 _),
    Rd.bind_of (rdId_append hi.peerId _), Rd.bind_of (rdBytes_append' h3 _), Rd.bind_of ht,
    Rd.bind_of (rdId_append hi.peerId _), Rd.bind_of (rdBytes_append' h4 _), Rd.pure_run]

theorem Link.enc_length {i : Ids} {l : Link} (hl : l.Fits) : (l.enc i).length = linkBytes := by
  simp only [Link.enc, List.length_append, leBytes_length, hl.digest, hl.author, hl.peer, linkBytes]

theorem enc_kind (i : Ids) (s : Status) : (s.enc i).getD 0 0 = s.kind := by cases s <;> rfl
theorem enc_second (i : Ids) (s : Status) : (s.enc i).getD 1 0 = s.second := by cases s <;> rfl

theorem enc_readable (i : Ids) {s : Status} (hs : s.Fits) : readable (s.enc i) = true := by
  rw [readable_iff, enc_kind]
  cases s with
  | valid fv hp a c => simp [Status.enc, Status.kind, sizeOf, encCommitted_length]
  | transInvalid hp dr a c l =>
    have := Link.enc_length (i := i) hs.2.2
    simp [Status.enc, Status.kind, sizeOf, encCommitted_length, this, linkBytes]
  | committable hp a c => simp [Status.enc, Status.kind, sizeOf, encCommitted_length]
  | notFound hp author =>
    have : author.length = 32 := hs
    simp [Status.enc, Status.kind, sizeOf, this]
  | invalid hp dr => simp [Status.enc, Status.kind, sizeOf]
  | illFormed hp rf => simp [Status.enc, Status.kind, sizeOf]
  | found hp => simp [Status.enc, Status.kind, sizeOf]
  | proven hp => simp [Status.enc, Status.kind, sizeOf]

def Status.hasProof : Status → Bool
  | .valid _ hp _ _ | .transInvalid hp _ _ _ _ | .committable hp _ _ | .invalid hp _ | .illFormed hp _ | .found hp
  | .notFound hp _ | .proven hp => hp

/-- `None`: not a well-formed point that can be committed. -/
def Status.anchor : Status → Option Nat
  | .valid _ _ a _ | .transInvalid _ _ a _ _ | .committable _ a _ => some a
  | _ => none

def Status.committed : Status → Option (Nat × Nat)
  | .valid _ _ _ c | .transInvalid _ _ _ c _ | .committable _ _ c => c
  | _ => none

def Status.firstValid : Status → Bool
  | .valid fv _ _ _ => fv
  | _ => false

def Status.hasDagRound : Status → Bool
  | .transInvalid _ dr _ _ _ | .invalid _ dr => dr
  | _ => false

def Status.reasonFinal : Status → Bool
  | .illFormed _ rf => rf
  | _ => false

/-- `cause` of a `TransInvalid`, author of a `NotFound`. -/
def Status.rest : Status → Option (Link ⊕ List Nat)
  | .transInvalid _ _ _ _ l => some (.inl l)
  | .notFound _ a => some (.inr a)
  | _ => none

theorem second_bits (s : Status) : s.second.testBit 5 = s.hasProof ∧ s.second.testBit 7 = s.firstValid ∧
    s.second.testBit 2 = s.hasDagRound ∧ s.second.testBit 4 = s.reasonFinal := by
  cases s with
  | valid fv hp a c => simp only [Status.second, Status.hasProof, Status.firstValid, Status.hasDagRound, Status.reasonFinal]; cases fv <;> cases hp <;> decide
  | transInvalid hp dr a c l => simp only [Status.second, Status.hasProof, Status.firstValid, Status.hasDagRound, Status.reasonFinal]; cases hp <;> cases dr <;> decide
  | committable hp a c => simp only [Status.second, Status.hasProof, Status.firstValid, Status.hasDagRound, Status.reasonFinal]; cases hp <;> decide
  | invalid hp dr => cases hp <;> cases dr <;> decide
  | illFormed hp rf => cases hp <;> cases rf <;> decide
  | found hp => cases hp <;> decide
  | notFound hp a => simp only [Status.second, Status.hasProof, Status.firstValid, Status.hasDagRound, Status.reasonFinal]; cases hp <;> decide
  | proven hp => cases hp <;> decide

/-- Every stored status reads back as it was. -/
theorem status_round_trip {i : Ids} (hi : i.Ok) {s : Status} (hs : s.Fits) : decodeStatus i (s.enc i) = some s := by
  unfold decodeStatus
  rw [if_pos (enc_readable i hs), enc_kind]
  unfold hasBit
  rw [enc_second, (second_bits s).1, (second_bits s).2.1, (second_bits s).2.2.1, (second_bits s).2.2.2]
  cases s with
  | valid fv hp a c =>
    have hc : rdCommitted (commitPart ((Status.valid fv hp a c).enc i)) = c := by
      have : commitPart ((Status.valid fv hp a c).enc i) = encCommitted c := by
        show ((encCommitted c).take 8) = _
        rw [List.take_of_length_le (by rw [encCommitted_length])]
      rw [this, rdCommitted_enc hs.2]
    rw [if_pos (show Status.kind _ = 0x80 from rfl), hc]
    rfl
  | transInvalid hp dr a c l =>
    have hc : rdCommitted (commitPart ((Status.transInvalid hp dr a c l).enc i)) = c := by
      have : commitPart ((Status.transInvalid hp dr a c l).enc i) = encCommitted c := by
        show ((encCommitted c ++ l.enc i).take 8) = _
        rw [List.take_left' (encCommitted_length c)]
      rw [this, rdCommitted_enc hs.2.1]
    have hd : ((Status.transInvalid hp dr a c l).enc i).drop 11 = l.enc i := by
      show (encCommitted c ++ l.enc i).drop 8 = _
      rw [List.drop_left' (encCommitted_length c)]
    rw [if_neg (by simp [Status.kind]), if_pos (show Status.kind _ = 0x40 from rfl), hc, hd]
    have := rdLink_enc hi hs.2.2 []
    rw [List.append_nil] at this
    rw [this]
    rfl
  | committable hp a c =>
    have hc : rdCommitted (commitPart ((Status.committable hp a c).enc i)) = c := by
      have : commitPart ((Status.committable hp a c).enc i) = encCommitted c := by
        show ((encCommitted c).take 8) = _
        rw [List.take_of_length_le (by rw [encCommitted_length])]
      rw [this, rdCommitted_enc hs.2]
    rw [if_neg (by simp [Status.kind]), if_neg (by simp [Status.kind]), if_pos (show Status.kind _ = 0x20 from rfl), hc]
    rfl
  | invalid hp dr => rw [if_neg (by simp [Status.kind]), if_neg (by simp [Status.kind]), if_neg (by simp [Status.kind]), if_pos (show Status.kind _ = 0x08 from rfl)]; rfl
  | illFormed hp rf => rw [if_neg (by simp [Status.kind]), if_neg (by simp [Status.kind]), if_neg (by simp [Status.kind]), if_neg (by simp [Status.kind]), if_pos (show Status.kind _ = 0x04 from rfl)]; rfl
  | found hp => rfl
  | notFound hp author =>
    have hlen : author.length = 32 := hs
    have hd : ((Status.notFound hp author).enc i).drop 2 = leBytes 4 i.peerId ++ author := rfl
    have hr : (do rdId i.peerId; rdBytes 32 : Rd (List Nat)) (leBytes 4 i.peerId ++ author) = some (author, []) := by
      rw [Rd.bind_of (rdId_append hi.peerId _)]
      have := rdBytes_append' hlen []
      rwa [List.append_nil] at this
    simp only [Status.kind]
    rw [if_neg (by decide), if_neg (by decide), if_neg (by decide), if_neg (by decide), if_neg (by decide),
      if_neg (by decide), if_pos (by decide), hd, hr]
    rfl
  | proven hp => rfl

/-! ### The meaning of a merge -/

theorem testBit_fold (l : List (List Nat)) (n : Nat) : (orSecond l).testBit n = l.any (fun a => (a.getD 1 0).testBit n) := by
  induction l with
  | nil => simp [orSecond]
  | cons a l ih =>
    rw [show a :: l = [a] ++ l from rfl, orSecond_append, Nat.testBit_or, ih, List.any_append]
    simp [orSecond]

theorem max_beBytes {x y : Nat} (hx : x < 256 ^ 8) (hy : y < 256 ^ 8) : max (beBytes 8 x) (beBytes 8 y) = beBytes 8 (max x y) := by
  rcases Nat.lt_or_ge x y with h | h
  · have h' : beBytes 8 x < beBytes 8 y := (beBytes_lt_iff 8 x y hx hy).2 h
    rw [max_eq_right (le_of_lt h'), Nat.max_eq_right (by omega)]
  · have h' : ¬ beBytes 8 x < beBytes 8 y := fun h2 => by have := (beBytes_lt_iff 8 x y hx hy).1 h2; omega
    rw [max_eq_left (not_lt.1 h'), Nat.max_eq_left h]

theorem enc_committable (i : Ids) (s : Status) : isCommittable (s.enc i) = s.anchor.isSome := by
  unfold isCommittable
  rw [enc_kind]
  have h : decide (128 &&& 224 ≠ 0) = true ∧ decide (64 &&& 224 ≠ 0) = true ∧ decide (32 &&& 224 ≠ 0) = true ∧
      decide (8 &&& 224 ≠ 0) = false ∧ decide (4 &&& 224 ≠ 0) = false ∧ decide (2 &&& 224 ≠ 0) = false ∧
      decide (1 &&& 224 ≠ 0) = false ∧ decide (0 &&& 224 ≠ 0) = false := by decide
  obtain ⟨h1, h2, h3, h4, h5, h6, h7, h8⟩ := h
  cases s <;> simp only [Status.kind, Status.anchor, Option.isSome_some, Option.isSome_none] <;> assumption

theorem zero8 : (List.replicate 8 0 : List Nat) = beBytes 8 (commitKey none) := by decide +kernel

theorem enc_commitOf (i : Ids) {s : Status} (hs : s.Fits) : commitOf (s.enc i) = beBytes 8 (commitKey s.committed) := by
  unfold commitOf
  rw [enc_committable]
  cases s with
  | valid fv hp a c =>
    show ((encCommitted c).take 8) = _
    rw [List.take_of_length_le (by rw [encCommitted_length]), encCommitted_eq hs.2]; rfl
  | transInvalid hp dr a c l =>
    show ((encCommitted c ++ l.enc i).take 8) = _
    rw [List.take_left' (encCommitted_length c), encCommitted_eq hs.2.1]; rfl
  | committable hp a c =>
    show ((encCommitted c).take 8) = _
    rw [List.take_of_length_le (by rw [encCommitted_length]), encCommitted_eq hs.2]; rfl
  | invalid hp dr => rw [if_neg (by simp [Status.anchor]), zero8]; rfl
  | illFormed hp rf => rw [if_neg (by simp [Status.anchor]), zero8]; rfl
  | found hp => rw [if_neg (by simp [Status.anchor]), zero8]; rfl
  | notFound hp au => rw [if_neg (by simp [Status.anchor]), zero8]; rfl
  | proven hp => rw [if_neg (by simp [Status.anchor]), zero8]; rfl

theorem fits_committed {s : Status} (hs : s.Fits) : CommitFits s.committed := by
  cases s with
  | valid fv hp a c => exact hs.2
  | transInvalid hp dr a c l => exact hs.2.1
  | committable hp a c => exact hs.2
  | _ => intro p hp; cases hp

/-- The greatest commit of a list of statuses. -/
def topCommit (l : List Status) : Nat := l.foldl (fun m s => max m (commitKey s.committed)) 0

theorem maxCommit_enc (i : Ids) (l : List Status) (hl : ∀ s ∈ l, s.Fits) :
    maxCommit (l.map (Status.enc i)) = beBytes 8 (topCommit l) ∧ topCommit l < 256 ^ 8 ∧
      (topCommit l = 0 ∨ 2 ^ 32 ≤ topCommit l) := by
  rw [maxCommit_eq _ (by
    intro a ha
    obtain ⟨s, hs, rfl⟩ := List.mem_map.1 ha
    exact enc_readable i (hl s hs))]
  have key : ∀ (l : List Status) (k : Nat), (∀ s ∈ l, s.Fits) → k < 256 ^ 8 → (k = 0 ∨ 2 ^ 32 ≤ k) →
      (l.map (Status.enc i)).foldl (fun c a => max c (commitOf a)) (beBytes 8 k) =
        beBytes 8 (l.foldl (fun m s => max m (commitKey s.committed)) k) ∧
      l.foldl (fun m s => max m (commitKey s.committed)) k < 256 ^ 8 ∧
      (l.foldl (fun m s => max m (commitKey s.committed)) k = 0 ∨ 2 ^ 32 ≤ l.foldl (fun m s => max m (commitKey s.committed)) k) := by
    intro l
    induction l with
    | nil => intro k _ h1 h2; exact ⟨rfl, h1, h2⟩
    | cons s l ih =>
      intro k h0 h1 h2
      have hs := fits_committed (h0 s (by simp))
      have hk := commitKey_lt hs
      have hr := commitKey_range hs
      have hmax : max k (commitKey s.committed) < 256 ^ 8 := by
        rcases Nat.le_total k (commitKey s.committed) with h | h
        · rw [Nat.max_eq_right h]; exact hk
        · rw [Nat.max_eq_left h]; exact h1
      simp only [List.map_cons, List.foldl_cons]
      rw [enc_commitOf i (h0 s (by simp)), max_beBytes h1 hk]
      exact ih _ (fun x hx => h0 x (by simp [hx])) hmax (by omega)
  have h0 : (List.replicate 8 0 : List Nat) = beBytes 8 0 := by rfl
  rw [h0]
  exact key l 0 hl (by simp) (Or.inl rfl)

/-- The or of the anchor flags. -/
def orAnchors (l : List Status) : Nat := l.foldl (fun m s => m ||| s.anchor.getD 0) 0

theorem orAnchor_enc (i : Ids) (l : List Status) : orAnchor (l.map (Status.enc i)) = orAnchors l := by
  have e : ∀ s : Status, anchorOf (s.enc i) = s.anchor.getD 0 := by
    intro s
    unfold anchorOf
    rw [enc_committable]
    cases s <;> rfl
  rw [orAnchor_eq, List.foldl_map]
  unfold orAnchors
  congr 1
  funext m s
  rw [e]

/-- Bytes that are read the same way as an encoding. -/
theorem decode_of_fields {i : Ids} (hi : i.Ok) {s : Status} (hs : s.Fits) {v : List Nat} (hv : readable v = true)
    (hk : v.getD 0 0 = s.kind) (ht : tailOf v = tailOf (s.enc i)) :
    ∃ s', decodeStatus i v = some s' ∧ s'.kind = s.kind ∧ s'.rest = s.rest ∧ s'.hasProof = (v.getD 1 0).testBit 5 ∧
      (s.kind = 0x80 → s'.firstValid = (v.getD 1 0).testBit 7) ∧
      (s.kind = 0x40 ∨ s.kind = 0x08 → s'.hasDagRound = (v.getD 1 0).testBit 2) ∧
      (s.kind = 0x04 → s'.reasonFinal = (v.getD 1 0).testBit 4) ∧
      (0x20 ≤ s.kind → s'.anchor = some (v.getD 2 0) ∧ s'.committed = rdCommitted (commitPart v)) := by
  unfold decodeStatus
  rw [if_pos hv, hk]
  have hcv : isCommittable v = isCommittable (s.enc i) := by unfold isCommittable; rw [hk, enc_kind]
  cases s with
  | valid fv hp a c => exact ⟨_, if_pos rfl, rfl, rfl, rfl, fun _ => rfl, fun h => by simp [Status.kind] at h, fun h => by simp [Status.kind] at h, fun _ => ⟨rfl, rfl⟩⟩
  | transInvalid hp dr a c l =>
    have hd : v.drop 11 = l.enc i := by
      unfold tailOf at ht
      rw [hcv, enc_committable] at ht
      simp only [Status.anchor, Option.isSome_some, if_true] at ht
      rw [ht]
      show (encCommitted c ++ l.enc i).drop 8 = _
      rw [List.drop_left' (encCommitted_length c)]
    have := rdLink_enc hi hs.2.2 []
    rw [List.append_nil] at this
    refine ⟨.transInvalid (hasBit v 5) (hasBit v 2) (v.getD 2 0) (rdCommitted (commitPart v)) l, ?_, rfl, rfl, rfl, fun h => by simp [Status.kind] at h, fun _ => rfl, fun h => by simp [Status.kind] at h, fun _ => ⟨rfl, rfl⟩⟩
    rw [if_neg (by simp [Status.kind]), if_pos (show Status.kind _ = 0x40 from rfl), hd, this]
    rfl
  | committable hp a c => exact ⟨_, rfl, rfl, rfl, rfl, fun h => by simp [Status.kind] at h, fun h => by simp [Status.kind] at h, fun h => by simp [Status.kind] at h, fun _ => ⟨rfl, rfl⟩⟩
  | invalid hp dr => exact ⟨_, rfl, rfl, rfl, rfl, fun h => by simp [Status.kind] at h, fun _ => rfl, fun h => by simp [Status.kind] at h, fun h => by simp [Status.kind] at h⟩
  | illFormed hp rf => exact ⟨_, rfl, rfl, rfl, rfl, fun h => by simp [Status.kind] at h, fun h => by simp [Status.kind] at h, fun _ => rfl, fun h => by simp [Status.kind] at h⟩
  | found hp => exact ⟨_, rfl, rfl, rfl, rfl, fun h => by simp [Status.kind] at h, fun h => by simp [Status.kind] at h, fun h => by simp [Status.kind] at h, fun h => by simp [Status.kind] at h⟩
  | notFound hp author =>
    have hlen : author.length = 32 := hs
    have hd : v.drop 2 = leBytes 4 i.peerId ++ author := by
      unfold tailOf at ht
      rw [hcv, enc_committable] at ht
      simp only [Status.anchor, Option.isSome_none, Bool.false_eq_true, if_false] at ht
      rw [ht]; rfl
    have hr : (do rdId i.peerId; rdBytes 32 : Rd (List Nat)) (leBytes 4 i.peerId ++ author) = some (author, []) := by
      rw [Rd.bind_of (rdId_append hi.peerId _)]
      have := rdBytes_append' hlen []
      rwa [List.append_nil] at this
    refine ⟨.notFound (hasBit v 5) author, ?_, rfl, rfl, rfl, fun h => by simp [Status.kind] at h, fun h => by simp [Status.kind] at h, fun h => by simp [Status.kind] at h, fun h => by simp [Status.kind] at h⟩
    simp only [Status.kind]
    rw [if_neg (by decide), if_neg (by decide), if_neg (by decide), if_neg (by decide), if_neg (by decide),
      if_neg (by decide), if_pos (by decide), hd, hr]
    rfl
  | proven hp => exact ⟨_, rfl, rfl, rfl, rfl, fun h => by simp [Status.kind] at h, fun h => by simp [Status.kind] at h, fun h => by simp [Status.kind] at h, fun h => by simp [Status.kind] at h⟩

/-- What a node reads after it stored the statuses `l` of a point, however the merges were grouped: a status of the highest kind
ever stored; it has a proof if any of them had, and likewise for the other flags; its anchor flags are all that were stored, its
commit is the latest; the cause or the author is one that was stored with this kind. -/
theorem status_merge_meaning {i : Ids} (hi : i.Ok) {l : List Status} (hne : l ≠ []) (hl : ∀ s ∈ l, s.Fits)
    {ops' : List (List Nat)} (hr : Regroup mergeStatus (l.map (Status.enc i)) ops') :
    ∃ v s, mergeStatus ops' = some v ∧ decodeStatus i v = some s ∧
      (∀ x ∈ l, x.kind ≤ s.kind) ∧ (∃ x ∈ l, x.kind = s.kind ∧ x.rest = s.rest) ∧
      s.hasProof = l.any Status.hasProof ∧
      (s.kind = 0x80 → s.firstValid = l.any Status.firstValid) ∧
      (s.kind = 0x40 ∨ s.kind = 0x08 → s.hasDagRound = l.any Status.hasDagRound) ∧
      (s.kind = 0x04 → s.reasonFinal = l.any Status.reasonFinal) ∧
      ((∃ x ∈ l, x.anchor.isSome) → s.anchor = some (orAnchors l) ∧ commitKey s.committed = topCommit l ∧ CommitFits s.committed) := by
  have hread : ∀ a ∈ l.map (Status.enc i), readable a = true := by
    intro a ha
    obtain ⟨s, hs, rfl⟩ := List.mem_map.1 ha
    exact enc_readable i (hl s hs)
  have hfil : (l.map (Status.enc i)).filter readable = l.map (Status.enc i) := List.filter_eq_self.2 hread
  have hsome0 : (mergeStatus (l.map (Status.enc i))).isSome := by
    obtain ⟨s, hs⟩ := List.exists_mem_of_ne_nil _ hne
    exact (mergeStatus_isSome _).2 ⟨s.enc i, List.mem_map_of_mem hs, enc_readable i (hl s hs)⟩
  obtain ⟨r1, r2⟩ := status_regroup hr
  rw [hsome0] at r1
  obtain ⟨v0, hv0⟩ := Option.isSome_iff_exists.1 hsome0
  obtain ⟨v, hv⟩ := Option.isSome_iff_exists.1 r1
  obtain ⟨f, m, hm, hm1, hm2, hm3⟩ := r2 v0 v hv0 hv
  obtain ⟨_, f0, _⟩ := mergeStatus_some hv0
  obtain ⟨vr, fv, vk, _⟩ := mergeStatus_some hv
  have hfields : fieldsOf [v] = fieldsOf (l.map (Status.enc i)) := by rw [f, f0]
  obtain ⟨x, hx, rfl⟩ := List.mem_map.1 hm
  have htop : topKind (l.map (Status.enc i)) = x.kind := by rw [← hm2, enc_kind]
  have hvk : v.getD 0 0 = x.kind := by
    rw [vk, ← htop]
    have h1 := congrArg Fields.kind fv
    have h2 := congrArg Fields.kind hfields
    show topKind ops' = _
    exact h1.symm.trans h2
  have hvs : v.getD 1 0 = orSecond (l.map (Status.enc i)) := by
    have h2 := congrArg Fields.second hfields
    simp only [fieldsOf, hfil] at h2
    rw [← h2]
    simp [orSecond, vr]
  obtain ⟨s, d1, d2, d3, d4, d5, d6, d7, d8⟩ := decode_of_fields hi (hl x hx) vr hvk hm3
  have hany : ∀ n, (v.getD 1 0).testBit n = l.any (fun s => s.second.testBit n) := by
    intro n
    rw [hvs, testBit_fold, List.any_map]
    simp only [Function.comp_def, enc_second]
  refine ⟨v, s, hv, d1, ?_, ⟨x, hx, d2.symm, d3.symm⟩, ?_, ?_, ?_, ?_, ?_⟩
  · intro y hy
    rw [d2, ← htop]
    unfold topKind
    rw [hfil]
    have lo : ∀ (l : List (List Nat)) (s : Nat), s ≤ l.foldl (fun s a => max s (a.getD 0 0)) s ∧
        ∀ a ∈ l, a.getD 0 0 ≤ l.foldl (fun s a => max s (a.getD 0 0)) s := by
      intro l
      induction l with
      | nil => intro s; simp
      | cons a l ih =>
        intro s
        obtain ⟨h1, h2⟩ := ih (max s (a.getD 0 0))
        simp only [List.foldl_cons]
        refine ⟨by omega, ?_⟩
        intro x hx
        rcases List.mem_cons.1 hx with rfl | hx
        · omega
        · exact h2 x hx
    have := (lo (l.map (Status.enc i)) 0).2 (y.enc i) (List.mem_map_of_mem hy)
    rwa [enc_kind] at this
  · rw [d4, hany]; congr 1; funext s; exact (second_bits s).1
  · intro h; rw [d5 (by rw [← d2]; exact h), hany]; congr 1; funext s; exact (second_bits s).2.1
  · intro h; rw [d6 (by rw [← d2]; exact h), hany]; congr 1; funext s; exact (second_bits s).2.2.1
  · intro h; rw [d7 (by rw [← d2]; exact h), hany]; congr 1; funext s; exact (second_bits s).2.2.2
  · rintro ⟨y, hy, hya⟩
    have hyk : 0x20 ≤ y.kind := by cases y <;> simp_all [Status.anchor, Status.kind]
    have hxk : 0x20 ≤ x.kind := by
      rw [← htop]
      unfold topKind
      rw [hfil]
      obtain ⟨a, b, hab⟩ := List.append_of_mem (List.mem_map_of_mem (f := Status.enc i) hy)
      rw [hab, List.foldl_append, List.foldl_cons, foldl_max_init b]
      rw [enc_kind]
      omega
    obtain ⟨e1, e2⟩ := d8 hxk
    have hcv : isCommittable v = true := (committable_iff vr).2 (by omega)
    have ha := congrArg Fields.anchor hfields
    have hc := congrArg Fields.commit hfields
    have hvf : [v].filter readable = [v] := by simp [vr]
    simp only [fieldsOf, hfil, hvf, orAnchor_enc] at ha hc
    obtain ⟨m1, m2, m3⟩ := maxCommit_enc i l hl
    rw [m1, maxCommit_eq _ (by simpa using vr)] at hc
    simp only [List.foldl_cons, List.foldl_nil] at hc
    rw [max_eq_right (zero_le_commitOf vr)] at hc
    unfold commitOf at hc
    rw [if_pos hcv] at hc
    rw [orAnchor_eq] at ha
    simp only [List.foldl_cons, List.foldl_nil, Nat.zero_or] at ha
    unfold anchorOf at ha
    rw [if_pos hcv] at ha
    rw [e1, e2, ha, hc]
    obtain ⟨q1, q2⟩ := rdCommitted_beBytes m2 m3
    exact ⟨rfl, q1, q2⟩

end Tycho.Merge
