import Verif.Commit.Chain

/-!
Invariants of every run of the committer (C06 and the order of C07).
-/
namespace Tycho.Commit

/-! ### Contiguity -/

theorem filter_range' (b : Nat) : ∀ (n s : Nat), (List.range' s n).filter (fun r => decide (b ≤ r)) =
    List.range' (max b s) (n - (b - s))
  | 0, s => by simp
  | n + 1, s => by
    rw [List.range'_succ, List.filter_cons, filter_range' b n (s + 1)]
    split
    · rename_i h
      simp at h
      have h1 : b - s = 0 := by omega
      have h2 : max b s = s := by omega
      have h3 : max b (s + 1) = s + 1 := by omega
      have h4 : b - (s + 1) = 0 := by omega
      rw [h1, h2, h3, h4, Nat.sub_zero, Nat.sub_zero, List.range'_succ]
    · rename_i h
      simp at h
      have h2 : max b s = max b (s + 1) := by omega
      have h3 : n + 1 - (b - s) = n - (b - (s + 1)) := by omega
      rw [h2, h3]

theorem headD_range' {s n : Nat} (h : n ≠ 0) : (List.range' s n).headD 0 = s := by
  cases n with
  | zero => exact absurd rfl h
  | succ n => simp [List.range'_succ]

theorem getLastD_range' {s n : Nat} (h : n ≠ 0) : (List.range' s n).getLastD 0 = s + n - 1 := by
  cases n with
  | zero => exact absurd rfl h
  | succ n => rw [List.range'_concat]; simp

theorem contiguous_mk {d : Dag} {s n : Nat} (h : d.rounds = List.range' s n) : Contiguous d := by
  by_cases hn : n = 0
  · subst hn; exact ⟨0, by rw [h]; simp⟩
  · refine ⟨n, ?_⟩
    have : d.bottom = s := by unfold Dag.bottom; rw [h]; exact headD_range' hn
    rw [this]; exact h

theorem isContiguous_range' : ∀ (l : List Nat) {a}, isContiguous (a :: l) = true → a :: l = List.range' a (l.length + 1)
  | [], a, _ => by simp
  | b :: rest, a, h => by
    simp only [isContiguous, Bool.and_eq_true, decide_eq_true_eq] at h
    obtain ⟨rfl, h⟩ := h
    rw [isContiguous_range' rest h, List.range'_succ]
    simp [List.range'_succ]

/-- Rounds held: contiguous and not empty. -/
def RoundsOk (d : Dag) : Prop := Contiguous d ∧ d.rounds ≠ []

theorem roundsOk_iff {d : Dag} : RoundsOk d ↔ ∃ n, n ≠ 0 ∧ d.rounds = List.range' d.bottom n := by
  constructor
  · rintro ⟨⟨n, hn⟩, h⟩
    exact ⟨n, fun h0 => h (by rw [hn, h0]; rfl), hn⟩
  · rintro ⟨n, h0, hn⟩
    exact ⟨⟨n, hn⟩, fun h => h0 (by rw [h] at hn; have := congrArg List.length hn; simpa using this.symm)⟩

theorem bottom_mem {d : Dag} (h : RoundsOk d) : d.bottom ∈ d.rounds := by
  obtain ⟨n, h0, hn⟩ := roundsOk_iff.1 h
  rw [hn, List.mem_range'_1]; omega

theorem drain_ok {d d' : Dag} {b} (hd : RoundsOk d) (h : d.drainUpto b = .ok d') :
    RoundsOk d' ∧ d'.view = d.view ∧ d'.committed = d.committed ∧ d'.usedProof = d.usedProof ∧
      d'.lastProof = d.lastProof ∧ d.bottom ≤ d'.bottom ∧ b ≤ d'.bottom ∧
      d'.rounds = d.rounds.filter (fun r => decide (b ≤ r)) := by
  unfold Dag.drainUpto at h
  split at h
  · rename_i hcond
    simp at h
    subst h
    obtain ⟨n, h0, hn⟩ := roundsOk_iff.1 hd
    have hne : d.rounds.filter (fun r => decide (b ≤ r)) ≠ [] := by
      obtain ⟨x, hx, hb⟩ := List.any_eq_true.1 hcond.2
      intro h
      have : x ∈ d.rounds.filter (fun r => decide (b ≤ r)) := List.mem_filter.2 ⟨hx, hb⟩
      rw [h] at this; simp at this
    have hr : d.rounds.filter (fun r => decide (b ≤ r)) = List.range' (max b d.bottom) (n - (b - d.bottom)) := by
      rw [← filter_range', ← hn]
    have hlen : n - (b - d.bottom) ≠ 0 := by
      intro h; rw [hr, h] at hne; exact hne rfl
    have hbot : (d.rounds.filter (fun r => decide (b ≤ r))).headD 0 = max b d.bottom := by
      rw [hr]; exact headD_range' hlen
    refine ⟨⟨contiguous_mk hr, hne⟩, rfl, rfl, rfl, rfl, ?_, ?_, rfl⟩
    · show d.bottom ≤ List.headD _ _; rw [hbot]; omega
    · show b ≤ List.headD _ _; rw [hbot]; omega
  · simp at h

theorem extend_ok {s s' : State} {rounds} (hd : RoundsOk s.dag) (h : extend s rounds = .ok s') :
    RoundsOk s'.dag ∧ s'.dag.view = s.dag.view ∧ s'.dag.committed = s.dag.committed ∧
      s'.dag.usedProof = s.dag.usedProof ∧ s'.dag.lastProof = s.dag.lastProof ∧ s'.dag.bottom = s.dag.bottom ∧
      s'.fullBottom = s.fullBottom ∧ s'.gapFlag = s.gapFlag ∧ s'.firstExecutable = s.firstExecutable ∧
      (∀ r, r ∈ s.dag.rounds → r ∈ s'.dag.rounds) := by
  unfold extend at h
  split at h
  · simp at h; subst h; exact ⟨hd, rfl, rfl, rfl, rfl, rfl, rfl, rfl, rfl, fun _ h => h⟩
  · rename_i first hfirst
    split at h
    · rename_i hcond
      simp at h; subst h
      obtain ⟨n, h0, hn⟩ := roundsOk_iff.1 hd
      have htop : s.dag.top = s.dag.bottom + n - 1 := by
        unfold Dag.top; rw [hn]; exact getLastD_range' h0
      obtain ⟨l, hl⟩ : ∃ l, rounds = first :: l := by
        cases rounds with
        | nil => simp at hfirst
        | cons a l => simp at hfirst; exact ⟨l, by rw [hfirst]⟩
      have hcont := hcond.2
      rw [hl] at hcont
      have hl' := isContiguous_range' l hcont
      have hfil : (rounds.filter fun r => decide (s.dag.top < r)) =
          List.range' (s.dag.bottom + n) (l.length + 1 - (s.dag.top + 1 - first)) := by
        have : (fun r => decide (s.dag.top < r)) = fun r => decide (s.dag.top + 1 ≤ r) := by
          funext r; simp [Nat.succ_le_iff]
        rw [hl, hl', this, filter_range']
        congr 1; omega
      have hall : s.dag.rounds ++ (rounds.filter fun r => decide (s.dag.top < r)) =
          List.range' s.dag.bottom (n + (l.length + 1 - (s.dag.top + 1 - first))) := by
        rw [hfil]
        conv => lhs; rw [hn]
        rw [List.range'_append_1]
      refine ⟨⟨contiguous_mk hall, ?_⟩, rfl, rfl, rfl, rfl, ?_, rfl, rfl, rfl, ?_⟩
      · simp [hd.2]
      · show List.headD _ 0 = _
        have : (s.dag.rounds ++ (rounds.filter fun r => decide (s.dag.top < r))).headD 0 = s.dag.bottom := by
          rw [hall]; exact headD_range' (by omega)
        exact this
      · intro r hr; simp [hr]
    · simp at h

/-! ### One anchor -/

theorem markAll_ok {d d' : Dag} {l} (h : markAll d l = .ok d') :
    (∀ p ∈ l, p.body.certified = true ∧ d.committed p.id = false) ∧
    d' = { d with committed := fun id => d.committed id || l.any (fun p => decide (p.id = id)) } := by
  unfold markAll at h
  split at h
  · rename_i hall
    simp at h
    refine ⟨?_, h.symm⟩
    intro p hp
    have := List.all_eq_true.1 hall p hp
    simpa using this
  · simp at h

theorem dequeue_ok {S c s e data s'} (h : dequeue S c s e = .ok (data, s')) :
    gather S c s.dag s.fullBottom e.anchor = .ok data.history ∧
    canUse s.dag e = true ∧
    (∀ p ∈ data.history, p.body.certified = true ∧ s.dag.committed p.id = false) ∧
    s'.dag = { s.dag.useProof e with
      committed := fun id => s.dag.committed id || data.history.any (fun p => decide (p.id = id)) } ∧
    data.anchor = e.anchor ∧ data.proof = e.proof.id ∧
    data.executable = decide (s.firstExecutable ≤ e.anchor.id.round) ∧
    (∃ first, takeFlag s.gapFlag data.executable = .ok (first, s'.gapFlag) ∧
      data.prevAnchor = prevAnchorOf c e.prevProofRound first) ∧
    s'.fullBottom = s.fullBottom ∧ s'.firstExecutable = s.firstExecutable := by
  unfold dequeue at h
  split at h
  · simp at h
  rename_i hist hg
  split at h
  · rename_i hcan
    split at h
    · simp at h
    rename_i dag hm
    split at h
    · simp at h
    rename_i first flag hflag
    simp at h
    obtain ⟨rfl, rfl⟩ := h
    obtain ⟨m1, m2⟩ := markAll_ok hm
    exact ⟨hg, hcan, m1, m2, rfl, rfl, rfl, ⟨first, hflag, rfl⟩, rfl, rfl⟩
  · simp at h

/-- All ids handed out by a list of anchors. -/
def committedIds (l : List AnchorData) : List PointId := l.flatMap fun a => a.history.map Point.id

/-- What holds after every prefix of a run that handed out the anchors `L`. -/
structure Trace (L : List AnchorData) (s : State) : Prop where
  rounds : RoundsOk s.dag
  committed_low : ∀ id, s.dag.committed id = true → id.round < s.dag.chainBottom
  emitted_low : ∀ a ∈ L, a.anchor.id.round < s.dag.chainBottom
  sorted : L.Pairwise fun a b => a.anchor.id.round < b.anchor.id.round
  marked : ∀ id ∈ committedIds L, s.dag.committed id = true
  nodup : (committedIds L).Nodup
  ends : ∀ a ∈ L, ∃ p, a.history.getLast? = some p ∧ p.id = a.anchor.id
  proof : ∀ a ∈ L, a.proof.round = a.anchor.id.round + 1

theorem Trace.drop {L1 L2 s} (T : Trace (L1 ++ L2) s) : Trace L1 s := by
  have hsub : committedIds L1 ⊆ committedIds (L1 ++ L2) := by
    unfold committedIds; rw [List.flatMap_append]; exact List.subset_append_left _ _
  refine ⟨T.rounds, T.committed_low, fun a ha => T.emitted_low a (by simp [ha]),
    (List.pairwise_append.1 T.sorted).1, fun id h => T.marked id (hsub h), ?_, fun a ha => T.ends a (by simp [ha]),
    fun a ha => T.proof a (by simp [ha])⟩
  have := T.nodup
  unfold committedIds at this ⊢
  rw [List.flatMap_append] at this
  exact (List.nodup_append.1 this).1

theorem chainBottom_useProof {d : Dag} {e : Enqueued} {f} :
    Dag.chainBottom { d.useProof e with committed := f } = e.proof.id.round := rfl

theorem chainBottom_le {s : State} {e} (hr : RoundsOk s.dag) (h : canUse s.dag e = true) :
    s.dag.chainBottom ≤ e.proof.id.round := by
  unfold canUse at h
  simp only [Bool.and_eq_true, decide_eq_true_eq] at h
  unfold Dag.chainBottom
  cases hl : s.dag.lastProof with
  | none => exact bottom_le hr.1 h.1.2
  | some p =>
    have := h.1.1
    rw [hl] at this
    simp [proofBelow] at this
    simp; omega

theorem dequeue_trace {S c s e data s' L} (T : Trace L s) (h : dequeue S c s e = .ok (data, s'))
    (hlow : s.dag.chainBottom ≤ e.anchor.id.round) (hpr : e.proof.id.round = e.anchor.id.round + 1)
    (hmem : e.anchor.id.round ∈ s.dag.rounds) :
    Trace (L ++ [data]) s' ∧ s'.dag.chainBottom = e.proof.id.round ∧ s'.dag.rounds = s.dag.rounds ∧
      s'.dag.view = s.dag.view := by
  obtain ⟨h1, h2, h3, h4, h5, h6, h7, h8, h9, h10⟩ := dequeue_ok h
  have hcb : s'.dag.chainBottom = e.proof.id.round := by rw [h4]; rfl
  have hrd : s'.dag.rounds = s.dag.rounds := by rw [h4]; rfl
  have hvw : s'.dag.view = s.dag.view := by rw [h4]; rfl
  have hcm : ∀ id, s'.dag.committed id = (s.dag.committed id || data.history.any (fun p => decide (p.id = id))) := by
    intro id; rw [h4]
  have hids : committedIds (L ++ [data]) = committedIds L ++ data.history.map Point.id := by
    simp [committedIds]
  have hsound := history_sound h1 T.rounds.1
  refine ⟨⟨?_, ?_, ?_, ?_, ?_, ?_, ?_, ?_⟩, hcb, hrd, hvw⟩
  · refine ⟨?_, by rw [hrd]; exact T.rounds.2⟩
    obtain ⟨n, hn⟩ := T.rounds.1
    exact contiguous_mk (hrd.trans hn)
  · intro id hid
    rw [hcb]
    rw [hcm, Bool.or_eq_true] at hid
    rcases hid with hid | hid
    · have := T.committed_low id hid; omega
    · simp only [List.any_eq_true, decide_eq_true_eq] at hid
      obtain ⟨p, hp, rfl⟩ := hid
      have := reach_round (hsound p hp).2.1
      omega
  · intro a ha
    rw [hcb]
    rcases List.mem_append.1 ha with ha | ha
    · have := T.emitted_low a ha; omega
    · simp at ha; subst ha; rw [h5]; omega
  · rw [List.pairwise_append]
    refine ⟨T.sorted, by simp, ?_⟩
    intro a ha b hb
    simp at hb; subst hb
    have := T.emitted_low a ha
    rw [h5]; omega
  · intro id hid
    rw [hids, List.mem_append] at hid
    rw [hcm, Bool.or_eq_true]
    rcases hid with hid | hid
    · exact Or.inl (T.marked id hid)
    · right
      obtain ⟨p, hp, rfl⟩ := List.mem_map.1 hid
      simp only [List.any_eq_true, decide_eq_true_eq]
      exact ⟨p, hp, rfl⟩
  · rw [hids, List.nodup_append]
    refine ⟨T.nodup, history_nodup h1, ?_⟩
    intro x hx y hy hxy
    subst hxy
    obtain ⟨p, hp, rfl⟩ := List.mem_map.1 hy
    have hm := T.marked _ hx
    rw [(h3 p hp).2] at hm
    exact absurd hm (by simp)
  · intro a ha
    rcases List.mem_append.1 ha with ha | ha
    · exact T.ends a ha
    · simp at ha; subst ha
      have huc : s.dag.committed e.anchor.id = false := by
        by_contra hne
        have := T.committed_low _ (by simpa using hne)
        omega
      obtain ⟨p, hp1, hp2, _⟩ := history_anchor_last h1 hmem huc
      exact ⟨p, hp1, by rw [hp2, h5]⟩
  · intro a ha
    rcases List.mem_append.1 ha with ha | ha
    · exact T.proof a ha
    · simp at ha; subst ha; rw [h5, h6]; exact hpr

theorem dequeueAll_trace {S c} : ∀ (items) {s L r s'}, Trace L s → dequeueAll S c s items = (r, s') →
    Ordered s.dag.chainBottom items → (∀ e ∈ items, e.anchor.id.round ∈ s.dag.rounds) →
    Trace (L ++ handed r) s'
  | [], s, L, r, s', T, h, _, _ => by
    simp [dequeueAll] at h
    obtain ⟨rfl, rfl⟩ := h
    simpa [handed] using T
  | e :: rest, s, L, r, s', T, h, hord, hmem => by
    unfold dequeueAll at h
    split at h
    · simp at h; obtain ⟨rfl, rfl⟩ := h; simpa [handed] using T
    rename_i data s1 hd
    obtain ⟨T1, hcb, hrd, _⟩ := dequeue_trace T hd hord.1 hord.2.1 (hmem e (by simp))
    have hord' : Ordered s1.dag.chainBottom rest := by rw [hcb]; exact hord.2.2
    have hmem' : ∀ x ∈ rest, x.anchor.id.round ∈ s1.dag.rounds := fun x hx => by rw [hrd]; exact hmem x (by simp [hx])
    split at h
    · rename_i err s2 hrec
      simp at h; obtain ⟨rfl, rfl⟩ := h
      have := dequeueAll_trace rest T1 hrec hord' hmem'
      simp only [handed, List.append_nil] at this ⊢
      exact this.drop
    · rename_i A s2 hrec
      simp at h; obtain ⟨rfl, rfl⟩ := h
      have := dequeueAll_trace rest T1 hrec hord' hmem'
      simpa [handed] using this

theorem commit_trace {S c s t r s' L} (T : Trace L s) (h : commit S c s t = (r, s')) :
    Trace (L ++ handed r) s' := by
  unfold commit at h
  have triv : ∀ {x : Except Err (List AnchorData)}, (∀ A, x = .ok A → A = []) → (x, s) = (r, s') →
      Trace (L ++ handed r) s' := by
    intro x hx he
    simp at he
    obtain ⟨rfl, rfl⟩ := he
    cases x with
    | error e => simpa [handed] using T
    | ok A => rw [hx A rfl]; simpa [handed] using T
  split at h
  · exact triv (by intro A hA; cases hA; rfl) h
  split at h
  · exact triv (by intro A hA; cases hA; rfl) h
  · exact triv (by intro A hA; cases hA) h
  · split at h
    · exact triv (by intro A hA; cases hA; rfl) h
    · split at h
      · exact triv (by intro A hA; cases hA) h
      · rename_i chain hchain
        obtain ⟨lk, _, hs, _⟩ := anchorChain_spec T.rounds.1 hchain
        exact dequeueAll_trace chain T h hs.ordered (fun e he => (mem_rangeRev.1 (hs.each e he).2.2.1).1)

/-- A step that keeps flags and does not lower the bottoms keeps the invariant. -/
theorem Trace.mono {L s s'} (T : Trace L s) (hr : RoundsOk s'.dag) (hc : s'.dag.committed = s.dag.committed)
    (hb : s.dag.chainBottom ≤ s'.dag.chainBottom) : Trace L s' :=
  ⟨hr, fun id h => by have := T.committed_low id (by rw [← hc]; exact h); omega,
   fun a ha => by have := T.emitted_low a ha; omega, T.sorted, fun id h => by rw [hc]; exact T.marked id h,
   T.nodup, T.ends, T.proof⟩

theorem step_trace {S c s op L} (T : Trace L s) : Trace (L ++ (step S c s op).1) (step S c s op).2 := by
  cases op with
  | commit t =>
    simp only [step]
    exact commit_trace T rfl
  | removeCommitted r =>
    simp only [step, List.append_nil]
    unfold removeCommitted
    split
    · exact T
    · rename_i d hd
      obtain ⟨h1, h2, h3, h4, h5, h6, _⟩ := drain_ok T.rounds hd
      refine T.mono h1 h3 ?_
      show s.dag.chainBottom ≤ d.chainBottom
      unfold Dag.chainBottom
      rw [h5]
      cases s.dag.lastProof <;> simp [h6]
  | dropUpto r =>
    simp only [step, List.append_nil]
    unfold dropUpto
    split
    · exact T
    · rename_i d hd
      obtain ⟨h1, h2, h3, h4, h5, h6, h7, _⟩ := drain_ok T.rounds hd
      refine T.mono ?_ h3 ?_
      · exact h1
      · show s.dag.chainBottom ≤ (keepProof s.dag.lastProof _).getD d.bottom
        unfold Dag.chainBottom keepProof
        cases hl : s.dag.lastProof with
        | none => simp [h6]
        | some p =>
          simp only [Option.filter, Option.getD_some]
          split
          · simp
          · rename_i hlt; simp at hlt; simp; omega
  | onceAfterGap =>
    simp only [step, List.append_nil]
    unfold onceAfterGap
    split <;> exact T.mono T.rounds rfl (Nat.le_refl _)
  | extend rounds =>
    simp only [step, List.append_nil]
    cases he : extend s rounds with
    | error e => exact T
    | ok s' =>
      obtain ⟨h1, h2, h3, h4, h5, h6, _⟩ := extend_ok T.rounds he
      refine T.mono h1 h3 ?_
      show s.dag.chainBottom ≤ s'.dag.chainBottom
      unfold Dag.chainBottom
      rw [h5, h6]
  | env view =>
    simp only [step, List.append_nil]
    exact T.mono T.rounds rfl (Nat.le_refl _)

theorem run_trace {S c} : ∀ (ops) {s L}, Trace L s → Trace (L ++ (run S c s ops).1) (run S c s ops).2
  | [], s, L, T => by simpa [run] using T
  | op :: ops, s, L, T => by
    have := run_trace (S := S) (c := c) ops (step_trace (S := S) (c := c) (op := op) T)
    rw [List.append_assoc] at this
    exact this

theorem init_trace (c g bottom gap view) : Trace [] (init c g bottom gap view) := by
  refine ⟨⟨contiguous_mk (s := bottom) (n := 1) rfl, by simp [init]⟩, ?_, by simp, by simp, ?_, by simp [committedIds],
    by simp, by simp⟩
  · intro id h; simp [init] at h
  · intro id h; simp [committedIds] at h

end Tycho.Commit
