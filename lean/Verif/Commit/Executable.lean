import Verif.Commit.Props

/-!
C25: executable anchors carry complete histories, also after a gap.
-/
namespace Tycho.Commit

/-- Calls as the engine makes them: committed rounds are removed only below anchors that were handed out
(engine/committer_task.rs:163-175), rounds are given up only at or above the bottom (a conflict is found in a round of the
DAG). `L`: the anchors handed out so far. -/
def Disciplined (S : Shuffler) (c : Conf) : List AnchorData → State → List Op → Prop
  | _, _, [] => True
  | L, s, op :: ops =>
    (match op with
      | .removeCommitted r => ∃ a ∈ L, a.anchor.id.round = r
      | .dropUpto r => s.dag.bottom ≤ r
      | _ => True) ∧
    Disciplined S c (L ++ (step S c s op).1) (step S c s op).2 ops

/-- A committer is created at the genesis, or, after a gap, with a bottom far enough above it. -/
def GoodStart (c : Conf) (bottom : Nat) (gap : Bool) : Prop :=
  bottom ≤ c.genesis + 1 ∨ (gap = true ∧ c.genesis + c.historyRounds < bottom)

/-- Whatever is not older than the first complete anchor still has all of its history in the DAG. -/
def Deep (c : Conf) (L : List AnchorData) (s : State) : Prop :=
  ∀ A, (∀ a ∈ L, a.anchor.id.round < A) → s.firstExecutable ≤ A + c.dedupRounds → s.dag.bottom ≤ historyLimit c A

theorem deep_init {c g bottom gap view} (h : GoodStart c bottom gap) : Deep c [] (init c g bottom gap view) := by
  intro A _ hA
  have hb : (init c g bottom gap view).dag.bottom = bottom := rfl
  rw [hb]
  unfold historyLimit
  rcases h with h | ⟨hg, h⟩
  · omega
  · simp only [init, hg, if_true] at hA
    split at hA <;> omega

theorem deep_step {S c L s op} (T : Trace L s) (h : Deep c L s)
    (hop : match op with
      | .removeCommitted r => ∃ a ∈ L, a.anchor.id.round = r
      | .dropUpto r => s.dag.bottom ≤ r
      | _ => True) : Deep c (L ++ (step S c s op).1) (step S c s op).2 := by
  cases op with
  | commit t =>
    have key : (commit S c s t).2.dag.rounds = s.dag.rounds ∧ (commit S c s t).2.firstExecutable = s.firstExecutable := by
      have dq : ∀ (items) {s r s2}, dequeueAll S c s items = (r, s2) →
          s2.dag.rounds = s.dag.rounds ∧ s2.firstExecutable = s.firstExecutable := by
        intro items
        induction items with
        | nil => intro s r s2 h; simp [dequeueAll] at h; simp [h.2]
        | cons e rest ih =>
          intro s r s2 h
          rw [dequeueAll] at h
          split at h
          · simp at h; simp [h.2]
          rename_i data s' hd
          obtain ⟨h1, h2, h3, h4, h5, h6, h7, _, h9, h10⟩ := dequeue_ok hd
          split at h
          · rename_i hrec; simp at h; obtain ⟨rfl, rfl⟩ := h
            obtain ⟨i1, i2⟩ := ih hrec
            rw [i1, i2, h10, h4]; exact ⟨rfl, rfl⟩
          · rename_i hrec; simp at h; obtain ⟨rfl, rfl⟩ := h
            obtain ⟨i1, i2⟩ := ih hrec
            rw [i1, i2, h10, h4]; exact ⟨rfl, rfl⟩
      unfold commit
      split
      · exact ⟨rfl, rfl⟩
      split
      · exact ⟨rfl, rfl⟩
      · exact ⟨rfl, rfl⟩
      split
      · exact ⟨rfl, rfl⟩
      split
      · exact ⟨rfl, rfl⟩
      exact dq _ rfl
    intro A hA hx
    simp only [step] at hx ⊢
    rw [key.2] at hx
    have hb : (commit S c s t).2.dag.bottom = s.dag.bottom := by unfold Dag.bottom; rw [key.1]
    rw [hb]
    exact h A (fun a ha => hA a (by simp [ha])) hx
  | removeCommitted r =>
    obtain ⟨a, ha, rfl⟩ := hop
    intro A hA hx
    simp only [step, List.append_nil] at hA hx ⊢
    unfold removeCommitted at hx ⊢
    cases hd : s.dag.drainUpto (a.anchor.id.round - c.historyRounds) with
    | error e => rw [hd] at hx; exact h A hA hx
    | ok d =>
      rw [hd] at hx
      have hold := h A hA hx
      have hlt := hA a ha
      have hbb : d.bottom ≤ max (a.anchor.id.round - c.historyRounds) s.dag.bottom := by
        unfold Dag.drainUpto at hd
        split at hd
        · rename_i hcond
          obtain ⟨x, hx1, hx2⟩ := List.any_eq_true.1 hcond.2
          obtain ⟨_, _, hm, _⟩ := roundsOk_trim (b := a.anchor.id.round - c.historyRounds) T.rounds hx1 (by simpa using hx2)
          obtain rfl := Except.ok.inj hd
          exact hm
        · simp at hd
      show d.bottom ≤ _
      unfold historyLimit at hold ⊢
      omega
  | dropUpto r =>
    intro A hA hx
    simp only [step, List.append_nil] at hA hx ⊢
    unfold dropUpto at hx ⊢
    cases hd : s.dag.drainUpto (min r s.dag.top) with
    | error e => rw [hd] at hx; exact h A hA hx
    | ok d =>
      rw [hd] at hx
      simp only [dropStep] at hx ⊢
      have hbb : d.bottom ≤ max (min r s.dag.top) s.dag.bottom := by
        unfold Dag.drainUpto at hd
        split at hd
        · rename_i hcond
          obtain ⟨x, hx1, hx2⟩ := List.any_eq_true.1 hcond.2
          obtain ⟨_, _, hm, _⟩ := roundsOk_trim (b := min r s.dag.top) T.rounds hx1 (by simpa using hx2)
          obtain rfl := Except.ok.inj hd
          exact hm
        · simp at hd
      have htop : s.dag.bottom ≤ s.dag.top := by
        obtain ⟨n, h0, hn⟩ := roundsOk_iff.1 T.rounds
        have hmem : s.dag.top ∈ s.dag.rounds := by
          unfold Dag.top
          cases hr : s.dag.rounds.getLast? with
          | none => simp at hr; exact absurd hr T.rounds.2
          | some z => rw [List.getLastD_eq_getLast?, hr]; exact List.mem_of_getLast? hr
        rw [hn, List.mem_range'_1] at hmem
        omega
      simp only at hop
      show d.bottom ≤ _
      unfold historyLimit
      omega
  | onceAfterGap =>
    intro A hA hx
    simp only [step, List.append_nil] at hA hx ⊢
    unfold onceAfterGap at hx ⊢
    split at hx
    · rename_i hg; rw [if_pos hg]; exact h A hA hx
    · rename_i hg; rw [if_neg hg]; exact h A hA hx
  | extend rounds =>
    intro A hA hx
    simp only [step, List.append_nil] at hA hx ⊢
    have hb : (keepOn s (extend s rounds)).dag.bottom = s.dag.bottom := by
      unfold extend
      split
      · rfl
      split
      · simp only [keepOn, Dag.bottom]
        cases hr : s.dag.rounds with
        | nil => exact absurd hr T.rounds.2
        | cons x xs => rfl
      · rfl
    have he : (keepOn s (extend s rounds)).firstExecutable = s.firstExecutable := by
      unfold extend
      split
      · rfl
      split
      · rfl
      · rfl
    rw [hb]; rw [he] at hx
    exact h A hA hx
  | env v =>
    intro A hA hx
    simp only [step, List.append_nil] at hA hx ⊢
    exact h A hA hx

theorem deep_run {S c} : ∀ (ops) {L s}, Trace L s → Deep c L s → Disciplined S c L s ops →
    Deep c (L ++ (run S c s ops).1) (run S c s ops).2
  | [], L, s, _, h, _ => by simpa [run] using h
  | op :: ops, L, s, T, h, hd => by
    have := deep_run ops (step_trace (S := S) (c := c) (op := op) T) (deep_step T h hd.1) hd.2
    simpa [run, List.append_assoc] using this

/-- C25. In a run of the engine, also across gaps: an anchor handed out as executable, or less than `dedupRounds` rounds below
the first executable one, has its history complete: every uncommitted point reachable from it, down to the depth limit, is in
it. -/
theorem executable_complete {S c g bottom gap view} (ops : List Op) (hg : GoodStart c bottom gap)
    (hd : Disciplined S c [] (init c g bottom gap view) ops) {s} (hs : s = (run S c (init c g bottom gap view) ops).2)
    (hu : DigestUnique s.dag) {t A1 a A2 s'} (h : commit S c s t = (.ok (A1 ++ a :: A2), s'))
    (hx : a.executable = true ∨ s.firstExecutable ≤ a.anchor.id.round + c.dedupRounds) :
    ∀ id, Reach (s.dag.after A1) a.anchor.id id → (s.dag.after A1).committed id = false →
      historyLimit c a.anchor.id.round ≤ id.round → id ∈ a.history.map Point.id := by
  have T := run_trace (S := S) (c := c) ops (init_trace c g bottom gap view)
  have D := deep_run (S := S) (c := c) ops (init_trace c g bottom gap view) (deep_init hg) hd
  rw [← hs] at T D
  simp only [List.nil_append] at T D
  have hre : Reachable S c s := ⟨g, bottom, gap, view, ops, hs⟩
  have T' := step_trace (S := S) (c := c) (op := .commit t) T
  simp only [step, h, handed] at T'
  have hlow : ∀ b ∈ (run S c (init c g bottom gap view) ops).1, b.anchor.id.round < a.anchor.id.round := by
    intro b hb
    exact (List.pairwise_append.1 T'.sorted).2.2 b hb a (by simp)
  have hfe : s.firstExecutable ≤ a.anchor.id.round + c.dedupRounds := by
    rcases hx with hx | hx
    · obtain ⟨_, _, _, items, hchain, hdeq⟩ := commit_nonempty h (by simp)
      obtain ⟨lk, _, spec, _⟩ := anchorChain_spec T.rounds.1 hchain
      have := (dequeueAll_links items hdeq spec.linked spec.ordered).2.2.1 a (by simp)
      rw [hx] at this
      have := of_decide_eq_true this.symm
      omega
    · exact hx
  have hbot := D _ hlow hfe
  intro id h1 h2 h3
  exact ((commit_history hre hu h).2.1 id).2 ⟨h1, h2, h3, by
    have : (s.dag.after A1).bottom = s.dag.bottom := rfl
    omega⟩

end Tycho.Commit
