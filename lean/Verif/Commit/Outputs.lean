import Verif.Commit.Task
import Verif.Commit.Agree

/-!
Every handed-out anchor, seen from the state before the call (C05), and two nodes compared (C24).
-/
namespace Tycho.Commit

/-- The local DAG once the histories of `L` are marked as committed. -/
def Dag.after (d : Dag) (L : List AnchorData) : Dag :=
  { d with committed := fun id => d.committed id || decide (id ∈ committedIds L) }

theorem after_nil (d : Dag) : d.after [] = d := by
  cases d; simp [Dag.after, committedIds]

theorem committedIds_cons (a L) : committedIds (a :: L) = a.history.map Point.id ++ committedIds L := by
  simp [committedIds]

theorem committedIds_append (A B) : committedIds (A ++ B) = committedIds A ++ committedIds B := by
  simp [committedIds, List.flatMap_append]

theorem gather_congr {S : Shuffler} {c : Conf} {d d' : Dag} {fb : Nat} {a : Point} (hv : d'.view = d.view)
    (hc : d'.committed = d.committed) (hr : d'.rounds = d.rounds) : gather S c d' fb a = gather S c d fb a := by
  unfold gather
  have : d'.rangeRev (historyLimit c a.id.round) a.id.round = d.rangeRev (historyLimit c a.id.round) a.id.round := by
    unfold Dag.rangeRev; rw [hr]
  rw [this, gatherLoop_congr S hv hc]

/-- Every anchor of a successful batch was gathered in the DAG where the histories of the earlier ones are committed. -/
theorem dequeueAll_each {S c} : ∀ (items) {s A1 a A2 s2}, dequeueAll S c s items = (.ok (A1 ++ a :: A2), s2) →
    ∃ e ∈ items, a.anchor = e.anchor ∧ a.proof = e.proof.id ∧
      gather S c (s.dag.after A1) s.fullBottom a.anchor = .ok a.history ∧
      ∀ p ∈ a.history, p.body.certified = true
  | [], s, A1, a, A2, s2, h => by simp [dequeueAll] at h
  | e :: rest, s, A1, a, A2, s2, h => by
    rw [dequeueAll] at h
    split at h
    · simp at h
    rename_i data s' hd
    split at h
    · simp at h
    rename_i l s'' hrec
    simp at h
    obtain ⟨h, rfl⟩ := h
    obtain ⟨h1, h2, h3, h4, h5, h6, h7, _, h9, h10⟩ := dequeue_ok hd
    cases A1 with
    | nil =>
      simp at h
      obtain ⟨rfl, rfl⟩ := h
      exact ⟨e, by simp, h5, h6, by rw [after_nil, h5]; exact h1, fun p hp => (h3 p hp).1⟩
    | cons b A1 =>
      simp at h
      obtain ⟨rfl, rfl⟩ := h
      obtain ⟨e', he', k1, k2, k3, k4⟩ := dequeueAll_each rest hrec
      refine ⟨e', by simp [he'], k1, k2, ?_, k4⟩
      rw [← k3, h9]
      apply gather_congr
      · rw [h4]; rfl
      · funext id
        rw [h4]
        simp only [Dag.after, committedIds_cons, List.mem_append, Bool.or_assoc]
        congr 1
        rw [Bool.eq_iff_iff]
        simp [List.any_eq_true]
      · rw [h4]; rfl

/-- The committed flags after a batch. -/
theorem dequeueAll_committed {S c} : ∀ (items) {s A s2}, dequeueAll S c s items = (.ok A, s2) →
    ∀ id, s2.dag.committed id = true ↔ s.dag.committed id = true ∨ id ∈ committedIds A
  | [], s, A, s2, h, id => by
    simp [dequeueAll] at h; obtain ⟨rfl, rfl⟩ := h; simp [committedIds]
  | e :: rest, s, A, s2, h, id => by
    rw [dequeueAll] at h
    split at h
    · simp at h
    rename_i data s' hd
    split at h
    · simp at h
    rename_i l s'' hrec
    simp at h
    obtain ⟨rfl, rfl⟩ := h
    obtain ⟨h1, h2, h3, h4, _⟩ := dequeue_ok hd
    rw [dequeueAll_committed rest hrec id, h4, committedIds_cons]
    simp [List.any_eq_true, or_assoc]

theorem commit_each {S c s t A1 a A2 s2} (hr : RoundsOk s.dag) (h : commit S c s t = (.ok (A1 ++ a :: A2), s2)) :
    a.anchor.id.round ∈ s.dag.rounds ∧ s.dag.point a.anchor.id = some a.anchor ∧
      gather S c (s.dag.after A1) s.fullBottom a.anchor = .ok a.history ∧
      ∀ p ∈ a.history, p.body.certified = true := by
  obtain ⟨_, _, _, items, hchain, hdeq⟩ := commit_nonempty h (by simp)
  obtain ⟨lk, _, spec, _⟩ := anchorChain_spec hr.1 hchain
  obtain ⟨e, he, k1, _, k3, k4⟩ := dequeueAll_each items hdeq
  obtain ⟨g, _, hm, _⟩ := spec.each e he
  exact ⟨by rw [k1]; exact (mem_rangeRev.1 hm).1, by rw [k1]; exact g.anchor, k3, k4⟩

theorem commit_committed {S c s t A s2} (h : commit S c s t = (.ok A, s2)) :
    (∀ id, s2.dag.committed id = true ↔ s.dag.committed id = true ∨ id ∈ committedIds A) := by
  by_cases hA : A = []
  · subst hA
    unfold commit at h
    split at h
    · simp at h; subst h; simp [committedIds]
    split at h
    · simp at h; subst h; simp [committedIds]
    · simp at h
    split at h
    · simp at h; subst h; simp [committedIds]
    split at h
    · simp at h
    exact dequeueAll_committed _ h
  · obtain ⟨_, _, _, items, _, hdeq⟩ := commit_nonempty h hA
    exact dequeueAll_committed _ hdeq

/-! ### Two nodes -/

/-- What the authors signed: the content behind every point id. A local view may miss points, never alters them. -/
def Faithful (U : PointId → Body) (view : PointId → Option Body) : Prop :=
  ∀ id b, view id = some b → (∀ x, x ∈ b.includes ↔ x ∈ (U id).includes) ∧ (∀ x, x ∈ b.witness ↔ x ∈ (U id).witness)

/-- A digest identifies its author among the ids linked in one round. -/
def DigestsNameAuthors (U : PointId → Body) : Prop :=
  ∀ p q p' q', LinkTo p (U p) q → LinkTo p' (U p') q' → q.round = q'.round → q.digest = q'.digest → q = q'

/-- A quiet run: no call to commit fails, no rounds are given up, and all the views are faithful. -/
def Quiet (S : Shuffler) (c : Conf) (U : PointId → Body) : State → List Op → Prop
  | _, [] => True
  | s, op :: ops =>
    (match op with
      | .commit t => ∃ A, (commit S c s t).1 = .ok A
      | .dropUpto _ => False
      | .env v => Faithful U v
      | _ => True) ∧
    Quiet S c U (step S c s op).2 ops

theorem faithful_unique {U view} {d : Dag} (hd : d.view = view) (hf : Faithful U view) (hu : DigestsNameAuthors U) :
    DigestUnique d := by
  subst hd
  intro p b q p' b' q' hb hb' hl hl' hr hdg
  have tr : ∀ {p b q}, d.view p = some b → LinkTo p b q → LinkTo p (U p) q := by
    intro p b q hb hl
    obtain ⟨i, w⟩ := hf p b hb
    rcases hl with ⟨h1, h2⟩ | ⟨h1, h2⟩
    · exact Or.inl ⟨(i _).1 h1, h2⟩
    · exact Or.inr ⟨(w _).1 h1, h2⟩
  exact hu p q p' q' (tr hb hl) (tr hb' hl') hr hdg

theorem faithful_same {U} {d d' : Dag} (h : Faithful U d.view) (h' : Faithful U d'.view) : SameContent d d' := by
  intro id b1 b2 h1 h2
  obtain ⟨i, w⟩ := h id b1 h1
  obtain ⟨i', w'⟩ := h' id b2 h2
  exact ⟨fun x => (i x).trans (i' x).symm, fun x => (w x).trans (w' x).symm⟩

/-- How every anchor of a quiet run was made. -/
def MadeAfter (S : Shuffler) (c : Conf) (U : PointId → Body) (P : List AnchorData) (a : AnchorData) : Prop :=
  ∃ (d : Dag) (fb : Nat), gather S c d fb a.anchor = .ok a.history ∧ Faithful U d.view ∧ fb ≤ c.genesis + 1 ∧
    ∀ id, d.committed id = decide (id ∈ committedIds P)

theorem quiet_made {S c U} : ∀ (ops) {s L}, Trace L s → Faithful U s.dag.view → s.fullBottom ≤ c.genesis + 1 →
    (∀ id, s.dag.committed id = true ↔ id ∈ committedIds L) → Quiet S c U s ops →
    ∀ P a Q, (run S c s ops).1 = P ++ a :: Q → MadeAfter S c U (L ++ P) a
  | [], s, L, _, _, _, _, _, P, a, Q, h => by simp [run] at h
  | op :: ops, s, L, T, hf, hfb, hcm, hq, P, a, Q, h => by
    obtain ⟨hop, hrest⟩ := hq
    have T' := step_trace (S := S) (c := c) (op := op) T
    have key : Faithful U (step S c s op).2.dag.view ∧ (step S c s op).2.fullBottom ≤ c.genesis + 1 ∧
        (∀ id, (step S c s op).2.dag.committed id = true ↔ id ∈ committedIds (L ++ (step S c s op).1)) ∧
        ∀ P a Q, (step S c s op).1 = P ++ a :: Q → MadeAfter S c U (L ++ P) a := by
      cases op with
      | commit t =>
        obtain ⟨A, hA⟩ := hop
        have hc : commit S c s t = (.ok A, (commit S c s t).2) := by rw [← hA]
        have hkeep : (commit S c s t).2.dag.view = s.dag.view ∧ (commit S c s t).2.fullBottom = s.fullBottom := by
          have key : ∀ (items) {s A s2}, dequeueAll S c s items = (.ok A, s2) →
              s2.dag.view = s.dag.view ∧ s2.fullBottom = s.fullBottom := by
            intro items
            induction items with
            | nil => intro s A s2 h; simp [dequeueAll] at h; simp [h.2]
            | cons e rest ih =>
              intro s A s2 h
              rw [dequeueAll] at h
              split at h
              · simp at h
              rename_i data s' hd
              split at h
              · simp at h
              rename_i l s'' hrec
              simp at h
              obtain ⟨rfl, rfl⟩ := h
              obtain ⟨h1, h2, h3, h4, h5, h6, h7, _, h9, h10⟩ := dequeue_ok hd
              obtain ⟨i1, i2⟩ := ih hrec
              rw [i1, i2, h9, h4]
              exact ⟨rfl, rfl⟩
          revert hc
          generalize (commit S c s t).2 = s2
          intro hc
          unfold commit at hc
          split at hc
          · simp at hc; simp [hc.2]
          split at hc
          · simp at hc; simp [hc.2]
          · simp at hc
          split at hc
          · simp at hc; simp [hc.2]
          split at hc
          · simp at hc
          exact key _ hc
        refine ⟨by simp only [step, hkeep.1]; exact hf, by simp only [step, hkeep.2]; exact hfb, ?_, ?_⟩
        · intro id
          simp only [step, hA, handed]
          rw [commit_committed hc id, committedIds_append, List.mem_append, hcm]
        · intro P a Q hP
          simp only [step, hA, handed] at hP
          subst hP
          obtain ⟨_, _, hg, _⟩ := commit_each T.rounds hc
          refine ⟨_, _, hg, hf, hfb, ?_⟩
          intro id
          rw [committedIds_append]
          simp only [Dag.after, List.mem_append]
          rw [Bool.eq_iff_iff]
          simp [hcm id]
      | dropUpto r => exact absurd hop id
      | removeCommitted r =>
        refine ⟨?_, ?_, ?_, by intro P a Q h; simp [step] at h⟩
        all_goals
          simp only [step, removeCommitted]
          cases hd : s.dag.drainUpto (r - c.historyRounds) with
          | error e => simpa [keepOn] using (by first | exact hf | exact hfb | exact hcm)
          | ok d =>
            unfold Dag.drainUpto at hd
            split at hd
            · simp at hd; subst hd
              simpa [keepOn] using (by first | exact hf | exact hfb | exact hcm)
            · simp at hd
      | onceAfterGap =>
        refine ⟨?_, ?_, ?_, by intro P a Q h; simp [step] at h⟩
        all_goals
          simp only [step, onceAfterGap, List.append_nil]
          split
          · first | exact hf | exact hfb | exact hcm
          · first | exact hf | exact hfb | exact hcm
      | extend rounds =>
        have he : (keepOn s (extend s rounds)).dag.view = s.dag.view ∧
            (keepOn s (extend s rounds)).fullBottom = s.fullBottom ∧
            (keepOn s (extend s rounds)).dag.committed = s.dag.committed := by
          unfold extend
          split
          · exact ⟨rfl, rfl, rfl⟩
          split
          · exact ⟨rfl, rfl, rfl⟩
          · exact ⟨rfl, rfl, rfl⟩
        refine ⟨?_, ?_, ?_, by intro P a Q h; simp [step] at h⟩
        · simp only [step, he.1]; exact hf
        · simp only [step, he.2.1]; exact hfb
        · simp only [step, he.2.2, List.append_nil]; exact hcm
      | env v => exact ⟨hop, hfb, by simpa [step] using hcm, by intro P a Q h; simp [step] at h⟩
    obtain ⟨k1, k2, k3, k4⟩ := key
    simp only [run] at h
    rcases List.append_eq_append_iff.1 h with ⟨x, rfl, hx⟩ | ⟨x, hx, hy⟩
    · rw [← List.append_assoc]
      exact quiet_made ops T' k1 k2 k3 hrest x a Q hx
    · cases x with
      | nil =>
        simp at hx hy
        have := quiet_made ops T' k1 k2 k3 hrest [] a Q hy.symm
        simpa [hx] using this
      | cons y ys =>
        simp at hy
        obtain ⟨rfl, hy⟩ := hy
        exact k4 P a ys hx

/-- Two lists of anchors made in the same universe, with the same anchors: they have the same histories. -/
theorem made_agree {S c U} (hu : DigestsNameAuthors U) {L1 L2 : List AnchorData}
    (h1 : ∀ P a Q, L1 = P ++ a :: Q → MadeAfter S c U P a) (h2 : ∀ P a Q, L2 = P ++ a :: Q → MadeAfter S c U P a)
    (he : L1.map (fun a => a.anchor.id) = L2.map (fun a => a.anchor.id)) :
    L1.map (fun a => a.history.map Point.id) = L2.map (fun a => a.history.map Point.id) := by
  induction L1 using List.reverseRecOn generalizing L2 with
  | nil => simp at he; subst he; rfl
  | append_singleton P a ih =>
    rcases List.eq_nil_or_concat L2 with rfl | ⟨P2, b, rfl⟩
    · simp at he
    simp only [List.concat_eq_append, List.map_append, List.map_cons, List.map_nil] at he ⊢
    obtain ⟨e1, e2⟩ := List.append_inj' he rfl
    simp at e2
    have hi := ih (L2 := P2) (fun P' x Q hx => h1 P' x (Q ++ [a]) (by rw [hx]; simp))
      (fun P' x Q hx => h2 P' x (Q ++ [b]) (by rw [hx]; simp)) e1
    rw [hi]
    congr 2
    obtain ⟨d1, fb1, g1, f1, b1, c1⟩ := h1 P a [] rfl
    obtain ⟨d2, fb2, g2, f2, b2, c2⟩ := h2 P2 b [] (by simp)
    have hids : committedIds P = committedIds P2 := by
      have : ∀ L : List AnchorData, committedIds L = (L.map (fun a => a.history.map Point.id)).flatten := by
        intro L; simp [committedIds, List.flatMap]
      rw [this, this, hi]
    exact history_agrees e2 g1 g2 (by unfold historyLimit; omega) (by unfold historyLimit; omega) (faithful_same f1 f2)
      (faithful_unique rfl f1 hu) (faithful_unique rfl f2 hu) (fun id _ => by rw [c1, c2, hids])

end Tycho.Commit
