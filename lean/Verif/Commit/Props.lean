import Verif.Commit.OneChain

/-!
Final statements for the mempool committer: C05, C06, C07, C24.
-/
namespace Tycho.Commit

open Relation

/-- Any state a committer can be in: some calls were made since it was created. -/
def Reachable (S : Shuffler) (c : Conf) (s : State) : Prop :=
  ∃ g bottom gap view ops, s = (run S c (init c g bottom gap view) ops).2

theorem reachable_trace {S c s} (h : Reachable S c s) : ∃ L, Trace L s := by
  obtain ⟨g, b, gap, v, ops, rfl⟩ := h
  exact ⟨_, run_trace ops (init_trace c g b gap v)⟩

/-- The rounds of the DAG never have holes. -/
theorem run_contiguous {S c s} (h : Reachable S c s) : Contiguous s.dag ∧ s.dag.rounds ≠ [] := by
  obtain ⟨L, T⟩ := reachable_trace h
  exact T.rounds

/-! ### C05 -/

/-- C05. For every anchor `a` of a successful call of `commit` (`A1`: the anchors of the same call before it): its history has
no point twice; consists exactly of the points of the local DAG reachable from the anchor by links of uncommitted points, that
are uncommitted, within the depth limit and not below the DAG; all of them certified and as in the local DAG; a point never
comes before a point it links to; the anchor comes last. When the DAG is complete at this depth, nothing is cut off at its
bottom. -/
theorem commit_history {S c s t A1 a A2 s'} (hs : Reachable S c s) (hu : DigestUnique s.dag)
    (h : commit S c s t = (.ok (A1 ++ a :: A2), s')) :
    (a.history.map Point.id).Nodup ∧
    (∀ id, id ∈ a.history.map Point.id ↔
      InHistory (s.dag.after A1) (historyLimit c a.anchor.id.round) a.anchor.id id) ∧
    (∀ p ∈ a.history, s.dag.point p.id = some p ∧ p.body.certified = true) ∧
    (a.history.Pairwise fun p q => ¬ LinkTo p.id p.body q.id) ∧
    a.history.getLast? = some a.anchor ∧
    (s.fullBottom ≤ historyLimit c a.anchor.id.round → ∀ id, Reach (s.dag.after A1) a.anchor.id id →
      (s.dag.after A1).committed id = false → historyLimit c a.anchor.id.round ≤ id.round →
      id ∈ a.history.map Point.id) := by
  obtain ⟨hr, hne⟩ := run_contiguous hs
  obtain ⟨k1, k2, k3, k4⟩ := commit_each ⟨hr, hne⟩ h
  have hc : Contiguous (s.dag.after A1) := hr
  have hu' : DigestUnique (s.dag.after A1) := hu
  obtain ⟨L, T⟩ := reachable_trace hs
  -- the anchor itself is not committed yet
  have hfresh : (s.dag.after A1).committed a.anchor.id = false := by
    have T' := step_trace (S := S) (c := c) (op := .commit t) T
    simp only [step, h, handed] at T'
    have hsort := (List.pairwise_append.1 (List.pairwise_append.1 T'.sorted).2.1).2.2
    have hlow := T.committed_low a.anchor.id
    obtain ⟨_, _, _, items, hchain, hdeq⟩ := commit_nonempty h (by simp)
    obtain ⟨lk, _, spec, _⟩ := anchorChain_spec hr hchain
    obtain ⟨e, he, q1, _⟩ := dequeueAll_each items hdeq
    have hge := (mem_rangeRev.1 (spec.each e he).2.2.1).2.1
    rw [← q1] at hge
    have hnc : s.dag.committed a.anchor.id = false := by
      cases hcc : s.dag.committed a.anchor.id with
      | false => rfl
      | true => have := hlow hcc; omega
    have hnm : a.anchor.id ∉ committedIds A1 := by
      intro hmem
      have hnd := T'.nodup
      rw [committedIds_append, committedIds_append, committedIds_cons] at hnd
      obtain ⟨p, hp, hpi⟩ := T'.ends a (by simp)
      have hin : a.anchor.id ∈ a.history.map Point.id := List.mem_map.2 ⟨p, List.mem_of_getLast? hp, hpi⟩
      have hdis := (List.nodup_append.1 (List.nodup_append.1 hnd).2.1).2.2
      exact hdis _ hmem _ (List.mem_append.2 (Or.inl hin)) rfl
    simp [Dag.after, hnc, hnm]
  refine ⟨history_nodup k3, ?_, ?_, history_causal k3, ?_, ?_⟩
  · intro id
    constructor
    · intro hid
      obtain ⟨p, hp, rfl⟩ := List.mem_map.1 hid
      exact (history_sound k3 hc p hp).2
    · intro hid
      obtain ⟨p, hp, hpi⟩ := history_complete k3 hc hu' k1 id hid
      exact List.mem_map.2 ⟨p, hp, hpi⟩
  · intro p hp
    exact ⟨(history_sound k3 hc p hp).1, k4 p hp⟩
  · obtain ⟨p, hp, _, hpp⟩ := history_anchor_last k3 k1 hfresh
    have : s.dag.point a.anchor.id = some p := hpp
    rw [k2] at this
    rw [hp, Option.some.inj this]
  · intro hfb id h1 h2 h3
    obtain ⟨p, hp, hpi⟩ := history_full k3 hc hu' k1 hfb id h1 h2 h3
    exact List.mem_map.2 ⟨p, hp, hpi⟩

/-! ### C06 -/

/-- C06. Over any run no point is handed out twice (neither in one history nor in two), and all that was handed out counts as
committed from then on. -/
theorem committed_once {S c g bottom gap view} (ops : List Op) :
    (committedIds (run S c (init c g bottom gap view) ops).1).Nodup ∧
    ∀ id ∈ committedIds (run S c (init c g bottom gap view) ops).1,
      (run S c (init c g bottom gap view) ops).2.dag.committed id = true := by
  have T := run_trace (S := S) (c := c) ops (init_trace c g bottom gap view)
  simp only [List.nil_append] at T
  exact ⟨T.nodup, T.marked⟩

/-- A committed point is never handed out again. -/
theorem committed_stays_out {S c s t A s'} (hs : Reachable S c s) (h : commit S c s t = (.ok A, s')) :
    ∀ id ∈ committedIds A, s.dag.committed id = false := by
  intro id hid
  obtain ⟨hr, hne⟩ := run_contiguous hs
  unfold committedIds at hid
  obtain ⟨a, ha, hida⟩ := List.mem_flatMap.1 hid
  obtain ⟨A1, A2, rfl⟩ := List.append_of_mem ha
  obtain ⟨k1, k2, k3, k4⟩ := commit_each ⟨hr, hne⟩ h
  obtain ⟨p, hp, rfl⟩ := List.mem_map.1 hida
  have := (history_sound k3 (show Contiguous (s.dag.after A1) from hr) p hp).2.2.1
  simp [Dag.after] at this
  exact this.1

/-! ### C07 -/

/-- C07. Anchors are handed out in strictly increasing rounds, each with its history ending in it and its proof just above. -/
theorem anchors_increase {S c g bottom gap view} (ops : List Op) :
    ((run S c (init c g bottom gap view) ops).1.Pairwise fun a b => a.anchor.id.round < b.anchor.id.round) ∧
    ∀ a ∈ (run S c (init c g bottom gap view) ops).1,
      a.proof.round = a.anchor.id.round + 1 ∧ ∃ p, a.history.getLast? = some p ∧ p.id = a.anchor.id := by
  have T := run_trace (S := S) (c := c) ops (init_trace c g bottom gap view)
  simp only [List.nil_append] at T
  exact ⟨T.sorted, fun a ha => ⟨T.proof a ha, T.ends a ha⟩⟩

/-- C07. Every anchor names exactly the anchor handed out just before it (`FollowsOk`), as long as all the useful triggers
belong to one chain of proofs. -/
theorem anchors_linked {S c g bottom gap view} (ops : List Op)
    (h : Consistent S c (init c g bottom gap view) none ops) :
    (run S c (init c g bottom gap view) ops).1.IsChain FollowsOk := by
  have := ghost_run (S := S) (c := c) ops (init_trace c g bottom gap view) (by simp) (by simp) rfl h
  simpa using this

/-- C07. Which triggers of a chain are used, and how many at a time, does not matter: whenever committing on the last trigger
alone succeeds, committing on any sequence of earlier triggers of its chain first gives in total the same anchors (same
histories, same links) and the same state. -/
theorem schedule_independent {S c s t A s'} (ts : List Point) (hs : Reachable S c s)
    (h : commit S c s t = (.ok A, s'))
    (hts : ∀ x ∈ ts, filterTrigger x = .trigger ∧ ∃ a ∈ A, x.prevId = some a.proof) :
    commitAll S c s (ts ++ [t]) = (.ok A, s') :=
  schedule_aux ts (run_contiguous hs) h (fun x hx => Or.inr (hts x hx))

/-- The same for the engine task, which removes the committed rounds after every commit. -/
theorem task_schedule_independent {S c s t A s'} (ts : List Point) (hs : Reachable S c s)
    (h : task S c s t = (.ok A, s'))
    (hts : ∀ x ∈ ts, filterTrigger x = .trigger ∧ ∃ a ∈ A, x.prevId = some a.proof) :
    taskAll S c s (ts ++ [t]) = (.ok A, s') := by
  have hr := run_contiguous hs
  have hc : ∃ s1, commit S c s t = (.ok A, s1) ∧ s' = trim s1 (bound c A) := by
    cases hcm : commit S c s t with
    | mk r s1 =>
      cases r with
      | error e => unfold task at h; rw [hcm] at h; simp at h
      | ok B =>
        have := task_of_commit hr hcm
        rw [h] at this
        simp at this
        exact ⟨s1, by rw [this.1], by rw [this.2, this.1]⟩
  obtain ⟨s1, hc, rfl⟩ := hc
  exact task_schedule_aux ts hr hc (fun x hx => Or.inr (hts x hx))

/-! ### C24 -/

/-- C24. Two nodes that started from the genesis, in whatever order they learned points and used triggers: wherever they hand
out the same anchors, the histories are equal, point by point and in the same order. -/
theorem nodes_same_histories {S c U g1 g2 b1 b2 v1 v2} (hu : DigestsNameAuthors U) (ops1 ops2 : List Op)
    (hb1 : b1 ≤ c.genesis + 1) (hb2 : b2 ≤ c.genesis + 1) (f1 : Faithful U v1) (f2 : Faithful U v2)
    (q1 : Quiet S c U (init c g1 b1 false v1) ops1) (q2 : Quiet S c U (init c g2 b2 false v2) ops2)
    {P1 P2 Q1 Q2} (e1 : (run S c (init c g1 b1 false v1) ops1).1 = P1 ++ Q1)
    (e2 : (run S c (init c g2 b2 false v2) ops2).1 = P2 ++ Q2)
    (he : P1.map (fun a => a.anchor.id) = P2.map (fun a => a.anchor.id)) :
    P1.map (fun a => a.history.map Point.id) = P2.map (fun a => a.history.map Point.id) := by
  have full : ∀ {g b v}, b ≤ c.genesis + 1 → Faithful U v → ∀ {ops L Q},
      Quiet S c U (init c g b false v) ops → (run S c (init c g b false v) ops).1 = L ++ Q →
      ∀ P a R, L = P ++ a :: R → MadeAfter S c U P a := by
    intro g b v hb f ops L Q q e P a R hL
    have := quiet_made (S := S) (c := c) (U := U) ops (init_trace c g b false v) f (by
      simp only [init]
      split <;> omega) (by intro id; simp [init, committedIds]) q P a (R ++ Q) (by rw [e, hL]; simp)
    simpa using this
  exact made_agree (S := S) (c := c) hu (full hb1 f1 q1 e1) (full hb2 f2 q2 e2) he

/-- C24. Two nodes that follow one chain of anchor proofs from the genesis: if the last proof used by the first node is on the
chain of the last proof used by the second one, then what the first node has handed out (anchors, proofs and histories) is a
prefix of what the second one has. -/
theorem nodes_agree {S c U chain prev g1 g2 b1 b2 v1 v2} (hu : DigestsNameAuthors U) (hdown : Down chain)
    (ops1 ops2 : List Op) (hb1 : b1 ≤ c.genesis + 1) (hb2 : b2 ≤ c.genesis + 1)
    (f1 : Faithful U v1) (f2 : Faithful U v2) (l1 : Loyal chain prev v1) (l2 : Loyal chain prev v2)
    (q1 : Quiet S c U (init c g1 b1 false v1) ops1) (q2 : Quiet S c U (init c g2 b2 false v2) ops2)
    (o1 : OneChain S c chain prev (init c g1 b1 false v1) none ops1)
    (o2 : OneChain S c chain prev (init c g2 b2 false v2) none ops2)
    (hend : ∀ a b, (run S c (init c g1 b1 false v1) ops1).1.getLast? = some a →
      (run S c (init c g2 b2 false v2) ops2).1.getLast? = some b →
      ReflTransGen (fun p q => chain p = some q) b.proof a.proof)
    (hsome : (run S c (init c g2 b2 false v2) ops2).1 = [] → (run S c (init c g1 b1 false v1) ops1).1 = []) :
    (run S c (init c g1 b1 false v1) ops1).1.map (fun a => (a.anchor.id, a.proof, a.history.map Point.id)) <+:
    (run S c (init c g2 b2 false v2) ops2).1.map (fun a => (a.anchor.id, a.proof, a.history.map Point.id)) := by
  have strand : ∀ {g b v ops}, b ≤ c.genesis + 1 → Loyal chain prev v →
      OneChain S c chain prev (init c g b false v) none ops →
      Strand c chain prev (run S c (init c g b false v) ops).1 := by
    intro g b v ops hb hl ho
    have := run_strand (S := S) hdown ops (init_trace c g b false v) hl
      ⟨by simp, by simp, by simp, by simp⟩ (by simp) (by intro _; simpa [init, Dag.chainBottom, Dag.bottom] using hb) rfl ho
    simpa using this
  have s1 := strand hb1 l1 o1
  have s2 := strand hb2 l2 o2
  have hpre : (run S c (init c g1 b1 false v1) ops1).1.map AnchorData.proof <+:
      (run S c (init c g2 b2 false v2) ops2).1.map AnchorData.proof := by
    apply strand_prefix (c := c) hdown
    · rw [List.isChain_map]; exact s1.links
    · rw [List.isChain_map]; exact s2.links
    · intro a ha
      rw [List.head?_map] at ha
      obtain ⟨x, hx, rfl⟩ := Option.map_eq_some_iff.1 ha
      exact s1.first x hx
    · intro a ha
      rw [List.head?_map] at ha
      obtain ⟨x, hx, rfl⟩ := Option.map_eq_some_iff.1 ha
      exact s2.first x hx
    · intro a ha
      obtain ⟨x, hx, rfl⟩ := List.mem_map.1 ha
      exact s1.above x hx
    · intro a ha
      obtain ⟨x, hx, rfl⟩ := List.mem_map.1 ha
      exact s2.above x hx
    · intro a b ha hb
      rw [List.getLast?_map] at ha hb
      obtain ⟨x, hx, rfl⟩ := Option.map_eq_some_iff.1 ha
      obtain ⟨y, hy, rfl⟩ := Option.map_eq_some_iff.1 hb
      exact hend x y hx hy
    · intro h
      simp at h ⊢
      exact hsome h
  generalize hL1 : (run S c (init c g1 b1 false v1) ops1).1 = L1 at *
  generalize hL2 : (run S c (init c g2 b2 false v2) ops2).1 = L2 at *
  obtain ⟨P, Q, rfl, hP⟩ : ∃ P Q, L2 = P ++ Q ∧ P.map AnchorData.proof = L1.map AnchorData.proof := by
    refine ⟨L2.take L1.length, L2.drop L1.length, (List.take_append_drop _ _).symm, ?_⟩
    rw [List.map_take]
    have := List.prefix_iff_eq_take.1 hpre
    rw [List.length_map] at this
    exact this.symm
  have hanch : L1.map (fun a => a.anchor.id) = P.map (fun a => a.anchor.id) := by
    have m1 : L1.map (fun a => some a.anchor.id) = (L1.map AnchorData.proof).map prev := by
      rw [List.map_map]; apply List.map_congr_left; intro a ha; exact (s1.prev a ha).symm
    have m2 : P.map (fun a => some a.anchor.id) = (P.map AnchorData.proof).map prev := by
      rw [List.map_map]; apply List.map_congr_left; intro a ha; exact (s2.prev a (by simp [ha])).symm
    rw [hP, ← m1] at m2
    have := congrArg (List.filterMap id) m2
    simpa [List.filterMap_map, Function.comp_def] using this.symm
  have hh := nodes_same_histories (Q1 := []) (Q2 := Q) hu ops1 ops2 hb1 hb2 f1 f2 q1 q2 (by rw [hL1]; simp) hL2 hanch
  have : L1.map (fun a => (a.anchor.id, a.proof, a.history.map Point.id)) =
      P.map (fun a => (a.anchor.id, a.proof, a.history.map Point.id)) := by
    have zip3 : ∀ L : List AnchorData, L.map (fun a => (a.anchor.id, a.proof, a.history.map Point.id)) =
        (L.map (fun a => a.anchor.id)).zip ((L.map AnchorData.proof).zip (L.map (fun a => a.history.map Point.id))) := by
      intro L
      rw [List.zip_map', List.zip_map']
    rw [zip3, zip3, hanch, ← hP, hh]
  rw [this, List.map_append]
  exact List.prefix_append _ _

end Tycho.Commit
