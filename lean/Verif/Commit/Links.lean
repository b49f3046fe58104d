import Verif.Commit.Agree

/-!
C07: every anchor names the anchor handed out just before it.
-/
namespace Tycho.Commit

open Relation

/-- A reader of the output can follow it: the later anchor names the earlier one, or it is the first executable anchor after a
gap, which names none. -/
def FollowsOk (a b : AnchorData) : Prop :=
  b.prevAnchor = some a.anchor.id.round ∨ (b.prevAnchor = none ∧ b.executable = true ∧ a.executable = false)

/-- Proofs only point down (checked when a point is verified). -/
def ProofsDecrease (d : Dag) : Prop := ∀ p q, ProofLink d p q → q.round < p.round

theorem proofLink_fun {d : Dag} {p q q'} (h : ProofLink d p q) (h' : ProofLink d p q') : q = q' := by
  obtain ⟨b, hb, hq⟩ := h
  obtain ⟨b', hb', hq'⟩ := h'
  rw [hb] at hb'; cases hb'
  rw [hq] at hq'; cases hq'; rfl

theorem proofLink_of_good {d : Dag} {e : Enqueued} {q} (g : Good d e) (h : e.proof.chainedTo = some q) :
    ProofLink d e.proof.id q := ⟨e.proof.body, (point_id g.proof).2, h⟩

theorem reflTransGen_round {d : Dag} (hd : ProofsDecrease d) {p q} (h : ReflTransGen (ProofLink d) p q) :
    q.round ≤ p.round := by
  induction h with
  | refl => exact Nat.le_refl _
  | tail _ hl ih => have := hd _ _ hl; omega

/-- Walking down the proofs from the trigger: whatever is reachable is one of the chain, or lies beyond its oldest link. -/
theorem reach_beyond {d : Dag} {q lk : PointId} (items : List Enqueued) : (∀ e ∈ items, Good d e) → items.IsChain Linked →
    (∀ e, items.getLast? = some e → e.proof.id = lk) → ReflTransGen (ProofLink d) lk q →
    (∃ e ∈ items, e.proof.id = q) ∨ ∀ e x, items.head? = some e → e.proof.chainedTo = some x →
      ReflTransGen (ProofLink d) x q := by
  induction items using List.reverseRecOn generalizing lk with
  | nil => intro _ _ _ _; right; simp
  | append_singleton items' en ih =>
    intro hg hc hl hr
    have hen := hl en (by simp)
    rcases ReflTransGen.cases_head hr with heq | ⟨y, hy, hyq⟩
    · exact Or.inl ⟨en, by simp, by rw [hen, heq]⟩
    · rw [← hen] at hy
      rcases List.eq_nil_or_concat items' with rfl | ⟨init, z, rfl⟩
      · right
        intro e x he hx
        simp at he; subst he
        have := proofLink_fun hy (proofLink_of_good (hg en (by simp)) hx)
        rw [← this]; exact hyq
      · have hcz := List.isChain_append.1 hc
        have hlz := hcz.2.2 z (by simp) en (by simp)
        have hyz := proofLink_fun hy (proofLink_of_good (hg en (by simp)) hlz.1)
        rcases ih (lk := y) (fun e he => hg e (by simp at he ⊢; tauto)) hcz.1 (by
          intro e he; simp at he; subst he; exact hyz.symm) hyq with ⟨e, he, heq⟩ | hb
        · exact Or.inl ⟨e, by simp at he ⊢; tauto, heq⟩
        · right
          intro e x he hx
          refine hb e x ?_ hx
          rw [← he]
          cases init <;> simp

/-- The oldest new anchor is linked exactly to the last committed proof, if that one is on the chain of the trigger. -/
theorem front_link {d : Dag} {t items q lk} (hc : Contiguous d) (hdec : ProofsDecrease d)
    (h : anchorChain d t = .ok items) (hlast : d.lastProof = some q.round) (hlk : t.prevId = some lk)
    (hreach : ReflTransGen (ProofLink d) lk q) :
    ∀ e, items.head? = some e → e.prevProofRound = q.round := by
  intro e he
  have hcb : d.chainBottom = q.round := by unfold Dag.chainBottom; rw [hlast]; rfl
  obtain ⟨lk', h1, spec, hfront⟩ := anchorChain_spec hc h
  have hne : items ≠ [] := by intro h0; rw [h0] at he; simp at he
  have := h1 hne
  rw [hlk] at this; cases this
  have hmem : e ∈ items := List.mem_of_head? he
  obtain ⟨g, _⟩ := spec.each e hmem
  obtain ⟨x, hx, hxr⟩ := g.chained
  have hle := hfront e he
  rw [hcb] at hle
  rcases reach_beyond items (fun e he => (spec.each e he).1) spec.linked spec.last hreach with ⟨y, hy, hyq⟩ | hb
  · have := ordered_ge items spec.ordered y hy
    rw [hcb, ← hyq] at this; omega
  · have hxq := hb e x he hx
    have := reflTransGen_round hdec hxq
    omega

theorem prevAnchor_of_flag {c : Conf} {prev r : Nat} {first : Bool} (hg : c.genesis < r) (hp : prev = r + 1) :
    prevAnchorOf c prev first = if first then none else some r := by
  subst hp
  unfold prevAnchorOf
  cases first <;> simp [hg]

/-- Links inside one call: every handed-out anchor after the first names its predecessor; the first one names the round of
`prevProofRound - 1`. -/
theorem dequeueAll_links {S c} : ∀ (items) {s A s2}, dequeueAll S c s items = (.ok A, s2) → items.IsChain Linked →
    Ordered s.dag.chainBottom items →
    A.IsChain FollowsOk ∧
    (∀ e a, items.head? = some e → A.head? = some a → a.anchor = e.anchor ∧
      ∃ first, a.prevAnchor = prevAnchorOf c e.prevProofRound first ∧
        (first = true → a.executable = true ∧ s.gapFlag = some true)) ∧
    (∀ a ∈ A, a.executable = decide (s.firstExecutable ≤ a.anchor.id.round)) ∧
    (∀ a ∈ A, a.executable = true → s2.gapFlag = none) ∧ s2.firstExecutable = s.firstExecutable ∧
    (s.gapFlag = none → s2.gapFlag = none)
  | [], s, A, s2, h, _, _ => by
    simp [dequeueAll] at h
    obtain ⟨rfl, rfl⟩ := h
    simp
  | e :: rest, s, A, s2, h, hl, hord => by
    rw [dequeueAll] at h
    split at h
    · simp at h
    rename_i data s' hd
    split at h
    · simp at h
    rename_i l s'' hrec
    simp at h
    obtain ⟨rfl, rfl⟩ := h
    obtain ⟨h1, h2, h3, h4, h5, h6, h7, ⟨first, h8, h8'⟩, h9, h10⟩ := dequeue_ok hd
    have hcb : s'.dag.chainBottom = e.proof.id.round := by rw [h4]; rfl
    have hord' : Ordered s'.dag.chainBottom rest := by rw [hcb]; exact hord.2.2
    have hl' : rest.IsChain Linked := hl.tail
    obtain ⟨i1, i2, i3, i4, i5, i6⟩ := dequeueAll_links rest hrec hl' hord'
    have hflag : (first = true → data.executable = true ∧ s.gapFlag = some true) ∧
        (data.executable = true → s'.gapFlag = none) ∧ (s.gapFlag = none → s'.gapFlag = none) := by
      unfold takeFlag at h8
      cases hgf : s.gapFlag with
      | none =>
        rw [hgf] at h8
        simp at h8
        exact ⟨by intro h; rw [h] at h8; simp at h8, fun _ => h8.2.symm, fun _ => h8.2.symm⟩
      | some b =>
        cases b with
        | false => rw [hgf] at h8; simp at h8
        | true =>
          rw [hgf] at h8
          cases hex : data.executable with
          | true => rw [hex] at h8; simp at h8; exact ⟨fun _ => ⟨rfl, rfl⟩, fun _ => h8.2.symm, by simp⟩
          | false =>
            rw [hex] at h8; simp at h8
            exact ⟨by intro h; rw [h] at h8; simp at h8, by simp, by simp⟩
    obtain ⟨f1, f2, f3⟩ := hflag
    have hprf := dequeueAll_proofs rest hrec
    have hgen : c.genesis < e.anchor.id.round := by
      have := gather_limit h1; unfold historyLimit at this; omega
    refine ⟨?_, ?_, ?_, ?_, by rw [i5, h10], fun h => i6 (f3 h)⟩
    · cases l with
      | nil => simp
      | cons b bs =>
        cases rest with
        | nil => simp at hprf
        | cons e2 rest2 =>
          rw [List.isChain_cons_cons]
          refine ⟨?_, i1⟩
          obtain ⟨j1, first2, j2, j3⟩ := i2 e2 b (by simp) (by simp)
          have hlk : Linked e e2 := (List.isChain_cons_cons.1 hl).1
          have hpv : e2.prevProofRound = e.anchor.id.round + 1 := by rw [hlk.2, hord.2.1]
          rw [prevAnchor_of_flag hgen hpv] at j2
          cases hf : first2 with
          | false => left; rw [j2, hf, h5]; simp
          | true =>
            right
            obtain ⟨k1, k2⟩ := j3 hf
            refine ⟨by rw [j2, hf]; simp, k1, ?_⟩
            cases hx : data.executable with
            | false => rfl
            | true => rw [f2 hx] at k2; simp at k2
    · intro e' a he ha
      simp at he ha
      subst he; subst ha
      exact ⟨h5, first, h8', f1⟩
    · intro a ha
      rcases List.mem_cons.1 ha with rfl | ha
      · rw [h7, h5]
      · rw [i3 a ha, h10]
    · intro a ha hex
      rcases List.mem_cons.1 ha with rfl | ha
      · exact i6 (f2 hex)
      · exact i4 a ha hex

/-- The run is consistent with one chain of proofs: every commit succeeds, no rounds are given up (no gap is created), and the
chain of every useful trigger passes through the last committed proof `last`. -/
def Consistent (S : Shuffler) (c : Conf) : State → Option PointId → List Op → Prop
  | _, _, [] => True
  | s, last, op :: ops =>
    (match op with
      | .commit t =>
        (∃ A, (commit S c s t).1 = .ok A) ∧ ProofsDecrease s.dag ∧
        ∀ q lk, last = some q → t.prevId = some lk → q.round < lk.round → ReflTransGen (ProofLink s.dag) lk q
      | .dropUpto _ => False
      | _ => True) ∧
    Consistent S c (step S c s op).2
      (match (step S c s op).1.getLast? with | none => last | some a => some a.proof) ops

theorem ghost_run {S c} : ∀ (ops) {s L last}, Trace L s → L.IsChain FollowsOk →
    (∀ a, L.getLast? = some a → s.dag.lastProof = some a.proof.round ∧ c.genesis < a.anchor.id.round ∧
      (a.executable = true → s.gapFlag = none)) →
    last = L.getLast?.map AnchorData.proof → Consistent S c s last ops →
    (L ++ (run S c s ops).1).IsChain FollowsOk
  | [], s, L, last, T, hL, _, _, _ => by simpa [run] using hL
  | op :: ops, s, L, last, T, hL, hst, hlast, hcons => by
    obtain ⟨hop, hrest⟩ := hcons
    simp only [run]
    rw [← List.append_assoc]
    have T' := step_trace (S := S) (c := c) (op := op) T
    refine ghost_run ops T' ?_ ?_ ?_ hrest
    · -- the new anchors follow
      cases op with
      | commit t =>
        obtain ⟨⟨A, hA⟩, hdec, hreach⟩ := hop
        simp only [step, hA, handed]
        by_cases hne : A = []
        · subst hne; simpa using hL
        have hcm : commit S c s t = (.ok A, (commit S c s t).2) := by rw [← hA]
        obtain ⟨_, _, _, items, hchain, hdeq⟩ := commit_nonempty hcm hne
        obtain ⟨lk, hlk, spec, _⟩ := anchorChain_spec T.rounds.1 hchain
        obtain ⟨k1, k2, k3, k4, k5, k6⟩ := dequeueAll_links items hdeq spec.linked spec.ordered
        rw [List.isChain_append]
        refine ⟨hL, k1, ?_⟩
        intro a ha b hb
        have hitems : items ≠ [] := by
          intro h0; rw [h0] at hdeq; simp [dequeueAll] at hdeq; exact hne hdeq.1
        obtain ⟨e, he⟩ : ∃ e, items.head? = some e := by
          cases items with
          | nil => exact absurd rfl hitems
          | cons e _ => exact ⟨e, rfl⟩
        obtain ⟨g1, g2, g4⟩ := hst a ha
        obtain ⟨j1, first, j2, j3⟩ := k2 e b he hb
        have hq : last = some a.proof := by rw [hlast]; rw [ha]; rfl
        have hmem := List.mem_of_head? he
        have hcb : s.dag.chainBottom = a.proof.round := by unfold Dag.chainBottom; rw [g1]; rfl
        have hlkr : a.proof.round < lk.round := by
          obtain ⟨z, hz⟩ : ∃ z, items.getLast? = some z := by
            cases items with
            | nil => exact absurd rfl hitems
            | cons x xs => exact ⟨_, List.getLast?_eq_getLast_of_ne_nil (by simp)⟩
          have hzl := spec.last z hz
          have := ordered_ge items spec.ordered z (List.mem_of_getLast? hz)
          rw [← hzl]; omega
        have hpv := front_link T.rounds.1 hdec hchain g1 (hlk hitems) (hreach _ _ hq (hlk hitems) hlkr) e he
        have hap := T.proof a (List.mem_of_getLast? ha)
        rw [prevAnchor_of_flag g2 (by rw [hpv, hap])] at j2
        cases hf : first with
        | false => left; rw [j2, hf]; simp
        | true =>
          right
          obtain ⟨m1, m2⟩ := j3 hf
          refine ⟨by rw [j2, hf]; simp, m1, ?_⟩
          cases hx : a.executable with
          | false => rfl
          | true => rw [g4 hx] at m2; simp at m2
      | dropUpto r => exact absurd hop id
      | removeCommitted r => simpa [step] using hL
      | onceAfterGap => simpa [step] using hL
      | extend r => simpa [step] using hL
      | env v => simpa [step] using hL
    · -- the state remembers the last one
      cases op with
      | commit t =>
        obtain ⟨⟨A, hA⟩, _, _⟩ := hop
        simp only [step, hA, handed]
        have hcm : commit S c s t = (.ok A, (commit S c s t).2) := by rw [← hA]
        by_cases hne : A = []
        · subst hne
          have hs : (commit S c s t).2.dag.lastProof = s.dag.lastProof ∧ (commit S c s t).2.firstExecutable = s.firstExecutable
              ∧ (commit S c s t).2.gapFlag = s.gapFlag := by
            unfold commit at hcm ⊢
            split
            · exact ⟨rfl, rfl, rfl⟩
            split
            · exact ⟨rfl, rfl, rfl⟩
            · exact ⟨rfl, rfl, rfl⟩
            split
            · exact ⟨rfl, rfl, rfl⟩
            split
            · exact ⟨rfl, rfl, rfl⟩
            rename_i h1 _ h2 h3 _ items h4
            rw [if_neg h1, h2] at hcm
            simp only [if_neg h3, h4] at hcm
            cases items with
            | nil => exact ⟨rfl, rfl, rfl⟩
            | cons e es =>
              have := (dequeueAll_proofs _ (by rw [hcm])).1
              simp at this
          rw [hs.1, hs.2.2]
          simpa using hst
        obtain ⟨_, _, _, items, hchain, hdeq⟩ := commit_nonempty hcm hne
        obtain ⟨lk, hlk, spec, _⟩ := anchorChain_spec T.rounds.1 hchain
        obtain ⟨k1, k2, k3, k4, k5, k6⟩ := dequeueAll_links items hdeq spec.linked spec.ordered
        obtain ⟨v1, v2, v3, v4, v5, v6, v7⟩ := dequeueAll_dag items hdeq spec.ordered
        intro a ha
        rw [List.getLast?_append] at ha
        obtain ⟨z, hz⟩ : ∃ z, A.getLast? = some z := by
          cases A with
          | nil => exact absurd rfl hne
          | cons x xs => exact ⟨_, List.getLast?_eq_getLast_of_ne_nil (by simp)⟩
        rw [hz] at ha
        simp at ha; subst ha
        have hzm := List.mem_of_getLast? hz
        obtain ⟨p1, p2⟩ := dequeueAll_proofs items hdeq
        have hlastitem : (items.map (fun e => e.proof.id)).getLast? = some z.proof := by
          rw [← p1, List.getLast?_map, hz]; rfl
        rw [List.getLast?_map] at hlastitem
        obtain ⟨y, hy, hyp⟩ := Option.map_eq_some_iff.1 hlastitem
        have hza : z.anchor ∈ items.map Enqueued.anchor := by rw [← p2]; exact List.mem_map.2 ⟨z, hzm, rfl⟩
        obtain ⟨w, hw, hwa⟩ := List.mem_map.1 hza
        refine ⟨by rw [(v3 y hy).1, ← hyp], by rw [← hwa]; exact v6 w hw, k4 z hzm⟩
      | dropUpto r => exact absurd hop id
      | removeCommitted r =>
        simp only [step, List.append_nil]
        cases hd : s.dag.drainUpto (r - c.historyRounds) with
        | error e => simp only [removeCommitted, hd, keepOn]; exact hst
        | ok d =>
          obtain ⟨_, _, _, _, h5, _⟩ := drain_ok T.rounds hd
          simp only [removeCommitted, hd, keepOn, h5]
          exact hst
      | onceAfterGap =>
        simp only [step, List.append_nil]
        unfold onceAfterGap
        split
        · rename_i hg
          intro a ha
          obtain ⟨g1, g2, g4⟩ := hst a ha
          refine ⟨g1, g2, ?_⟩
          intro hx; have := g4 hx; rw [hg] at this; simp at this
        · exact hst
      | extend rounds =>
        simp only [step, List.append_nil]
        cases he : extend s rounds with
        | error e => exact hst
        | ok s' =>
          obtain ⟨_, _, _, _, h5, _, _, h8, h9, _⟩ := extend_ok T.rounds he
          simp only [keepOn, h5, h8, h9]
          exact hst
      | env v => simpa [step] using hst
    · rw [List.getLast?_append, hlast]
      cases (step S c s op).1.getLast? <;> simp

end Tycho.Commit
