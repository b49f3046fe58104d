import Verif.Commit.Outputs
import Mathlib.Data.List.Infix

/-!
Two nodes that follow one chain of anchor proofs hand out prefixes of one sequence (C24).
-/
namespace Tycho.Commit

open Relation

/-- What the authors signed about anchors: the proof a proof is chained to, and the author's own previous point. -/
def Loyal (chain prev : PointId → Option PointId) (view : PointId → Option Body) : Prop :=
  ∀ id b, view id = some b → (Point.mk id b).chainedTo = chain id ∧ (Point.mk id b).prevId = prev id

def Down (chain : PointId → Option PointId) : Prop := ∀ p q, chain p = some q → q.round < p.round

/-- The run follows one chain of proofs: no commit fails, no rounds are given up, committed rounds are removed only after an
anchor was handed out, and the chain of every useful trigger passes through the last committed proof `last`. -/
def OneChain (S : Shuffler) (c : Conf) (chain prev : PointId → Option PointId) : State → Option PointId → List Op → Prop
  | _, _, [] => True
  | s, last, op :: ops =>
    (match op with
      | .commit t =>
        (∃ A, (commit S c s t).1 = .ok A) ∧
        ∀ q lk, last = some q → t.prevId = some lk → q.round < lk.round →
          ReflTransGen (fun p q => chain p = some q) lk q
      | .dropUpto _ => False
      | .removeCommitted _ => last ≠ none
      | .env v => Loyal chain prev v
      | _ => True) ∧
    OneChain S c chain prev (step S c s op).2
      (match (step S c s op).1.getLast? with | none => last | some a => some a.proof) ops

theorem down_reach {chain} (hd : Down chain) {p q : PointId} (h : ReflTransGen (fun p q => chain p = some q) p q) :
    p = q ∨ q.round < p.round := by
  induction h with
  | refl => exact Or.inl rfl
  | tail _ hl ih =>
    have := hd _ _ hl
    rcases ih with rfl | ih
    · exact Or.inr this
    · exact Or.inr (by omega)

theorem good_loyal {chain prev} {d : Dag} {e} (hl : Loyal chain prev d.view) (g : Good d e) :
    e.proof.chainedTo = chain e.proof.id ∧ prev e.proof.id = some e.anchor.id := by
  obtain ⟨h1, h2⟩ := point_id g.proof
  obtain ⟨k1, k2⟩ := hl _ _ h2
  exact ⟨k1, by rw [← k2]; exact g.prev⟩

theorem reach_chain {d : Dag} {chain prev} (hly : Loyal chain prev d.view) {q lk : PointId} (items : List Enqueued) :
    (∀ e ∈ items, Good d e) → items.IsChain Linked → (∀ e, items.getLast? = some e → e.proof.id = lk) →
    ReflTransGen (fun p q => chain p = some q) lk q →
    (∃ e ∈ items, e.proof.id = q) ∨ ∀ e x, items.head? = some e → chain e.proof.id = some x →
      ReflTransGen (fun p q => chain p = some q) x q := by
  induction items using List.reverseRecOn generalizing lk with
  | nil => intro _ _ _ _; right; simp
  | append_singleton items' en ih =>
    intro hg hc hl hr
    have hen := hl en (by simp)
    rcases ReflTransGen.cases_head hr with heq | ⟨y, hy, hyq⟩
    · exact Or.inl ⟨en, by simp, by rw [hen, heq]⟩
    · rw [← hen] at hy
      rcases List.eq_nil_or_concat items' with rfl | ⟨init, z, rfl⟩
      · right
        intro e x he hx
        simp at he; subst he
        rw [hy] at hx; cases hx; exact hyq
      · have hcz := List.isChain_append.1 hc
        have hlz := hcz.2.2 z (by simp) en (by simp)
        have hyz : y = z.proof.id := by
          have h1 := (good_loyal hly (hg en (by simp))).1
          rw [hlz.1, hy] at h1
          exact (Option.some.inj h1).symm
        rcases ih (lk := y) (fun e he => hg e (by simp at he ⊢; tauto)) hcz.1 (by
          intro e he; simp at he; subst he; exact hyz.symm) hyq with ⟨e, he, heq⟩ | hb
        · exact Or.inl ⟨e, by simp at he ⊢; tauto, heq⟩
        · right
          intro e x he hx
          refine hb e x ?_ hx
          rw [← he]
          cases init <;> simp

/-- What is known about the proofs of the anchors handed out. -/
structure Strand (c : Conf) (chain prev : PointId → Option PointId) (L : List AnchorData) : Prop where
  links : L.IsChain fun a b => chain b.proof = some a.proof
  first : ∀ a, L.head? = some a → ∃ q, chain a.proof = some q ∧ q.round ≤ c.genesis + 1
  prev : ∀ a ∈ L, prev a.proof = some a.anchor.id
  above : ∀ a ∈ L, c.genesis + 1 < a.proof.round

theorem commit_strand {S c s t A s2 chain prev L} (hdown : Down chain) (hly : Loyal chain prev s.dag.view) (T : Trace L s)
    (hL : Strand c chain prev L) (hlast : ∀ a, L.getLast? = some a → s.dag.lastProof = some a.proof.round)
    (hnone : L = [] → s.dag.chainBottom ≤ c.genesis + 1) (h : commit S c s t = (.ok A, s2))
    (hreach : ∀ a lk, L.getLast? = some a → t.prevId = some lk → a.proof.round < lk.round →
      ReflTransGen (fun p q => chain p = some q) lk a.proof) :
    Strand c chain prev (L ++ A) ∧ (∀ a, A.getLast? = some a → s2.dag.lastProof = some a.proof.round) := by
  by_cases hne : A = []
  · subst hne; simpa using hL
  obtain ⟨_, _, _, items, hchain, hdeq⟩ := commit_nonempty h hne
  obtain ⟨lk, hlk, spec, hfront⟩ := anchorChain_spec T.rounds.1 hchain
  obtain ⟨p1, p2⟩ := dequeueAll_proofs items hdeq
  obtain ⟨v1, v2, v3, v4, v5, v6, v7⟩ := dequeueAll_dag items hdeq spec.ordered
  have hitems : items ≠ [] := by
    intro h0; rw [h0] at hdeq; simp [dequeueAll] at hdeq; exact hne hdeq.1
  have hgood : ∀ e ∈ items, Good s.dag e := fun e he => (spec.each e he).1
  -- inside the call
  have hin : A.IsChain fun a b => chain b.proof = some a.proof := by
    have : (items.map fun e => e.proof.id).IsChain fun a b => chain b = some a := by
      rw [List.isChain_map]
      have hl := spec.linked
      clear hlk hfront hchain hdeq p1 p2 v3 v4 v5 v6 v7 hitems spec
      induction items with
      | nil => simp
      | cons x xs ih =>
        cases xs with
        | nil => simp
        | cons y ys =>
          rw [List.isChain_cons_cons] at hl ⊢
          refine ⟨?_, ih (fun e he => hgood e (by simp [he])) hl.2⟩
          rw [← (good_loyal hly (hgood y (by simp))).1]; exact hl.1.1
    rw [← p1, List.isChain_map] at this
    exact this
  have hpair : ∀ (items : List Enqueued) (A : List AnchorData), A.map AnchorData.proof = items.map (fun e => e.proof.id) →
      A.map AnchorData.anchor = items.map Enqueued.anchor → ∀ a ∈ A, ∃ e ∈ items, a.proof = e.proof.id ∧ a.anchor = e.anchor := by
    intro items
    induction items with
    | nil => intro A h1 _ a ha; simp at h1; subst h1; simp at ha
    | cons e es ih =>
      intro A h1 h2 a ha
      cases A with
      | nil => simp at ha
      | cons x xs =>
        simp at h1 h2
        rcases List.mem_cons.1 ha with rfl | ha
        · exact ⟨e, by simp, h1.1, h2.1⟩
        · obtain ⟨y, hy, hh⟩ := ih xs h1.2 h2.2 a ha
          exact ⟨y, by simp [hy], hh⟩
  have hprev : ∀ a ∈ A, prev a.proof = some a.anchor.id := by
    intro a ha
    obtain ⟨e, he, q1, q2⟩ := hpair items A p1 p2 a ha
    rw [q1, q2]; exact (good_loyal hly (hgood e he)).2
  have habove : ∀ a ∈ A, c.genesis + 1 < a.proof.round := by
    intro a ha
    obtain ⟨e, he, q1, q2⟩ := hpair items A p1 p2 a ha
    have := v6 e he
    have := (ordered_ge items spec.ordered e he).2
    rw [q1]; omega
  obtain ⟨e, he⟩ : ∃ e, items.head? = some e := by
    cases items with
    | nil => exact absurd rfl hitems
    | cons e _ => exact ⟨e, rfl⟩
  obtain ⟨b, hb⟩ : ∃ b, A.head? = some b := by
    cases A with
    | nil => exact absurd rfl hne
    | cons b _ => exact ⟨b, rfl⟩
  have hbe : b.proof = e.proof.id := by
    cases A with
    | nil => simp at hb
    | cons x xs =>
      cases items with
      | nil => simp at he
      | cons y ys => simp at hb he p1; subst hb; subst he; exact p1.1
  have hemem := List.mem_of_head? he
  obtain ⟨x, hx, hxr⟩ := (hgood e hemem).chained
  have hcx : chain b.proof = some x := by rw [hbe, ← (good_loyal hly (hgood e hemem)).1]; exact hx
  have hcross : ∀ a, L.getLast? = some a → x = a.proof := by
    intro a ha
    have g1 := hlast a ha
    have hcb : s.dag.chainBottom = a.proof.round := by unfold Dag.chainBottom; rw [g1]; rfl
    have hlkr : a.proof.round < lk.round := by
      obtain ⟨z, hz⟩ : ∃ z, items.getLast? = some z := by
        cases items with
        | nil => exact absurd rfl hitems
        | cons x xs => exact ⟨_, List.getLast?_eq_getLast_of_ne_nil (by simp)⟩
      have hzl := spec.last z hz
      have := ordered_ge items spec.ordered z (List.mem_of_getLast? hz)
      rw [← hzl]; omega
    have hr := hreach a lk ha (hlk hitems) hlkr
    rcases reach_chain hly items hgood spec.linked spec.last hr with ⟨y, hy, hyq⟩ | hbd
    · have := ordered_ge items spec.ordered y hy
      rw [hcb, ← hyq] at this; omega
    · have hxq := hbd e x he (by rw [← hbe]; exact hcx)
      have hle := hfront e he
      rw [hcb, hxr] at hle
      rcases down_reach hdown hxq with h | h
      · exact h
      · omega
  refine ⟨⟨?_, ?_, ?_, ?_⟩, ?_⟩
  · rw [List.isChain_append]
    refine ⟨hL.links, hin, ?_⟩
    intro a ha b' hb'
    rw [hb] at hb'; cases hb'
    rw [← hcross a ha]; exact hcx
  · intro a ha
    cases L with
    | nil =>
      simp at ha
      rw [hb] at ha; cases ha
      refine ⟨x, hcx, ?_⟩
      have := hfront e he
      have := hnone rfl
      omega
    | cons y ys => exact hL.first a (by simpa using ha)
  · intro a ha
    rcases List.mem_append.1 ha with ha | ha
    · exact hL.prev a ha
    · exact hprev a ha
  · intro a ha
    rcases List.mem_append.1 ha with ha | ha
    · exact hL.above a ha
    · exact habove a ha
  · intro z hz
    have hlastitem : (items.map (fun e => e.proof.id)).getLast? = some z.proof := by
      rw [← p1, List.getLast?_map, hz]; rfl
    rw [List.getLast?_map] at hlastitem
    obtain ⟨y, hy, hyp⟩ := Option.map_eq_some_iff.1 hlastitem
    rw [(v3 y hy).1, ← hyp]

theorem commit_keep {S c s t A s2} (h : commit S c s t = (.ok A, s2)) : s2.dag.view = s.dag.view ∧
    (A = [] → s2 = s) := by
  have key : ∀ (items) {s A s2}, dequeueAll S c s items = (.ok A, s2) → s2.dag.view = s.dag.view ∧ (A = [] → s2 = s) := by
    intro items
    induction items with
    | nil => intro s A s2 h; simp [dequeueAll] at h; simp [h.2]
    | cons e rest ih =>
      intro s A s2 h
      rw [dequeueAll] at h
      split at h
      · simp at h
      rename_i data s' hd
      split at h
      · simp at h
      rename_i l s'' hrec
      simp at h
      obtain ⟨rfl, rfl⟩ := h
      obtain ⟨h1, h2, h3, h4, _⟩ := dequeue_ok hd
      obtain ⟨i1, _⟩ := ih hrec
      rw [i1, h4]
      exact ⟨rfl, by simp⟩
  unfold commit at h
  split at h
  · simp at h; simp [h.2]
  split at h
  · simp at h; simp [h.2]
  · simp at h
  split at h
  · simp at h; simp [h.2]
  split at h
  · simp at h
  exact key _ h

theorem run_strand {S c chain prev} (hdown : Down chain) : ∀ (ops) {s L last}, Trace L s → Loyal chain prev s.dag.view →
    Strand c chain prev L → (∀ a, L.getLast? = some a → s.dag.lastProof = some a.proof.round) →
    (L = [] → s.dag.chainBottom ≤ c.genesis + 1) →
    last = L.getLast?.map AnchorData.proof → OneChain S c chain prev s last ops →
    Strand c chain prev (L ++ (run S c s ops).1)
  | [], s, L, last, T, _, hL, _, _, _, _ => by simpa [run] using hL
  | op :: ops, s, L, last, T, hly, hL, hst, hnone, hlast, hcons => by
    obtain ⟨hop, hrest⟩ := hcons
    simp only [run]
    rw [← List.append_assoc]
    have T' := step_trace (S := S) (c := c) (op := op) T
    have hlast' : (match (step S c s op).1.getLast? with | none => last | some a => some a.proof) =
        (L ++ (step S c s op).1).getLast?.map AnchorData.proof := by
      rw [List.getLast?_append, hlast]
      cases (step S c s op).1.getLast? <;> simp
    have key : Loyal chain prev (step S c s op).2.dag.view ∧ Strand c chain prev (L ++ (step S c s op).1) ∧
        (∀ a, (L ++ (step S c s op).1).getLast? = some a → (step S c s op).2.dag.lastProof = some a.proof.round) ∧
        (L ++ (step S c s op).1 = [] → (step S c s op).2.dag.chainBottom ≤ c.genesis + 1) := by
      cases op with
      | commit t =>
        obtain ⟨⟨A, hA⟩, hreach⟩ := hop
        have hc : commit S c s t = (.ok A, (commit S c s t).2) := by rw [← hA]
        obtain ⟨k1, k2⟩ := commit_keep hc
        obtain ⟨m1, m2⟩ := commit_strand hdown hly T hL hst hnone hc (by
          intro a lk ha hlk hr
          exact hreach a.proof lk (by rw [hlast, ha]; rfl) hlk hr)
        simp only [step, hA, handed]
        refine ⟨by rw [k1]; exact hly, m1, ?_, ?_⟩
        · intro a ha
          by_cases hne : A = []
          · subst hne; rw [k2 rfl]; exact hst a (by simpa using ha)
          · rw [List.getLast?_append] at ha
            cases hz : A.getLast? with
            | none => simp at hz; exact absurd hz hne
            | some z => rw [hz] at ha; simp at ha; subst ha; exact m2 z hz
        · intro h
          obtain ⟨rfl, rfl⟩ := List.append_eq_nil_iff.1 h
          rw [k2 rfl]; exact hnone rfl
      | dropUpto r => exact absurd hop id
      | removeCommitted r =>
        simp only [step, List.append_nil]
        refine ⟨?_, hL, ?_, ?_⟩
        · simp only [removeCommitted]
          cases hd : s.dag.drainUpto (r - c.historyRounds) with
          | error e => exact hly
          | ok d =>
            obtain ⟨_, h2, _⟩ := drain_ok T.rounds hd
            unfold Dag.drainUpto at hd
            split at hd
            · simp at hd; subst hd; exact hly
            · simp at hd
        · simp only [removeCommitted]
          cases hd : s.dag.drainUpto (r - c.historyRounds) with
          | error e => exact hst
          | ok d =>
            unfold Dag.drainUpto at hd
            split at hd
            · simp at hd; subst hd; exact hst
            · simp at hd
        · intro h
          exfalso
          apply hop
          rw [hlast, h]; rfl
      | onceAfterGap =>
        simp only [step, List.append_nil]
        unfold onceAfterGap
        split
        · exact ⟨hly, hL, hst, hnone⟩
        · exact ⟨hly, hL, hst, hnone⟩
      | extend rounds =>
        simp only [step, List.append_nil]
        have hb : (keepOn s (extend s rounds)).dag.bottom = s.dag.bottom := by
          unfold extend
          split
          · rfl
          split
          · simp only [keepOn, Dag.bottom]
            cases hr : s.dag.rounds with
            | nil => exact absurd hr T.rounds.2
            | cons x xs => rfl
          · rfl
        have he : (keepOn s (extend s rounds)).dag.view = s.dag.view ∧
            (keepOn s (extend s rounds)).dag.lastProof = s.dag.lastProof := by
          unfold extend
          split
          · exact ⟨rfl, rfl⟩
          split
          · exact ⟨rfl, rfl⟩
          · exact ⟨rfl, rfl⟩
        refine ⟨by rw [he.1]; exact hly, hL, by rw [he.2]; exact hst, ?_⟩
        intro h
        have := hnone h
        unfold Dag.chainBottom at this ⊢
        rw [he.2, hb]; exact this
      | env v => simp only [step, List.append_nil]; exact ⟨hop, hL, hst, hnone⟩
    obtain ⟨k1, k2, k3, k4⟩ := key
    exact run_strand hdown ops T' k1 k2 k3 k4 hlast' hrest

/-- Two strands of proofs with related ends. -/
theorem strand_prefix {c : Conf} {chain : PointId → Option PointId} (hdown : Down chain) :
    ∀ (P2 P1 : List PointId), (P1.IsChain fun a b => chain b = some a) → (P2.IsChain fun a b => chain b = some a) →
    (∀ a, P1.head? = some a → ∃ q, chain a = some q ∧ q.round ≤ c.genesis + 1) →
    (∀ a, P2.head? = some a → ∃ q, chain a = some q ∧ q.round ≤ c.genesis + 1) →
    (∀ a ∈ P1, c.genesis + 1 < a.round) → (∀ a ∈ P2, c.genesis + 1 < a.round) →
    (∀ a b, P1.getLast? = some a → P2.getLast? = some b → ReflTransGen (fun p q => chain p = some q) b a) →
    (P2 = [] → P1 = []) → P1 <+: P2 := by
  intro P2
  induction P2 using List.reverseRecOn with
  | nil => intro P1 _ _ _ _ _ _ _ h; rw [h rfl]
  | append_singleton P2 b ih =>
    intro P1 c1 c2 f1 f2 a1 a2 hr _
    have c2' := List.isChain_append.1 c2
    rcases List.eq_nil_or_concat P1 with rfl | ⟨P1', a, rfl⟩
    · exact List.nil_prefix
    rw [List.concat_eq_append] at *
    have hreach := hr a b (by simp) (by simp)
    have a1a := a1 a (by simp)
    rcases ReflTransGen.cases_head hreach with heq | ⟨y, hy, hya⟩
    · subst heq
      suffices hq : ∀ (Q2 Q1 : List PointId) (x : PointId), ((Q1 ++ [x]).IsChain fun a b => chain b = some a) →
          ((Q2 ++ [x]).IsChain fun a b => chain b = some a) →
          (∀ a, (Q1 ++ [x]).head? = some a → ∃ q, chain a = some q ∧ q.round ≤ c.genesis + 1) →
          (∀ a, (Q2 ++ [x]).head? = some a → ∃ q, chain a = some q ∧ q.round ≤ c.genesis + 1) →
          (∀ a ∈ Q1, c.genesis + 1 < a.round) → (∀ a ∈ Q2, c.genesis + 1 < a.round) → Q1 = Q2 by
        rw [hq P2 P1' b c1 c2 f1 f2 (fun a ha => a1 a (by simp [ha])) (fun a ha => a2 a (by simp [ha]))]
      intro Q2
      induction Q2 using List.reverseRecOn with
      | nil =>
        intro Q1 x c1 c2 f1 f2 a1 a2
        rcases List.eq_nil_or_concat Q1 with rfl | ⟨Q1', z, rfl⟩
        · rfl
        exfalso
        rw [List.concat_eq_append] at *
        have hz := (List.isChain_append.1 c1).2.2 z (by simp) x (by simp)
        obtain ⟨q, hq, hqr⟩ := f2 x (by simp)
        rw [hz] at hq; cases hq
        have := a1 z (by simp)
        omega
      | append_singleton Q2 w ih2 =>
        intro Q1 x c1 c2 f1 f2 a1 a2
        have hw := (List.isChain_append.1 c2).2.2 w (by simp) x (by simp)
        rcases List.eq_nil_or_concat Q1 with rfl | ⟨Q1', z, rfl⟩
        · exfalso
          obtain ⟨q, hq, hqr⟩ := f1 x (by simp)
          rw [hw] at hq; cases hq
          have := a2 w (by simp)
          omega
        rw [List.concat_eq_append] at *
        have hz := (List.isChain_append.1 c1).2.2 z (by simp) x (by simp)
        rw [hw] at hz; cases hz
        have hd : ∀ Q : List PointId, ∀ a, (Q ++ [w]).head? = some a → (Q ++ [w] ++ [x]).head? = some a := by
          intro Q a h; cases Q <;> simpa using h
        rw [ih2 Q1' w (List.isChain_append.1 c1).1 (List.isChain_append.1 c2).1 (fun a ha => f1 a (hd _ _ ha))
          (fun a ha => f2 a (hd _ _ ha)) (fun a ha => a1 a (by simp [ha])) (fun a ha => a2 a (by simp [ha]))]
    · rcases List.eq_nil_or_concat P2 with rfl | ⟨P2', w, rfl⟩
      · exfalso
        obtain ⟨q, hq, hqr⟩ := f2 b (by simp)
        rw [hy] at hq; cases hq
        rcases down_reach hdown hya with rfl | h <;> omega
      · rw [List.concat_eq_append] at *
        have hw := c2'.2.2 w (by simp) b (by simp)
        rw [hy] at hw; cases hw
        have := ih (P1' ++ [a]) c1 c2'.1 f1 (by
          intro x hx; apply f2; cases P2' <;> simpa using hx) a1 (fun x hx => a2 x (by simp at hx ⊢; tauto)) (by
          intro x y' hx hy'
          simp at hx hy'; subst hx; subst hy'; exact hya) (by simp)
        exact this.trans (List.prefix_append _ _)

end Tycho.Commit
