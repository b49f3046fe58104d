import Verif.Commit.History
import Mathlib.Data.List.Chain

namespace Tycho.Commit

/-- What the chain knows about an enqueued anchor: its proof is a valid proof point of the local DAG, the anchor is the
previous point of the proof's author, valid and in the DAG too. -/
structure Good (d : Dag) (e : Enqueued) : Prop where
  proof : d.point e.proof.id = some e.proof
  proofValid : e.proof.body.status = .valid
  isProof : e.proof.body.isProof = true
  prev : e.proof.prevId = some e.anchor.id
  anchor : d.point e.anchor.id = some e.anchor
  anchorValid : e.anchor.body.status = .valid
  chained : ∃ q, e.proof.chainedTo = some q ∧ e.prevProofRound = q.round

theorem readyValid_ok {d id p} (h : readyValid d id = .ok p) : d.point id = some p ∧ p.body.status = .valid := by
  unfold readyValid at h
  split at h
  · simp at h
  · rename_i q hq
    split at h
    · rename_i hs; simp at h; subst h; exact ⟨hq, hs⟩
    · split at h <;> simp at h

theorem chainedProof_ok {d id p} (h : chainedProof d id = .ok p) :
    d.point id = some p ∧ p.body.status = .valid ∧ p.body.isProof = true := by
  unfold chainedProof at h
  split at h
  · simp at h
  · rename_i q hq
    split at h
    · rename_i hp; simp at h; subst h; exact ⟨(readyValid_ok hq).1, (readyValid_ok hq).2, hp⟩
    · simp at h

theorem chainStep_some {d lk below e next} (h : chainStep d lk below = .ok (some (e, next))) :
    Good d e ∧ e.proof.id = lk ∧ below = some e.anchor.id.round ∧ e.proof.chainedTo = some next ∧
      e.prevProofRound = next.round := by
  unfold chainStep at h
  split at h
  · simp at h
  rename_i proof hproof
  split at h
  · simp at h
  rename_i aid haid
  split at h
  · split at h <;> simp at h
  split at h
  · simp at h
  rename_i r hr
  split at h
  · simp at h
  rename_i anchor hanchor
  split at h
  · simp at h
  rename_i nx hnx
  simp at h
  obtain ⟨rfl, rfl⟩ := h
  obtain ⟨p1, p2, p3⟩ := chainedProof_ok hproof
  obtain ⟨a1, a2⟩ := readyValid_ok hanchor
  have pid := (point_id p1).1
  have aid' := (point_id a1).1
  refine ⟨⟨by rw [pid]; exact p1, p2, p3, by rw [aid']; exact haid, by rw [aid']; exact a1, a2, nx, hnx, rfl⟩, pid, ?_,
    hnx, rfl⟩
  simp only [aid', Option.some.injEq]
  by_contra hne; exact hr hne

theorem chainLoop_acc (d : Dag) (b : Nat) : ∀ (rs lk acc),
    chainLoop d b rs lk acc = (chainLoop d b rs lk []).map (· ++ acc)
  | [], _, _ => by simp [chainLoop, Except.map]
  | r :: rest, lk, acc => by
    unfold chainLoop
    split
    · exact chainLoop_acc d b rest lk acc
    split
    · simp [Except.map]
    split
    · split
      · simp [Except.map]
      · split <;> simp [Except.map]
    · split
      · simp [Except.map]
      · simp [Except.map]
      · rename_i item next _
        rw [chainLoop_acc d b rest next (item :: acc), chainLoop_acc d b rest next [item]]
        cases chainLoop d b rest next [] <;> simp [Except.map]

/-- Anchors in strictly increasing order, each right below its proof, above `b` and above the previous proof. -/
def Ordered : Nat → List Enqueued → Prop
  | _, [] => True
  | b, e :: rest => b ≤ e.anchor.id.round ∧ e.proof.id.round = e.anchor.id.round + 1 ∧ Ordered e.proof.id.round rest

theorem ordered_snoc : ∀ (l : List Enqueued) {b e}, Ordered b l → b ≤ e.anchor.id.round →
    e.proof.id.round = e.anchor.id.round + 1 → (∀ x ∈ l, x.proof.id.round ≤ e.anchor.id.round) → Ordered b (l ++ [e])
  | [], b, e, _, h1, h2, _ => ⟨h1, h2, trivial⟩
  | x :: xs, b, e, h, h1, h2, h3 =>
    ⟨h.1, h.2.1, ordered_snoc xs h.2.2 (h3 x (by simp)) h2 (fun y hy => h3 y (by simp [hy]))⟩

theorem ordered_append : ∀ (l : List Enqueued) {b l2}, Ordered b (l ++ l2) → Ordered b l
  | [], _, _, _ => trivial
  | _ :: xs, _, _, h => ⟨h.1, h.2.1, ordered_append xs h.2.2⟩

theorem ordered_ge : ∀ (l : List Enqueued) {b}, Ordered b l → ∀ e ∈ l, b ≤ e.anchor.id.round ∧
    e.proof.id.round = e.anchor.id.round + 1
  | [], _, _, e, he => by simp at he
  | x :: xs, b, h, e, he => by
    rcases List.mem_cons.1 he with rfl | he
    · exact ⟨h.1, h.2.1⟩
    · have := ordered_ge xs h.2.2 e he
      have h1 := h.1
      have h2 := h.2.1
      exact ⟨by omega, this.2⟩

/-- The round of the previous link. -/
def Linked (e1 e2 : Enqueued) : Prop := e2.proof.chainedTo = some e1.proof.id ∧ e2.prevProofRound = e1.proof.id.round

structure ChainSpec (d : Dag) (b : Nat) (rs : List Nat) (lk : PointId) (items : List Enqueued) : Prop where
  ordered : Ordered b items
  each : ∀ e ∈ items, Good d e ∧ e.proof.id.round ∈ rs ∧ e.anchor.id.round ∈ rs ∧ d.usedProof e.proof.id.round = none
  linked : items.IsChain Linked
  last : ∀ e, items.getLast? = some e → e.proof.id = lk

theorem chainLoop_spec {d : Dag} {b : Nat} : ∀ (rs) {lk items}, chainLoop d b rs lk [] = .ok items →
    rs.Pairwise (· > ·) → (∀ r ∈ rs, b ≤ r) → ChainSpec d b rs lk items
  | [], lk, items, h, _, _ => by
    simp [chainLoop] at h; subst h
    exact ⟨trivial, by simp, by simp, by simp⟩
  | r :: rest, lk, items, h, hp, hb => by
    rw [List.pairwise_cons] at hp
    have hb' : ∀ x ∈ rest, b ≤ x := fun x hx => hb x (by simp [hx])
    have nil_ok : ChainSpec d b (r :: rest) lk [] := ⟨trivial, by simp, by simp, by simp⟩
    unfold chainLoop at h
    split at h
    · have I := chainLoop_spec rest h hp.2 hb'
      exact ⟨I.ordered, fun e he => by
        obtain ⟨h1, h2, h3, h4⟩ := I.each e he
        exact ⟨h1, by simp [h2], by simp [h3], h4⟩, I.linked, I.last⟩
    split at h
    · simp at h
    rename_i hne
    have hr : r = lk.round := by omega
    split at h
    · split at h
      · simp at h
      · split at h
        · simp at h; subst h; exact nil_ok
        · simp at h
    rename_i hused
    split at h
    · simp at h
    · simp at h; subst h; exact nil_ok
    rename_i item next hstep
    rw [chainLoop_acc] at h
    cases hrec : chainLoop d b rest next [] with
    | error e => rw [hrec] at h; simp [Except.map] at h
    | ok items' =>
      rw [hrec] at h
      simp [Except.map] at h
      subst h
      have I := chainLoop_spec rest hrec hp.2 hb'
      obtain ⟨g1, g2, g3, g4, g5⟩ := chainStep_some hstep
      have ha : item.anchor.id.round ∈ rest := by
        cases rest with
        | nil => simp at g3
        | cons y ys => simp at g3; simp [g3]
      have hmax : ∀ x ∈ rest, x ≤ item.anchor.id.round := by
        cases rest with
        | nil => simp
        | cons y ys =>
          simp at g3
          intro x hx
          rcases List.mem_cons.1 hx with rfl | hx
          · omega
          · have := (List.pairwise_cons.1 hp.2).1 x hx
            omega
      have hpr : item.proof.id.round = item.anchor.id.round + 1 := by
        have h1 := hp.1 _ ha
        have h2 : item.anchor.id.round = item.proof.id.round - 1 := by
          have := g1.prev
          unfold Point.prevId at this
          cases hlk : List.lookup item.proof.id.author item.proof.body.includes with
          | none => rw [hlk] at this; simp at this
          | some dg => rw [hlk] at this; simp at this; rw [← this]
        rw [g2] at h2 ⊢
        omega
      refine ⟨?_, ?_, ?_, ?_⟩
      · refine ordered_snoc items' I.ordered (hb' _ ha) hpr ?_
        intro x hx
        exact hmax _ (I.each x hx).2.1
      · intro e he
        rcases List.mem_append.1 he with he | he
        · obtain ⟨h1, h2, h3, h4⟩ := I.each e he
          exact ⟨h1, by simp [h2], by simp [h3], h4⟩
        · simp at he; subst he
          exact ⟨g1, by rw [g2, ← hr]; simp, by simp [ha], by rw [g2, ← hr]; exact hused⟩
      · rw [List.isChain_append]
        refine ⟨I.linked, by simp, ?_⟩
        intro x hx y hy
        simp at hy; subst hy
        have := I.last x hx
        exact ⟨by rw [g4, this], by rw [g5, this]⟩
      · intro e he
        simp at he; subst he; exact g2

theorem rangeRev_desc {d : Dag} (hc : Contiguous d) (lo hi) : (d.rangeRev lo hi).Pairwise (· > ·) := by
  obtain ⟨n, hn⟩ := hc
  unfold Dag.rangeRev
  rw [List.pairwise_reverse]
  apply List.Pairwise.filter
  rw [hn]
  exact List.pairwise_lt_range'

theorem mem_rangeRev {d : Dag} {lo hi r} : r ∈ d.rangeRev lo hi ↔ r ∈ d.rounds ∧ lo ≤ r ∧ r ≤ hi := by
  simp [Dag.rangeRev]

/-- A successful search for the chain of a trigger: nothing when there is no room above the last proof, else the loop. -/
theorem anchorChain_ok {d t items} (h : anchorChain d t = .ok items) :
    (items = [] ∧ t.id.round - 1 < d.chainBottom) ∨
    ∃ lk, t.prevId = some lk ∧ d.chainBottom ≤ t.id.round - 1 ∧
      chainLoop d d.chainBottom (d.rangeRev d.chainBottom (t.id.round - 1)) lk [] = .ok items ∧
      ∀ e, items.head? = some e → e.prevProofRound ≤ d.chainBottom := by
  unfold anchorChain at h
  split at h
  · rename_i hlt; simp at h; exact Or.inl ⟨h, hlt⟩
  split at h
  · simp at h
  rename_i lk hlk
  split at h
  · simp at h
  rename_i l hl
  refine Or.inr ⟨lk, hlk, by omega, ?_⟩
  unfold checkFront at h
  split at h
  · rename_i hnone; simp at h; subst h; exact ⟨hl, by simp [hnone]⟩
  · rename_i e he
    split at h
    · rename_i hle; simp at h; subst h
      exact ⟨hl, by intro x hx; rw [he] at hx; cases hx; exact hle⟩
    · simp at h

theorem anchorChain_spec {d t items} (hc : Contiguous d) (h : anchorChain d t = .ok items) :
    ∃ lk, (items ≠ [] → t.prevId = some lk) ∧
      ChainSpec d d.chainBottom (d.rangeRev d.chainBottom (t.id.round - 1)) lk items ∧
      ∀ e, items.head? = some e → e.prevProofRound ≤ d.chainBottom := by
  rcases anchorChain_ok h with ⟨rfl, _⟩ | ⟨lk, h1, h2, h3, h4⟩
  · exact ⟨t.id, by simp, ⟨trivial, by simp, by simp, by simp⟩, by simp⟩
  · exact ⟨lk, fun _ => h1, chainLoop_spec _ h3 (rangeRev_desc hc _ _) (fun r hr => (mem_rangeRev.1 hr).2.1), h4⟩

end Tycho.Commit
