import Verif.Commit.Run

/-!
C07: which triggers happen to be used, and in which order, does not matter.
-/
namespace Tycho.Commit

theorem chainStep_congr {d d' : Dag} {lk below x} (hv : d'.view = d.view) (hb : d.bottom ≤ d'.bottom)
    (h : chainStep d lk below = .ok x) : chainStep d' lk below = .ok x := by
  have hp : ∀ id, d'.point id = d.point id := fun id => by unfold Dag.point; rw [hv]
  have hr : ∀ id, readyValid d' id = readyValid d id := fun id => by unfold readyValid; rw [hp]
  have hc : ∀ id, chainedProof d' id = chainedProof d id := fun id => by unfold chainedProof; rw [hr]
  unfold chainStep at h ⊢
  rw [hc]
  split at h
  · simp at h
  split at h
  · simp at h
  split at h
  · split at h
    · rename_i hle
      simp at h
      rw [if_pos (Nat.le_trans hle hb), h]
    · simp at h
  · rw [hr]; exact h

theorem filter_head_ge {p : Nat} : ∀ {rest : List Nat}, rest.Pairwise (· > ·) → p ∈ rest →
    (rest.filter fun r => decide (p ≤ r)).head? = rest.head?
  | [], _, h => by simp at h
  | y :: ys, hp, h => by
    have : p ≤ y := by
      rcases List.mem_cons.1 h with rfl | h
      · exact Nat.le_refl _
      · have := (List.pairwise_cons.1 hp).1 p h; omega
    simp [this]

theorem filter_le_self {r : Nat} {rest : List Nat} (hp : ∀ x ∈ rest, r > x) :
    (r :: rest).filter (fun x => decide (x ≤ r)) = r :: rest := by
  rw [List.filter_eq_self]
  intro x hx
  rcases List.mem_cons.1 hx with rfl | hx
  · simp
  · have := hp x hx; simp; omega

theorem filter_ge_self {r : Nat} {rest : List Nat} (hp : ∀ x ∈ rest, r > x) :
    (r :: rest).filter (fun x => decide (r ≤ x)) = [r] := by
  rw [List.filter_cons]
  simp only [Nat.le_refl, decide_true, if_true, List.cons.injEq, true_and]
  rw [List.filter_eq_nil_iff]
  intro x hx; have := hp x hx; simp; omega

/-- The chain can be cut at any of its proofs: the lower part is what a trigger of that proof finds, the upper part is what
remains once the lower part is committed. -/
theorem chainLoop_split {d d' : Dag} {b : Nat} {e1 : Enqueued} (hv : d'.view = d.view) (hbot : d.bottom ≤ d'.bottom)
    (hused : d'.usedProof e1.proof.id.round = some e1.proof.id.author)
    (hsame : ∀ r, e1.proof.id.round < r → d'.usedProof r = d.usedProof r) :
    ∀ (rs) {lk lower upper}, chainLoop d b rs lk [] = .ok (lower ++ e1 :: upper) → rs.Pairwise (· > ·) →
      (∀ r ∈ rs, b ≤ r) →
      chainLoop d b (rs.filter fun r => decide (r ≤ e1.proof.id.round)) e1.proof.id [] = .ok (lower ++ [e1]) ∧
      chainLoop d' e1.proof.id.round (rs.filter fun r => decide (e1.proof.id.round ≤ r)) lk [] = .ok upper
  | [], lk, lower, upper, h, _, _ => by simp [chainLoop] at h
  | r :: rest, lk, lower, upper, h, hp, hb => by
    have spec := chainLoop_spec _ h hp hb
    rw [List.pairwise_cons] at hp
    have hb' : ∀ x ∈ rest, b ≤ x := fun x hx => hb x (by simp [hx])
    have hfull := h
    unfold chainLoop at h
    split at h
    · rename_i hlt
      have hmem := (chainLoop_spec rest h hp.2 hb').each e1 (by simp)
      have hr : e1.proof.id.round < r := hp.1 _ hmem.2.1
      obtain ⟨i1, i2⟩ := chainLoop_split hv hbot hused hsame rest h hp.2 hb'
      constructor
      · rw [List.filter_cons, if_neg (by simp; omega)]; exact i1
      · rw [List.filter_cons, if_pos (by simp; omega)]
        unfold chainLoop
        rw [if_pos hlt]; exact i2
    split at h
    · simp at h
    rename_i hnlt hne
    have hr : r = lk.round := by omega
    split at h
    · split at h
      · simp at h
      · split at h <;> simp at h
    rename_i hnone
    split at h
    · simp at h
    · simp at h
    rename_i item next hstep
    rw [chainLoop_acc] at h
    cases hrec : chainLoop d b rest next [] with
    | error e => rw [hrec] at h; simp [Except.map] at h
    | ok items' =>
      rw [hrec] at h
      simp [Except.map] at h
      rcases List.eq_nil_or_concat upper with rfl | ⟨upper', x, rfl⟩
      · -- the cut is at the newest proof
        have hx := List.append_inj' h (by simp)
        obtain ⟨rfl, h2⟩ := hx
        simp at h2; subst h2
        obtain ⟨_, g2, _⟩ := chainStep_some hstep
        constructor
        · rw [g2, ← hr, filter_le_self hp.1]; exact hfull
        · rw [g2, ← hr, filter_ge_self hp.1]
          unfold chainLoop
          rw [if_neg (by omega), if_neg (by omega)]
          rw [g2, ← hr] at hused
          rw [hused]
          simp
      · have h' : items' ++ [item] = (lower ++ e1 :: upper') ++ [x] := by simpa using h
        obtain ⟨h1, h2⟩ := List.append_inj' h' (by simp)
        simp at h2; subst h2
        subst h1
        have hmem := (chainLoop_spec rest hrec hp.2 hb').each e1 (by simp)
        have hlt : e1.proof.id.round < r := hp.1 _ hmem.2.1
        obtain ⟨i1, i2⟩ := chainLoop_split hv hbot hused hsame rest hrec hp.2 hb'
        constructor
        · rw [List.filter_cons, if_neg (by simp; omega)]; exact i1
        · rw [List.filter_cons, if_pos (by simp; omega)]
          unfold chainLoop
          rw [if_neg hnlt, if_neg hne, hsame r hlt, hnone, filter_head_ge hp.2 hmem.2.1,
            chainStep_congr hv hbot hstep]
          simp only
          rw [chainLoop_acc, i2]
          simp [Except.map]

/-! ### Dequeue in parts -/

theorem dequeueAll_append {S c} : ∀ (l1) {s l2 A s2}, dequeueAll S c s (l1 ++ l2) = (.ok A, s2) →
    ∃ A1 s1 A2, dequeueAll S c s l1 = (.ok A1, s1) ∧ dequeueAll S c s1 l2 = (.ok A2, s2) ∧ A = A1 ++ A2
  | [], s, l2, A, s2, h => ⟨[], s, A, rfl, h, rfl⟩
  | e :: rest, s, l2, A, s2, h => by
    rw [List.cons_append, dequeueAll] at h
    split at h
    · simp at h
    rename_i data s' hd
    split at h
    · simp at h
    rename_i l s'' hrec
    simp at h
    obtain ⟨rfl, rfl⟩ := h
    obtain ⟨A1, s1, A2, h1, h2, rfl⟩ := dequeueAll_append rest hrec
    refine ⟨data :: A1, s1, A2, ?_, h2, rfl⟩
    simp [dequeueAll, hd, h1]

theorem dequeueAll_proofs {S c} : ∀ (l) {s A s2}, dequeueAll S c s l = (.ok A, s2) →
    A.map AnchorData.proof = l.map (fun e => e.proof.id) ∧ A.map AnchorData.anchor = l.map Enqueued.anchor
  | [], s, A, s2, h => by simp [dequeueAll] at h; simp [h.1.symm]
  | e :: rest, s, A, s2, h => by
    rw [dequeueAll] at h
    split at h
    · simp at h
    rename_i data s' hd
    split at h
    · simp at h
    rename_i l s'' hrec
    simp at h
    obtain ⟨rfl, rfl⟩ := h
    obtain ⟨_, _, _, _, h5, h6, _⟩ := dequeue_ok hd
    have := dequeueAll_proofs rest hrec
    simp [h5, h6, this]

/-- What a dequeued part leaves in the DAG. -/
theorem dequeueAll_dag {S c} : ∀ (l) {s A s2}, dequeueAll S c s l = (.ok A, s2) → Ordered s.dag.chainBottom l →
    s2.dag.view = s.dag.view ∧ s2.dag.rounds = s.dag.rounds ∧
    (∀ e, l.getLast? = some e → s2.dag.lastProof = some e.proof.id.round ∧
      s2.dag.usedProof e.proof.id.round = some e.anchor.id.author) ∧
    (l = [] → s2 = s) ∧
    (∀ r, (∀ e ∈ l, e.proof.id.round < r) → s2.dag.usedProof r = s.dag.usedProof r) ∧
    (∀ e ∈ l, c.genesis < e.anchor.id.round) ∧
    (∀ e ∈ l, ∀ x, l.getLast? = some x → e.proof.id.round ≤ x.proof.id.round)
  | [], s, A, s2, h, _ => by simp [dequeueAll] at h; simp [h.2]
  | e :: rest, s, A, s2, h, hord => by
    rw [dequeueAll] at h
    split at h
    · simp at h
    rename_i data s' hd
    split at h
    · simp at h
    rename_i l s'' hrec
    simp at h
    obtain ⟨rfl, rfl⟩ := h
    obtain ⟨h1, _, _, h4, _⟩ := dequeue_ok hd
    have hcb : s'.dag.chainBottom = e.proof.id.round := by rw [h4]; rfl
    have hord' : Ordered s'.dag.chainBottom rest := by rw [hcb]; exact hord.2.2
    obtain ⟨i1, i2, i3, i4, i5, i6, i7⟩ := dequeueAll_dag rest hrec hord'
    have hgen : c.genesis < e.anchor.id.round := by
      have := gather_limit h1; unfold historyLimit at this; omega
    have hge := ordered_ge rest hord.2.2
    refine ⟨by rw [i1, h4]; rfl, by rw [i2, h4]; rfl, ?_, by simp, ?_, ?_, ?_⟩
    · intro x hx
      cases rest with
      | nil =>
        simp at hx; subst hx
        have := i4 rfl; rw [this, h4]
        exact ⟨rfl, by simp [Dag.useProof]⟩
      | cons y ys => rw [List.getLast?_cons_cons] at hx; exact i3 x hx
    · intro r hr
      rw [i5 r (fun x hx => hr x (by simp [hx])), h4]
      have := hr e (by simp)
      simp [Dag.useProof]; intro hh; omega
    · intro x hx
      rcases List.mem_cons.1 hx with rfl | hx
      · exact hgen
      · exact i6 x hx
    · intro x hx y hy
      cases rest with
      | nil => simp at hx hy; subst hx; subst hy; exact Nat.le_refl _
      | cons z zs =>
        rw [List.getLast?_cons_cons] at hy
        rcases List.mem_cons.1 hx with rfl | hx
        · have h3 := hge y (List.mem_of_getLast? hy)
          omega
        · exact i7 x hx y hy

theorem commit_trigger_eq {S c s t} (h1 : s.dag.bottom ≤ t.id.round) (h2 : filterTrigger t = .trigger)
    (h3 : t.id.round ≠ c.genesis) : commit S c s t =
      match anchorChain s.dag t with
      | .error e => (.error e, s)
      | .ok chain => dequeueAll S c s chain := by
  unfold commit
  rw [if_neg (by omega), h2]
  simp only [if_neg h3]
  cases anchorChain s.dag t <;> rfl

/-- A commit that hands out something: it was a real trigger, and its chain was dequeued. -/
theorem commit_nonempty {S c s t A s2} (h : commit S c s t = (.ok A, s2)) (hA : A ≠ []) :
    s.dag.bottom ≤ t.id.round ∧ filterTrigger t = .trigger ∧ t.id.round ≠ c.genesis ∧
    ∃ items, anchorChain s.dag t = .ok items ∧ dequeueAll S c s items = (.ok A, s2) := by
  unfold commit at h
  split at h
  · simp at h; exact absurd h.1 (by simpa using hA)
  rename_i hb
  split at h
  · simp at h; exact absurd h.1 (by simpa using hA)
  · simp at h
  rename_i hf
  split at h
  · simp at h; exact absurd h.1 (by simpa using hA)
  rename_i hg
  split at h
  · simp at h
  rename_i chain hc
  exact ⟨by omega, hf, hg, chain, hc, h⟩

theorem prevId_round {t : Point} {q} (h : t.prevId = some q) : q.round = t.id.round - 1 ∧ q.author = t.id.author := by
  unfold Point.prevId at h
  rw [Option.map_eq_some_iff] at h
  obtain ⟨d, _, rfl⟩ := h
  exact ⟨rfl, rfl⟩

theorem rangeRev_filter_le {d : Dag} {lo hi x} (hx : x ≤ hi) :
    (d.rangeRev lo hi).filter (fun r => decide (r ≤ x)) = d.rangeRev lo x := by
  unfold Dag.rangeRev
  rw [List.filter_reverse, List.filter_filter]
  congr 2
  funext r
  by_cases h1 : lo ≤ r <;> by_cases h2 : r ≤ x <;> by_cases h3 : r ≤ hi <;> simp [h1, h2, h3]
  omega

theorem rangeRev_filter_ge {d d' : Dag} {lo hi x} (hr : d'.rounds = d.rounds) (hx : lo ≤ x) :
    (d.rangeRev lo hi).filter (fun r => decide (x ≤ r)) = d'.rangeRev x hi := by
  unfold Dag.rangeRev
  rw [List.filter_reverse, List.filter_filter, hr]
  congr 2
  funext r
  by_cases h1 : lo ≤ r <;> by_cases h2 : x ≤ r <;> by_cases h3 : r ≤ hi <;> simp [h1, h2, h3]
  omega

/-- Committing on an earlier trigger of the same chain first changes nothing in total. -/
theorem commit_split {S c s t1 t2 A s2} (hc : RoundsOk s.dag) (h2 : commit S c s t2 = (.ok A, s2))
    (hf : filterTrigger t1 = .trigger) {a} (ha : a ∈ A) (hp : t1.prevId = some a.proof) :
    ∃ A1 s1 A2, commit S c s t1 = (.ok A1, s1) ∧ commit S c s1 t2 = (.ok A2, s2) ∧ A = A1 ++ A2 ∧
      RoundsOk s1.dag ∧ s1.dag.lastProof = some a.proof.round ∧ s1.dag.usedProof a.proof.round = some a.proof.author ∧
      (∀ x ∈ A1, x.proof = a.proof ∨ x.proof.round < a.proof.round) := by
  obtain ⟨hb, hf2, hg2, items, hchain, hdeq⟩ := commit_nonempty h2 (List.ne_nil_of_mem ha)
  have hmap := (dequeueAll_proofs items hdeq).1
  have : a.proof ∈ items.map (fun e => e.proof.id) := by rw [← hmap]; exact List.mem_map.2 ⟨a, ha, rfl⟩
  obtain ⟨e1, he1, he1p⟩ := List.mem_map.1 this
  obtain ⟨lower, upper, rfl⟩ := List.append_of_mem he1
  rcases anchorChain_ok hchain with ⟨hnil, _⟩ | ⟨lk, hlk, hle, hloop, hfront⟩
  · simp at hnil
  have spec := chainLoop_spec _ hloop (rangeRev_desc hc.1 _ _) (fun r hr => (mem_rangeRev.1 hr).2.1)
  obtain ⟨g1, g2, g3, g4⟩ := spec.each e1 (by simp)
  obtain ⟨m1, m2, m3⟩ := mem_rangeRev.1 g2
  obtain ⟨A1, s1, A2, d1, d2, rfl⟩ := dequeueAll_append (lower ++ [e1]) (l2 := upper) (by simpa using hdeq)
  have hord1 : Ordered s.dag.chainBottom (lower ++ [e1]) := by
    apply ordered_append (lower ++ [e1]) (l2 := upper); simpa using spec.ordered
  obtain ⟨v1, v2, v3, _, v5, v6, v7⟩ := dequeueAll_dag _ d1 hord1
  obtain ⟨l1, l2⟩ := v3 e1 (by simp)
  have hauth : e1.anchor.id.author = e1.proof.id.author := (prevId_round g1.prev).2
  rw [hauth] at l2
  have hbeq : s1.dag.bottom = s.dag.bottom := by unfold Dag.bottom; rw [v2]
  have hsplit := chainLoop_split (d := s.dag) (d' := s1.dag) (b := s.dag.chainBottom) (e1 := e1) v1 (by omega) l2
    (fun r hr => v5 r (fun x hx => by
      have := v7 x hx e1 (by simp)
      omega)) _ hloop (rangeRev_desc hc.1 _ _) (fun r hr => (mem_rangeRev.1 hr).2.1)
  have hcb1 : s1.dag.chainBottom = e1.proof.id.round := by unfold Dag.chainBottom; rw [l1]; rfl
  have hge1 := ordered_ge _ hord1 e1 (by simp)
  have hgen := v6 e1 (by simp)
  rw [← he1p] at hp ⊢
  have hpr := (prevId_round hp).1
  have hround : t1.id.round = e1.proof.id.round + 1 := by omega
  refine ⟨A1, s1, A2, ?_, ?_, rfl, ?_, l1, l2, ?_⟩
  · rw [commit_trigger_eq (by have := bottom_le hc.1 m1; omega) hf (by omega)]
    have : anchorChain s.dag t1 = .ok (lower ++ [e1]) := by
      unfold anchorChain
      rw [if_neg (by omega), hp]
      simp only
      rw [show t1.id.round - 1 = e1.proof.id.round by omega, ← rangeRev_filter_le m3, hsplit.1]
      simp only
      unfold checkFront
      cases hh : (lower ++ [e1]).head? with
      | none => rfl
      | some x =>
        have : (lower ++ e1 :: upper).head? = some x := by
          rw [← hh]; cases lower <;> simp
        simp only [if_pos (hfront x this)]
    rw [this]; exact d1
  · rw [commit_trigger_eq (by omega) hf2 hg2]
    have : anchorChain s1.dag t2 = .ok upper := by
      unfold anchorChain
      rw [hcb1, if_neg (by omega), hlk]
      simp only
      rw [← rangeRev_filter_ge v2 m2, hsplit.2]
      simp only
      unfold checkFront
      cases upper with
      | nil => rfl
      | cons x xs =>
        have := spec.linked
        have hl := (List.isChain_append_cons_cons.1 this).2.1
        simp [hl.2]
    rw [this]; exact d2
  · refine ⟨?_, by rw [v2]; exact hc.2⟩
    obtain ⟨n, hn⟩ := hc.1
    exact contiguous_mk (v2.trans hn)
  · intro x hx
    have hm1 := (dequeueAll_proofs _ d1).1
    have : x.proof ∈ (lower ++ [e1]).map (fun e => e.proof.id) := by rw [← hm1]; exact List.mem_map.2 ⟨x, hx, rfl⟩
    obtain ⟨y, hy, hyp⟩ := List.mem_map.1 this
    rw [← hyp]
    rcases List.mem_append.1 hy with hy | hy
    · right
      have hordl := hord1
      clear * - hordl hy hord1 hge1
      -- lower items are below e1
      have key : ∀ (l : List Enqueued) {b}, Ordered b (l ++ [e1]) → ∀ z ∈ l, z.proof.id.round < e1.proof.id.round := by
        intro l
        induction l with
        | nil => simp
        | cons w ws ih =>
          intro b hb z hz
          rcases List.mem_cons.1 hz with rfl | hz
          · have := ordered_ge (ws ++ [e1]) hb.2.2 e1 (by simp); omega
          · exact ih hb.2.2 z hz
      exact key lower hord1 y hy
    · simp at hy; subst hy; exact Or.inl rfl

/-- A trigger whose proof is already used or older. -/
def Stale (s : State) (t : Point) : Prop :=
  filterTrigger t = .trigger ∧ ∃ q p, t.prevId = some q ∧ s.dag.lastProof = some p ∧
    (q.round < p ∨ (q.round = p ∧ s.dag.usedProof p = some q.author))

theorem commit_stale {S c s t} (h : Stale s t) : commit S c s t = (.ok [], s) := by
  obtain ⟨hf, q, p, hq, hp, hcase⟩ := h
  have hqr := (prevId_round hq).1
  by_cases hb : t.id.round < s.dag.bottom
  · unfold commit; rw [if_pos hb]
  by_cases hg : t.id.round = c.genesis
  · unfold commit; rw [if_neg hb, hf]; simp [hg]
  rw [commit_trigger_eq (by omega) hf hg]
  have hcb : s.dag.chainBottom = p := by unfold Dag.chainBottom; rw [hp]; rfl
  have : anchorChain s.dag t = .ok [] := by
    unfold anchorChain
    rw [hcb]
    rcases hcase with hlt | ⟨heq, hu⟩
    · rw [if_pos (by omega)]
    · rw [if_neg (by omega), hq]
      simp only
      have hrange : ∀ r ∈ s.dag.rangeRev p (t.id.round - 1), r = p := by
        intro r hr; have := mem_rangeRev.1 hr; omega
      cases hrr : s.dag.rangeRev p (t.id.round - 1) with
      | nil => simp [chainLoop, checkFront]
      | cons r rest =>
        have hr : r = p := hrange r (by rw [hrr]; simp)
        subst hr
        unfold chainLoop
        rw [if_neg (by omega), if_neg (by omega), hu]
        simp [checkFront]
  rw [this]; rfl

/-- Commit on several triggers in turn: everything handed out, until the first failure. -/
def commitAll (S : Shuffler) (c : Conf) (s : State) : List Point → Except Err (List AnchorData) × State
  | [] => (.ok [], s)
  | t :: ts =>
    match commit S c s t with
    | (.error e, s') => (.error e, s')
    | (.ok A, s') =>
      match commitAll S c s' ts with
      | (.error e, s'') => (.error e, s'')
      | (.ok B, s'') => (.ok (A ++ B), s'')

theorem schedule_aux {S c t} : ∀ (ts) {s A s2}, RoundsOk s.dag → commit S c s t = (.ok A, s2) →
    (∀ x ∈ ts, Stale s x ∨ (filterTrigger x = .trigger ∧ ∃ a ∈ A, x.prevId = some a.proof)) →
    commitAll S c s (ts ++ [t]) = (.ok A, s2)
  | [], s, A, s2, _, h, _ => by simp [commitAll, h]
  | t1 :: ts, s, A, s2, hr, h, hts => by
    rcases hts t1 (by simp) with hst | ⟨hf, a, ha, hp⟩
    · rw [List.cons_append, commitAll, commit_stale hst]
      simp only
      rw [schedule_aux ts hr h (fun x hx => hts x (by simp [hx]))]
      simp
    · obtain ⟨A1, s1, A2, c1, c2, rfl, r1, p1, u1, hlow⟩ := commit_split hr h hf ha hp
      rw [List.cons_append, commitAll, c1]
      simp only
      rw [schedule_aux ts r1 c2 ?_]
      intro x hx
      rcases hts x (by simp [hx]) with ⟨hxf, q, p, hq, hlp, hcase⟩ | ⟨hxf, y, hy, hyp⟩
      · left
        refine ⟨hxf, q, _, hq, p1, Or.inl ?_⟩
        -- the last proof moved up
        have hpa : p < a.proof.round := by
          obtain ⟨_, _, _, items, hchain, hdeq⟩ := commit_nonempty h (List.ne_nil_of_mem ha)
          have hmap := (dequeueAll_proofs items hdeq).1
          have hmem : a.proof ∈ items.map (fun e => e.proof.id) := by rw [← hmap]; exact List.mem_map.2 ⟨a, ha, rfl⟩
          obtain ⟨e, he, hep⟩ := List.mem_map.1 hmem
          obtain ⟨lk, _, hs, _⟩ := anchorChain_spec hr.1 hchain
          have hge := ordered_ge items hs.ordered e he
          have hcb : s.dag.chainBottom = p := by unfold Dag.chainBottom; rw [hlp]; rfl
          rw [← hep]; omega
        rcases hcase with hc | ⟨hc, _⟩ <;> omega
      · rcases List.mem_append.1 hy with hy | hy
        · left
          refine ⟨hxf, y.proof, _, hyp, p1, ?_⟩
          rcases hlow y hy with he | hlt
          · exact Or.inr ⟨by rw [he], by rw [u1, he]⟩
          · exact Or.inl hlt
        · exact Or.inr ⟨hxf, y, hy, hyp⟩

end Tycho.Commit
