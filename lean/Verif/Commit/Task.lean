import Verif.Commit.Links

/-!
C07 at the level of the engine task: committed rounds are removed after every commit (`engine/committer_task.rs`), still the
set and order of the triggers used does not matter.
-/
namespace Tycho.Commit

/-- engine/committer_task.rs:168-175 after a commit: `remove_committed` for every anchor handed out. -/
def removeAll (c : Conf) (s : State) : List AnchorData → Except Err State
  | [] => .ok s
  | a :: rest =>
    match removeCommitted c s a.anchor.id.round with
    | .error e => .error e
    | .ok s' => removeAll c s' rest

/-- engine/committer_task.rs:115-188 the task run for one trigger, when nothing conflicts. -/
def task (S : Shuffler) (c : Conf) (s : State) (t : Point) : Except Err (List AnchorData) × State :=
  match commit S c s t with
  | (.error e, s1) => (.error e, s1)
  | (.ok A, s1) =>
    match removeAll c s1 A with
    | .error e => (.error e, s1)
    | .ok s2 => (.ok A, s2)

/-- Tasks for several triggers in turn, until the first failure. -/
def taskAll (S : Shuffler) (c : Conf) (s : State) : List Point → Except Err (List AnchorData) × State
  | [] => (.ok [], s)
  | t :: ts =>
    match task S c s t with
    | (.error e, s') => (.error e, s')
    | (.ok A, s') =>
      match taskAll S c s' ts with
      | (.error e, s'') => (.error e, s'')
      | (.ok B, s'') => (.ok (A ++ B), s'')

/-- Forget the rounds below `b`. -/
def trimDag (d : Dag) (b : Nat) : Dag := { d with rounds := d.rounds.filter fun r => decide (b ≤ r) }
def trim (s : State) (b : Nat) : State := { s with dag := trimDag s.dag b }

theorem trimDag_trimDag (d a b) : trimDag (trimDag d a) b = trimDag d (max a b) := by
  unfold trimDag
  simp only [List.filter_filter]
  congr 2
  funext r
  by_cases h1 : a ≤ r <;> by_cases h2 : b ≤ r <;> simp [h1, h2] <;> omega

theorem trim_trim (s a b) : trim (trim s a) b = trim s (max a b) := by
  unfold trim; simp [trimDag_trimDag]

theorem trim_zero (s) : trim s 0 = s := by simp [trim, trimDag]

theorem roundsOk_trim {d : Dag} {b x} (h : RoundsOk d) (hx : x ∈ d.rounds) (hb : b ≤ x) :
    RoundsOk (trimDag d b) ∧ d.bottom ≤ (trimDag d b).bottom ∧ (trimDag d b).bottom ≤ max b d.bottom ∧ d.drainUpto b = .ok (trimDag d b) := by
  obtain ⟨n, h0, hn⟩ := roundsOk_iff.1 h
  have hx' := hx
  rw [hn, List.mem_range'_1] at hx'
  have hlen : (d.rounds.filter fun r => decide (r < b)).length = b - d.bottom := by
    have key : ∀ (n s : Nat), b ≤ s + n → ((List.range' s n).filter fun r => decide (r < b)).length = b - s := by
      intro n
      induction n with
      | zero => intro s h; simp; omega
      | succ n ih =>
        intro s h
        rw [List.range'_succ, List.filter_cons]
        split
        · rename_i hlt; simp at hlt; simp [ih (s + 1) (by omega)]; omega
        · rename_i hge; simp at hge
          rw [ih (s + 1) (by omega)]; omega
    rw [hn]; exact key n _ (by omega)
  have hdrain : d.drainUpto b = .ok (trimDag d b) := by
    unfold Dag.drainUpto
    rw [if_pos ⟨hlen.symm, List.any_eq_true.2 ⟨x, hx, by simpa using hb⟩⟩]
    rfl
  obtain ⟨r1, _, _, _, _, r6, _⟩ := drain_ok h hdrain
  refine ⟨r1, r6, ?_, hdrain⟩
  apply bottom_le r1.1
  show _ ∈ d.rounds.filter _
  rw [List.mem_filter, hn, List.mem_range'_1]
  have : b ≤ max b d.bottom := by omega
  simp only [decide_eq_true_eq]
  omega

/-- The bound below which the rounds are removed. -/
def bound (c : Conf) (A : List AnchorData) : Nat := A.foldr (fun a m => max (a.anchor.id.round - c.historyRounds) m) 0

theorem bound_append (c A B) : bound c (A ++ B) = max (bound c A) (bound c B) := by
  unfold bound
  induction A with
  | nil => simp
  | cons a A ih => simp [ih, Nat.max_assoc]

theorem bound_le {c A x} (h : ∀ a ∈ A, a.anchor.id.round - c.historyRounds ≤ x) : bound c A ≤ x := by
  unfold bound
  induction A with
  | nil => simp
  | cons a A ih =>
    simp only [List.foldr_cons]
    have := h a (by simp)
    have := ih (fun b hb => h b (by simp [hb]))
    omega

theorem removeAll_eq {c} : ∀ (A) {s x}, RoundsOk s.dag → x ∈ s.dag.rounds →
    (∀ a ∈ A, a.anchor.id.round - c.historyRounds ≤ x) → removeAll c s A = .ok (trim s (bound c A))
  | [], s, x, _, _, _ => by simp [removeAll, bound, trim_zero]
  | a :: rest, s, x, hr, hx, hle => by
    obtain ⟨r1, _, _, r3⟩ := roundsOk_trim hr hx (hle a (by simp))
    have : removeCommitted c s a.anchor.id.round = .ok (trim s (a.anchor.id.round - c.historyRounds)) := by
      unfold removeCommitted; rw [r3]; rfl
    rw [removeAll, this]
    simp only
    rw [removeAll_eq rest (s := trim s _) (x := x) r1 (by
      simp only [trim, trimDag, List.mem_filter, decide_eq_true_eq]; exact ⟨hx, hle a (by simp)⟩)
      (fun b hb => hle b (by simp [hb])), trim_trim]
    rfl

theorem rangeRev_trim {d : Dag} {b lo hi} (h : b ≤ lo) : (trimDag d b).rangeRev lo hi = d.rangeRev lo hi := by
  unfold Dag.rangeRev trimDag
  simp only [List.filter_filter]
  congr 2
  funext r
  by_cases h1 : lo ≤ r <;> by_cases h2 : b ≤ r <;> by_cases h3 : r ≤ hi <;> simp [h1, h2, h3]
  omega

theorem gatherLoop_congr (S : Shuffler) {d d' : Dag} (hv : d'.view = d.view) (hc : d'.committed = d.committed) :
    ∀ (rs) {next r0 r1 g out}, gatherLoop S d' rs next r0 r1 g out = gatherLoop S d rs next r0 r1 g out
  | [], _, _, _, _, _ => rfl
  | r :: rest, next, r0, r1, g, out => by
    have hp : ∀ id, d'.point id = d.point id := fun id => by unfold Dag.point; rw [hv]
    have hcp : ∀ id, committablePoint d' id = committablePoint d id := fun id => by unfold committablePoint; rw [hp]
    have hvis : ∀ w e, visit d' r w e = visit d r w e := fun w e => by unfold visit; rw [hcp, hc]
    have hva : ∀ l w, visitAll d' r l w = visitAll d r l w := by
      intro l
      induction l with
      | nil => intro w; rfl
      | cons e l ih =>
        intro w
        simp only [visitAll, hvis]
        cases visit d r w e with
        | error x => rfl
        | ok w' => simp only; exact ih w'
    simp only [gatherLoop, hva]
    split
    · rfl
    · cases visitAll d r (S.shuffle g (sortPairs r0)).1 ⟨r1, [], out⟩ with
      | error e => rfl
      | ok w => simp only; exact gatherLoop_congr S hv hc rest

theorem gather_trim {S c d fb anchor b} (h : b ≤ historyLimit c anchor.id.round) :
    gather S c (trimDag d b) fb anchor = gather S c d fb anchor := by
  unfold gather
  rw [rangeRev_trim h, gatherLoop_congr S (d := d) (d' := trimDag d b) rfl rfl]

theorem chainLoop_congr {d d' : Dag} {b} (hv : d'.view = d.view) (hu : d'.usedProof = d.usedProof)
    (hb : d.bottom ≤ d'.bottom) : ∀ (rs) {lk acc items}, chainLoop d b rs lk acc = .ok items →
    chainLoop d' b rs lk acc = .ok items
  | [], lk, acc, items, h => h
  | r :: rest, lk, acc, items, h => by
    unfold chainLoop at h ⊢
    rw [hu]
    split at h
    · rename_i hlt; rw [if_pos hlt]; exact chainLoop_congr hv hu hb rest h
    rename_i hlt
    rw [if_neg hlt]
    split at h
    · simp at h
    rename_i hne
    rw [if_neg hne]
    split at h
    · rename_i a ha
      exact h
    · rename_i hnone
      split at h
      · simp at h
      · rename_i hs; rw [chainStep_congr hv hb hs]; exact h
      · rename_i item next hs
        rw [chainStep_congr hv hb hs]
        exact chainLoop_congr hv hu hb rest h

theorem dequeue_trim {S c s e data s' b} (h : dequeue S c s e = .ok (data, s'))
    (hb : b ≤ historyLimit c e.anchor.id.round) (hpr : b ≤ e.proof.id.round) :
    dequeue S c (trim s b) e = .ok (data, trim s' b) := by
  unfold dequeue at h ⊢
  have hg : gather S c (trim s b).dag (trim s b).fullBottom e.anchor = gather S c s.dag s.fullBottom e.anchor :=
    gather_trim hb
  rw [hg]
  split at h
  · simp at h
  rename_i hist hh
  split at h
  · rename_i hcan
    have hcan' : canUse (trim s b).dag e = true := by
      unfold canUse at hcan ⊢
      simp only [Bool.and_eq_true, decide_eq_true_eq] at hcan ⊢
      refine ⟨⟨hcan.1.1, ?_⟩, hcan.2⟩
      simp only [trim, trimDag, List.mem_filter, decide_eq_true_eq]
      exact ⟨hcan.1.2, hpr⟩
    simp only [hcan', if_true]
    split at h
    · simp at h
    rename_i dag hm
    have hm' : markAll ((trim s b).dag.useProof e) hist = .ok (trimDag dag b) := by
      unfold markAll at hm ⊢
      split at hm
      · rename_i hall
        simp at hm
        subst hm
        exact (if_pos hall).trans rfl
      · simp at hm
    rw [hm']
    simp only
    split at h
    · simp at h
    rename_i first flag hf
    have hf' : takeFlag (trim s b).gapFlag (decide ((trim s b).firstExecutable ≤ e.anchor.id.round)) = .ok (first, flag) := hf
    rw [hf']
    simp at h
    obtain ⟨rfl, rfl⟩ := h
    rfl
  · simp at h

theorem dequeueAll_trim {S c b p} : ∀ (items) {s A s2}, dequeueAll S c s items = (.ok A, s2) → Ordered p items →
    b ≤ p - c.historyRounds → dequeueAll S c (trim s b) items = (.ok A, trim s2 b)
  | [], s, A, s2, h, _, _ => by
    simp [dequeueAll] at h ⊢
    exact ⟨h.1, by rw [h.2]⟩
  | e :: rest, s, A, s2, h, hord, hb => by
    rw [dequeueAll] at h
    split at h
    · simp at h
    rename_i data s' hd
    split at h
    · simp at h
    rename_i l s'' hrec
    simp at h
    obtain ⟨rfl, rfl⟩ := h
    have h1 := hord.1
    have h2 := hord.2.1
    have hlim : b ≤ historyLimit c e.anchor.id.round := by unfold historyLimit; omega
    rw [dequeueAll, dequeue_trim hd hlim (by omega)]
    simp only
    rw [dequeueAll_trim rest hrec hord.2.2 (by omega)]

/-- Rounds that are only needed by anchors already committed can be removed at any time. -/
theorem commit_trim {S c s t A s2 b p x} (hr : RoundsOk s.dag) (h : commit S c s t = (.ok A, s2))
    (hp : s.dag.lastProof = some p) (hb : b ≤ p - c.historyRounds) (hx : x ∈ s.dag.rounds) (hbx : b ≤ x) :
    commit S c (trim s b) t = (.ok A, trim s2 b) := by
  obtain ⟨r1, r2, rmax, _⟩ := roundsOk_trim hr hx hbx
  have hcb : s.dag.chainBottom = p := by unfold Dag.chainBottom; rw [hp]; rfl
  have hcb' : (trim s b).dag.chainBottom = p := by
    show (trimDag s.dag b).lastProof.getD _ = p
    simp [trimDag, hp]
  unfold commit at h
  split at h
  · rename_i hlt
    simp at h
    obtain ⟨rfl, rfl⟩ := h
    unfold commit
    rw [if_pos (by show t.id.round < (trimDag s.dag b).bottom; omega)]
  rename_i hge
  by_cases hlt : t.id.round < (trim s b).dag.bottom
  · -- the trigger lies in the removed part: it had nothing new
    have hA : A = [] ∧ s2 = s := by
      split at h
      · simp at h; exact ⟨h.1, h.2.symm⟩
      · simp at h
      split at h
      · simp at h; exact ⟨h.1, h.2.symm⟩
      split at h
      · simp at h
      rename_i items hc
      have : items = [] := by
        rcases anchorChain_ok hc with ⟨hn, _⟩ | ⟨lk, _, hle, _⟩
        · exact hn
        · exfalso
          rw [hcb] at hle
          have : (trim s b).dag.bottom = (trimDag s.dag b).bottom := rfl
          omega
      subst this
      simp [dequeueAll] at h
      exact ⟨h.1, h.2.symm⟩
    obtain ⟨rfl, rfl⟩ := hA
    unfold commit
    rw [if_pos hlt]
  unfold commit
  rw [if_neg hlt]
  split at h
  · simp at h; obtain ⟨rfl, rfl⟩ := h; rfl
  · simp at h
  split at h
  · rename_i hg; simp at h; obtain ⟨rfl, rfl⟩ := h; simp [hg]
  rename_i hg
  simp only [if_neg hg]
  split at h
  · simp at h
  rename_i items hc
  have hc' : anchorChain (trim s b).dag t = .ok items := by
    unfold anchorChain at hc ⊢
    rw [hcb'] 
    rw [hcb] at hc
    split at hc
    · rename_i hlt2; rw [if_pos hlt2]; exact hc
    rename_i hlt2
    rw [if_neg hlt2]
    split at hc
    · simp at hc
    rename_i lk hlk
    split at hc
    · simp at hc
    rename_i l hl
    have : (trim s b).dag.rangeRev p (t.id.round - 1) = s.dag.rangeRev p (t.id.round - 1) := rangeRev_trim (by omega)
    rw [this, chainLoop_congr (d := s.dag) (d' := (trim s b).dag) rfl rfl r2 _ hl]
    exact hc
  rw [hc']
  simp only
  obtain ⟨_, _, spec, _⟩ := anchorChain_spec hr.1 hc
  have := spec.ordered
  rw [hcb] at this
  exact dequeueAll_trim items h this hb

theorem stale_trim {s t b} (h : Stale s t) : Stale (trim s b) t := h

theorem commit_facts {S c s t A s2} (hr : RoundsOk s.dag) (h : commit S c s t = (.ok A, s2)) :
    (∀ a ∈ A, a.anchor.id.round ∈ s.dag.rounds ∧ a.proof.round = a.anchor.id.round + 1) ∧ s2.dag.rounds = s.dag.rounds := by
  by_cases hA : A = []
  · subst hA
    refine ⟨by simp, ?_⟩
    unfold commit at h
    split at h
    · simp at h; rw [← h]
    split at h
    · simp at h; rw [← h]
    · simp at h
    split at h
    · simp at h; rw [← h]
    split at h
    · simp at h
    rename_i items hc
    obtain ⟨_, _, spec, _⟩ := anchorChain_spec hr.1 hc
    exact (dequeueAll_dag items h spec.ordered).2.1
  · obtain ⟨_, _, _, items, hc, hd⟩ := commit_nonempty h hA
    obtain ⟨_, _, spec, _⟩ := anchorChain_spec hr.1 hc
    obtain ⟨p1, p2⟩ := dequeueAll_proofs items hd
    refine ⟨?_, (dequeueAll_dag items hd spec.ordered).2.1⟩
    intro a ha
    -- positions correspond
    have key : ∀ (items : List Enqueued) (A : List AnchorData), A.map AnchorData.proof = items.map (fun e => e.proof.id) →
        A.map AnchorData.anchor = items.map Enqueued.anchor → ∀ a ∈ A, ∃ e ∈ items, a.proof = e.proof.id ∧ a.anchor = e.anchor := by
      intro items
      induction items with
      | nil => intro A h1 _ a ha; simp at h1; subst h1; simp at ha
      | cons e es ih =>
        intro A h1 h2 a ha
        cases A with
        | nil => simp at ha
        | cons x xs =>
          simp at h1 h2
          rcases List.mem_cons.1 ha with rfl | ha
          · exact ⟨e, by simp, h1.1, h2.1⟩
          · obtain ⟨y, hy, hh⟩ := ih xs h1.2 h2.2 a ha
            exact ⟨y, by simp [hy], hh⟩
    obtain ⟨e, he, q1, q2⟩ := key items A p1 p2 a ha
    refine ⟨by rw [q2]; exact (mem_rangeRev.1 (spec.each e he).2.2.1).1, ?_⟩
    rw [q1, q2]; exact (ordered_ge items spec.ordered e he).2

theorem task_of_commit {S c s t A s1} (hr : RoundsOk s.dag) (h : commit S c s t = (.ok A, s1)) :
    task S c s t = (.ok A, trim s1 (bound c A)) := by
  obtain ⟨f1, f2⟩ := commit_facts hr h
  unfold task
  rw [h]
  simp only
  have hr1 : RoundsOk s1.dag := by
    obtain ⟨n, hn⟩ := hr.1
    exact ⟨contiguous_mk (f2.trans hn), by rw [f2]; exact hr.2⟩
  obtain ⟨n, h0, hn⟩ := roundsOk_iff.1 hr
  rw [removeAll_eq A (x := s.dag.bottom + n - 1) hr1 (by rw [f2, hn, List.mem_range'_1]; omega) (fun a ha => by
    have := (f1 a ha).1
    rw [hn, List.mem_range'_1] at this
    omega)]

theorem task_schedule_aux {S c t} : ∀ (ts) {s A s2}, RoundsOk s.dag → commit S c s t = (.ok A, s2) →
    (∀ x ∈ ts, Stale s x ∨ (filterTrigger x = .trigger ∧ ∃ a ∈ A, x.prevId = some a.proof)) →
    taskAll S c s (ts ++ [t]) = (.ok A, trim s2 (bound c A))
  | [], s, A, s2, hr, h, _ => by simp [taskAll, task_of_commit hr h]
  | t1 :: ts, s, A, s2, hr, h, hts => by
    rcases hts t1 (by simp) with hst | ⟨hf, a, ha, hp⟩
    · have h1 := task_of_commit hr (commit_stale (S := S) (c := c) hst)
      rw [List.cons_append, taskAll, h1]
      simp only [bound, List.foldr_nil, trim_zero]
      rw [task_schedule_aux ts hr h (fun x hx => hts x (by simp [hx]))]
      simp [bound]
    · obtain ⟨A1, s1, A2, c1, c2, rfl, r1, p1, u1, hlow⟩ := commit_split hr h hf ha hp
      have h1 := task_of_commit hr c1
      obtain ⟨f1, f2⟩ := commit_facts hr c1
      rw [List.cons_append, taskAll, h1]
      simp only
      -- every removed round is below what later anchors need
      have hb : bound c A1 ≤ a.proof.round - c.historyRounds := by
        apply bound_le
        intro y hy
        have := (f1 y hy).2
        rcases hlow y hy with he | hlt
        · rw [he] at this; omega
        · omega
      obtain ⟨n, h0, hn⟩ := roundsOk_iff.1 r1
      have hx : s1.dag.bottom + n - 1 ∈ s1.dag.rounds := by rw [hn, List.mem_range'_1]; omega
      have hbx : bound c A1 ≤ s1.dag.bottom + n - 1 := by
        apply bound_le
        intro y hy
        have := (f1 y hy).1
        rw [← f2, hn, List.mem_range'_1] at this
        omega
      have hct := commit_trim r1 c2 p1 hb hx hbx
      have hrt := (roundsOk_trim r1 hx hbx).1
      rw [task_schedule_aux ts (s := trim s1 (bound c A1)) hrt hct ?_]
      · simp [trim_trim, bound_append]
      intro x hx
      rcases hts x (by simp [hx]) with ⟨hxf, q, p, hq, hlp, hcase⟩ | ⟨hxf, y, hy, hyp⟩
      · left
        apply stale_trim
        refine ⟨hxf, q, _, hq, p1, Or.inl ?_⟩
        have hpa : p < a.proof.round := by
          obtain ⟨_, _, _, items, hchain, hdeq⟩ := commit_nonempty h (List.ne_nil_of_mem ha)
          have hmap := (dequeueAll_proofs items hdeq).1
          have hmem : a.proof ∈ items.map (fun e => e.proof.id) := by rw [← hmap]; exact List.mem_map.2 ⟨a, ha, rfl⟩
          obtain ⟨e, he, hep⟩ := List.mem_map.1 hmem
          obtain ⟨lk, _, hs, _⟩ := anchorChain_spec hr.1 hchain
          have hge := ordered_ge items hs.ordered e he
          have hcb : s.dag.chainBottom = p := by unfold Dag.chainBottom; rw [hlp]; rfl
          rw [← hep]; omega
        rcases hcase with hc | ⟨hc, _⟩ <;> omega
      · rcases List.mem_append.1 hy with hy | hy
        · left
          apply stale_trim
          refine ⟨hxf, y.proof, _, hyp, p1, ?_⟩
          rcases hlow y hy with he | hlt
          · exact Or.inr ⟨by rw [he], by rw [u1, he]⟩
          · exact Or.inl hlt
        · exact Or.inr ⟨hxf, y, hy, hyp⟩

end Tycho.Commit
