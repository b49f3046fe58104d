import Verif.Cert.Steps
/-! Certification over all interleavings of its callers. -/
namespace Tycho.Cert

/-- Certification is sound at every moment: a certified point is a directly certified one or lies at most `depth` rounds
below one on a path of known dependencies, and its height tells how much deeper certification goes. -/
theorem certified_sound (depth : Nat) (ops : List Op) (q : Nat) (h : (run depth ops).isCertified q = true) :
    ∃ p c, Op.certify p ∈ ops ∧ Leads (run depth ops).known p q c ∧ c ≤ depth ∧
      (run depth ops).height q = depth + 1 - c := by
  have g := holds_run depth ops
  simp only [St.isCertified, decide_eq_true_eq] at h
  obtain ⟨p, c, h1, h2, h3⟩ := g.low q (by omega)
  exact ⟨p, c, h1, h2, by omega, by unfold St.height; omega⟩

/-- When all traversals are over, nothing is missed: every point at most `depth` rounds below a directly certified one, on
a path of known dependencies that were not dropped, is certified, at least as high as the path tells. -/
theorem certified_complete (depth : Nat) (ops : List Op) (hq : (run depth ops).Quiet) (p q c : Nat)
    (hp : Op.certify p ∈ ops) (hc : c ≤ depth)
    (hpath : Path (run depth ops).known (fun r => (run depth ops).alive r = true) p q c) :
    (run depth ops).isCertified q = true ∧ depth + 1 - c ≤ (run depth ops).height q := by
  have g := holds_run depth ops
  have hno : ∀ r n, ¬ Pends (run depth ops).tasks r n := by
    rintro r n ⟨t, ht, hpd⟩
    rw [hq t ht] at hpd; exact hpd
  have main : ∀ q c, Path (run depth ops).known (fun r => (run depth ops).alive r = true) p q c → c ≤ depth →
      depth + 1 - c ≤ (run depth ops).height q := by
    intro q c hpath
    induction hpath with
    | here => intro _; have := g.full p hp; unfold St.height; omega
    | @inc q r c d _ h1 h2 h3 ih =>
      intro hc
      have := ih (by omega)
      rcases g.incl q d r h1 h3 h2 (by unfold St.height at this; omega) with h | ⟨n, _, h⟩
      · unfold St.height at *; omega
      · exact absurd h (hno r n)
    | @wit q r c d _ h1 h2 h3 ih =>
      intro hc
      have := ih (by omega)
      rcases g.wit q d r h1 h3 h2 (by unfold St.height at this; omega) with h | ⟨n, _, h⟩
      · unfold St.height at *; omega
      · exact absurd h (hno r n)
  have := main q c hpath hc
  refine ⟨?_, this⟩
  simp only [St.isCertified, decide_eq_true_eq]
  unfold St.height at this; omega

/-- Nothing was dropped in a history. -/
def NoDrop (ops : List Op) : Prop := ∀ i, Op.drop i ∉ ops

theorem stepTask_alive (s : St) (t : Task) (pick : Nat) : (s.stepTask t pick).1.alive = s.alive := by
  unfold St.stepTask
  split
  · split
    · split <;> rfl
    · rfl
  · rfl
  · split
    · rfl
    · split
      · split <;> rfl
      · split <;> rfl
  · rfl

theorem alive_run (depth : Nat) (ops : List Op) (h : NoDrop ops) (i : Nat) : (run depth ops).alive i = true := by
  induction ops using List.reverseRecOn with
  | nil => rfl
  | append_singleton ops o ih =>
    have hs : (step depth (run depth ops) o).alive = (run depth ops).alive := by
      cases o with
      | certify j =>
        simp only [step, St.certify]
        split
        · rw [(spawn_nodes _ _ _).2]; rfl
        · rfl
      | setStart j => rfl
      | setFinish j d =>
        simp only [step, St.setFinish]
        split
        · split
          · rw [(spawn_nodes _ _ _).2]; rfl
          · rfl
        · rfl
      | commit j => rfl
      | drop j => exact absurd (by simp) (h j)
      | task k pick =>
        simp only [step]
        split
        · rw [stepTask_alive]
        · rfl
    rw [run_snoc, hs]
    exact ih (fun j hj => h j (by simp [hj]))

/-- When nothing was dropped and all traversals are over, exactly the points at most `depth` rounds below a directly
certified one are certified. -/
theorem certified_iff (depth : Nat) (ops : List Op) (hn : NoDrop ops) (hq : (run depth ops).Quiet) (q : Nat) :
    (run depth ops).isCertified q = true ↔
      ∃ p c, Op.certify p ∈ ops ∧ c ≤ depth ∧ Leads (run depth ops).known p q c := by
  constructor
  · intro h
    obtain ⟨p, c, h1, h2, h3, _⟩ := certified_sound depth ops q h
    exact ⟨p, c, h1, h3, h2⟩
  · rintro ⟨p, c, h1, h2, h3⟩
    refine (certified_complete depth ops hq p q c h1 h2 ?_).1
    exact path_mono (fun _ _ h => h) (fun r _ => alive_run depth ops hn r) h3

/-- The order of calls and the interleaving of traversals do not matter: two histories that certified the same points and
learned the same dependencies end with the same certified points at the same heights, with the same direct proofs. -/
theorem order_does_not_matter (depth : Nat) (ops ops' : List Op) (hn : NoDrop ops) (hn' : NoDrop ops')
    (hq : (run depth ops).Quiet) (hq' : (run depth ops').Quiet)
    (hc : ∀ i, Op.certify i ∈ ops ↔ Op.certify i ∈ ops')
    (hk : ∀ i, (run depth ops).known i = (run depth ops').known i) (q : Nat) :
    (run depth ops).height q = (run depth ops').height q ∧
      (run depth ops).hasProof q = (run depth ops').hasProof q := by
  have half : ∀ a b : List Op, NoDrop a → NoDrop b → (run depth a).Quiet → (run depth b).Quiet →
      (∀ i, Op.certify i ∈ a ↔ Op.certify i ∈ b) → (∀ i, (run depth a).known i = (run depth b).known i) →
      (run depth a).height q ≤ (run depth b).height q := by
    intro a b _ hb _ hqb hcab hkab
    by_cases hz : (run depth a).height q = 0
    · omega
    · obtain ⟨p, c, h1, h2, h3, h4⟩ := certified_sound depth a q (by simpa [St.isCertified, St.height] using hz)
      have := (certified_complete depth b hqb p q c ((hcab p).mp h1) h3
        (path_mono (fun i d h => (hkab i) ▸ h) (fun r _ => alive_run depth b hb r) h2)).2
      omega
  have h1 := half ops ops' hn hn' hq hq' hc hk
  have h2 := half ops' ops hn' hn hq' hq (fun i => (hc i).symm) (fun i => (hk i).symm)
  have heq : (run depth ops).height q = (run depth ops').height q := by omega
  refine ⟨heq, ?_⟩
  have t1 := (holds_run depth ops).top q
  have t2 := (holds_run depth ops').top q
  have : ((run depth ops).nodes q).word.top = ((run depth ops').nodes q).word.top := by
    rw [Bool.eq_iff_iff, t1, t2]; exact hc q
  unfold St.hasProof
  unfold St.height at heq
  rw [heq, this]

/-- A point has a direct proof exactly when it was certified by a call, at every moment. -/
theorem has_proof_iff (depth : Nat) (ops : List Op) (q : Nat) :
    (run depth ops).hasProof q = true ↔ Op.certify q ∈ ops := by
  have g := holds_run depth ops
  unfold St.hasProof
  simp only [Bool.and_eq_true, decide_eq_true_eq]
  constructor
  · rintro ⟨_, h⟩; exact (g.top q).mp h
  · intro h
    have := g.full q h
    exact ⟨by omega, (g.top q).mpr h⟩

/-- The rounds of points: includes are of the previous round, witnesses of the one before. -/
def Rounds (round : Nat → Nat) (known : Nat → Option Deps) : Prop :=
  ∀ q d, known q = some d → (∀ r ∈ d.includes, round r + 1 = round q) ∧ (∀ r ∈ d.witness, round r + 2 = round q)

theorem path_rounds {round : Nat → Nat} {known : Nat → Option Deps} (h : Rounds round known) {p q c : Nat}
    {ok : Nat → Prop} (hp : Path known ok p q c) : round q + c = round p := by
  induction hp with
  | here => rfl
  | inc _ h1 h2 _ ih => have := (h _ _ h1).1 _ h2; omega
  | wit _ h1 h2 _ ih => have := (h _ _ h1).2 _ h2; omega

/-- Certification never goes deeper than `depth` rounds below the highest directly certified point it comes from. -/
theorem certified_window (depth : Nat) (ops : List Op) (round : Nat → Nat) (hr : Rounds round (run depth ops).known)
    (q : Nat) (h : (run depth ops).isCertified q = true) :
    ∃ p, Op.certify p ∈ ops ∧ round q ≤ round p ∧ round p ≤ round q + depth := by
  obtain ⟨p, c, h1, h2, h3, _⟩ := certified_sound depth ops q h
  have := path_rounds hr h2
  exact ⟨p, h1, by omega, by omega⟩

/-! ### Heights only grow -/

theorem deeper_mono (n : Node) (h : Nat) (top : Bool) : n.word.height ≤ (n.deeper h top).1.word.height ∧
    (n.deeper h top).1.word.committed = n.word.committed := by
  rcases deeper_cases n h top with ⟨_, he⟩ | ⟨hl, he, _⟩
  · rw [he]; exact ⟨Nat.le_refl _, rfl⟩
  · rw [he]; exact ⟨by simp only; omega, rfl⟩

theorem deeper_le {n n' : Node} {h : Nat} {top : Bool} {r : Option Deps} (he : n.deeper h top = (n', r)) :
    n.word.height ≤ n'.word.height := by
  have := (deeper_mono n h top).1; rw [he] at this; exact this

theorem edit_mono (s : St) (i : Nat) (n : Node) (h : (s.nodes i).word.height ≤ n.word.height) (q : Nat) :
    s.height q ≤ (s.edit i n).height q := by
  unfold St.height St.edit
  simp only
  split
  · rename_i he; subst he; exact h
  · exact Nat.le_refl _

theorem stepTask_height (s : St) (t : Task) (pick q : Nat) : s.height q ≤ (s.stepTask t pick).1.height q := by
  unfold St.stepTask
  split
  · split
    · split
      · rename_i he
        exact edit_mono s _ _ (deeper_le he) q
      · rename_i he
        exact edit_mono s _ _ (deeper_le he) q
    · exact Nat.le_refl _
  · exact Nat.le_refl _
  · split
    · exact Nat.le_refl _
    · split
      · split
        · rename_i he
          exact edit_mono s _ _ (deeper_le he) q
        · rename_i he
          exact edit_mono s _ _ (deeper_le he) q
      · split <;> exact Nat.le_refl _
  · exact Nat.le_refl _

/-- No step takes a certification back or lowers a height. -/
theorem height_grows (depth : Nat) (s : St) (o : Op) (q : Nat) : s.height q ≤ (step depth s o).height q := by
  have hsp : ∀ (s : St) h d q, (s.spawn h d).height q = s.height q := by
    intro s h d q; unfold St.height; rw [(spawn_nodes _ _ _).1]
  cases o with
  | certify i =>
    simp only [step, St.certify]
    split
    · rename_i he
      rw [hsp]
      exact edit_mono s _ _ (deeper_le he) q
    · rename_i he
      exact edit_mono s _ _ (deeper_le he) q
  | setStart i => simp only [step, St.setStart]; refine edit_mono s i _ ?_ q; exact Nat.le_refl _
  | setFinish i d =>
    simp only [step, St.setFinish]
    split
    · split
      · rw [hsp]; refine edit_mono s i _ ?_ q; exact Nat.le_refl _
      · refine edit_mono s i _ ?_ q; exact Nat.le_refl _
    · exact Nat.le_refl _
  | commit i => simp only [step, St.commit]; refine edit_mono s i _ ?_ q; exact Nat.le_refl _
  | drop i => simp only [step, St.drop]; split <;> exact Nat.le_refl _
  | task k pick =>
    simp only [step]
    split
    · exact stepTask_height s _ pick q
    · exact Nat.le_refl _

/-! ### Traversals end -/

/-- Only steps of traversals. -/
def OnlyTasks (ops : List Op) : Prop := ∀ o ∈ ops, ∃ k pick, o = .task k pick

/-- Task `k` can be brought to its end by its own steps, which leave the others alone. -/
def Finishes (depth : Nat) (s : St) (k : Nat) : Prop :=
  ∃ ops, OnlyTasks ops ∧ (ops.foldl (step depth) s).tasks = s.tasks.set k .done

theorem finishes_step (depth : Nat) (s : St) (k pick : Nat) (h : Finishes depth (step depth s (.task k pick)) k) :
    Finishes depth s k := by
  obtain ⟨ops, h1, h2⟩ := h
  refine ⟨.task k pick :: ops, ?_, ?_⟩
  · intro o ho
    rcases List.mem_cons.mp ho with rfl | ho
    · exact ⟨k, pick, rfl⟩
    · exact h1 o ho
  · rw [List.foldl_cons, h2]
    simp only [step]
    split
    · simp [List.set_set]
    · rfl

theorem task_after (depth : Nat) (s : St) (k pick : Nat) (t : Task) (hk : s.tasks[k]? = some t) :
    (step depth s (.task k pick)).tasks[k]? = some (s.stepTask t pick).2 := by
  have hlt : k < s.tasks.length := by
    rcases Nat.lt_or_ge k s.tasks.length with h | h
    · exact h
    · rw [List.getElem?_eq_none h] at hk; cases hk
  simp only [step, hk]
  rw [List.getElem?_set_self hlt]

theorem finishes_done (depth : Nat) (s : St) (k : Nat) (hk : s.tasks[k]? = some .done) : Finishes depth s k := by
  refine ⟨[], by intro o ho; simp at ho, ?_⟩
  have hlt : k < s.tasks.length := by
    rcases Nat.lt_or_ge k s.tasks.length with h | h
    · exact h
    · rw [List.getElem?_eq_none h] at hk; cases hk
  rw [List.getElem?_eq_getElem hlt] at hk
  have hk' : s.tasks[k] = .done := Option.some.inj hk
  simp only [List.foldl_nil]
  rw [← hk']
  exact (List.set_getElem_self hlt).symm

theorem finishes_loop (depth h : Nat) : ∀ (n : Nat) (s : St) (k : Nat) (cur incl wit : List Nat),
    cur.length = n → s.tasks[k]? = some (.loop h cur incl wit) → Finishes depth s k := by
  induction h with
  | zero =>
    intro n s k cur incl wit _ hk
    apply finishes_step depth s k 0
    apply finishes_done
    rw [task_after depth s k 0 _ hk]
    simp [St.stepTask]
  | succ h ihh =>
    intro n
    induction n with
    | zero =>
      intro s k cur incl wit hl hk
      have : cur = [] := List.eq_nil_of_length_eq_zero hl
      subst this
      apply finishes_step depth s k 0
      have ha := task_after depth s k 0 _ hk
      by_cases he : incl = [] ∧ wit = []
      · apply finishes_done
        rw [ha]; simp [St.stepTask, he]
      · refine ihh incl.length _ k incl wit [] rfl ?_
        rw [ha]
        have : ¬ (h + 1 = 0 ∨ (([] : List Nat) = [] ∧ incl = [] ∧ wit = [])) := by simpa using he
        unfold St.stepTask
        simp [he]
    | succ n ihn =>
      intro s k cur incl wit hl hk
      cases cur with
      | nil => simp at hl
      | cons i cur =>
        apply finishes_step depth s k 0
        have ha := task_after depth s k 0 _ hk
        have hne : ¬ (h + 1 = 0 ∨ ((i :: cur) = [] ∧ incl = [] ∧ wit = [])) := by simp
        cases hres : ((s.nodes i).deeper (h + 1) false).2 with
        | some d =>
          have heq : (s.nodes i).deeper (h + 1) false = (((s.nodes i).deeper (h + 1) false).1, some d) := by rw [← hres]
          refine ihn _ k cur (s.extend incl d.includes) (s.extend wit d.witness) (by simpa using hl) ?_
          rw [ha]
          simp only [St.stepTask, if_neg hne, List.getElem?_cons_zero]
          rw [heq]; simp
        | none =>
          have heq : (s.nodes i).deeper (h + 1) false = (((s.nodes i).deeper (h + 1) false).1, none) := by rw [← hres]
          refine ihn _ k cur incl wit (by simpa using hl) ?_
          rw [ha]
          simp only [St.stepTask, if_neg hne, List.getElem?_cons_zero]
          rw [heq]; simp

theorem finishes_direct (depth h : Nat) (incs : List Nat) : ∀ (s : St) (k : Nat) (wit cur incl : List Nat),
    s.tasks[k]? = some (.direct h incs wit cur incl) → Finishes depth s k := by
  induction incs with
  | nil =>
    intro s k wit cur incl hk
    apply finishes_step depth s k 0
    refine finishes_loop depth (h - 1) _ _ k (s.extend cur wit) incl [] rfl ?_
    rw [task_after depth s k 0 _ hk]; rfl
  | cons i incs ih =>
    intro s k wit cur incl hk
    apply finishes_step depth s k 0
    have ha := task_after depth s k 0 _ hk
    by_cases hal : s.alive i = true
    · cases hres : ((s.nodes i).deeper h false).2 with
      | some d =>
        have heq : (s.nodes i).deeper h false = (((s.nodes i).deeper h false).1, some d) := by rw [← hres]
        refine ih _ k wit (s.extend cur d.includes) (s.extend incl d.witness) ?_
        rw [ha]; simp only [St.stepTask, if_pos hal]; rw [heq]
      | none =>
        have heq : (s.nodes i).deeper h false = (((s.nodes i).deeper h false).1, none) := by rw [← hres]
        refine ih _ k wit cur incl ?_
        rw [ha]; simp only [St.stepTask, if_pos hal]; rw [heq]
    · refine ih _ k wit cur incl ?_
      rw [ha]; simp only [St.stepTask, if_neg hal]

/-- From every reachable state the traversals alone come to rest. -/
theorem traversals_end (depth : Nat) (ops : List Op) :
    ∃ more, OnlyTasks more ∧ (run depth (ops ++ more)).Quiet := by
  have key : ∀ n (s : St), n ≤ s.tasks.length → (∀ j, n ≤ j → j < s.tasks.length → s.tasks[j]? = some .done) →
      ∃ more, OnlyTasks more ∧ (more.foldl (step depth) s).Quiet := by
    intro n
    induction n with
    | zero =>
      intro s _ hd
      refine ⟨[], by intro o ho; simp at ho, ?_⟩
      intro t ht
      obtain ⟨j, hj⟩ := List.mem_iff_getElem?.mp ht
      simp only [List.foldl_nil] at hj
      have hlt : j < s.tasks.length := by
        rcases Nat.lt_or_ge j s.tasks.length with h | h
        · exact h
        · rw [List.getElem?_eq_none h] at hj; cases hj
      rw [hd j (Nat.zero_le _) hlt] at hj
      cases hj; rfl
    | succ n ih =>
      intro s hl hd
      have hf : Finishes depth s n := by
        have hlt : n < s.tasks.length := by omega
        cases ht : s.tasks[n]? with
        | none => rw [List.getElem?_eq_getElem hlt] at ht; cases ht
        | some t =>
          cases t with
          | direct h a b c d => exact finishes_direct depth h a s n b c d ht
          | loop h a b c => exact finishes_loop depth h _ s n a b c rfl ht
          | done => exact finishes_done depth s n ht
      obtain ⟨o1, h1, h2⟩ := hf
      obtain ⟨o2, h3, h4⟩ := ih (o1.foldl (step depth) s) (by rw [h2]; simp; omega) (by
        intro j hj hjl
        rw [h2] at hjl ⊢
        simp only [List.length_set] at hjl
        by_cases hjn : j = n
        · subst hjn; rw [List.getElem?_set_self hjl]
        · rw [List.getElem?_set_ne (Ne.symm hjn)]; exact hd j (by omega) hjl)
      refine ⟨o1 ++ o2, ?_, by rw [List.foldl_append]; exact h4⟩
      intro o ho
      rcases List.mem_append.mp ho with h | h
      · exact h1 o h
      · exact h3 o h
  obtain ⟨more, h1, h2⟩ := key (run depth ops).tasks.length (run depth ops) (Nat.le_refl _) (by intro j h1 h2; omega)
  exact ⟨more, h1, by unfold run at *; rw [List.foldl_append]; exact h2⟩

end Tycho.Cert
