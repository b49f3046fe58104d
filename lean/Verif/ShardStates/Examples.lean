import Verif.ShardStates.Props

namespace Tycho.ShardStates

/-! ### A chain, a node, and what can go wrong -/

/-- Two shards (the masterchain is 0). Block `(sh, n, r)` follows `(sh, n - 1, 0)`: there are forks of one block. -/
def exEnv : Env where
  mc := 0
  shards := [0, 1]
  step := 8
  prev x := ⟨x.shard, x.seqno - 1, 0⟩
  cells x := [0, x.seqno]
  new x := [x.seqno]
  minRef p := p.seqno
  mcMinRef m := m
  top m sh := ⟨sh, m, 0⟩

theorem exEnv_ok : exEnv.Ok where
  step_pos := by decide
  mc_mem := by decide
  prev_shard b _ := rfl
  prev_seqno b h := by show b.seqno - 1 + 1 = b.seqno; omega
  update b h c hc := by
    simp only [exEnv, List.mem_cons, List.not_mem_nil, or_false] at hc ⊢
    rcases hc with rfl | rfl
    · exact .inl (.inl rfl)
    · exact .inr rfl
  minRef_le m := Nat.le_refl m
  minRef_top p m _ h := by
    show (if p.shard = 0 then m else m) ≤ p.seqno
    rw [ite_self]; exact h
  top_shard m sh := rfl

/-- A node that starts with states of blocks 4. -/
def ex0 : St where
  direct x := decide (x = ⟨0, 4, 0⟩ ∨ x = ⟨1, 4, 0⟩)
  handles x := if x = ⟨0, 4, 0⟩ ∨ x = ⟨1, 4, 0⟩ then some ⟨true, false, false, false⟩ else none
  cache _ := none
  pivotSeqno _ := 0
  tasks _ := none
  held := []
  todo := []
  stored x := decide (x = ⟨0, 4, 0⟩ ∨ x = ⟨1, 4, 0⟩)
  base sh := ⟨sh, 4, 0⟩
  trees x := if x = ⟨0, 4, 0⟩ ∨ x = ⟨1, 4, 0⟩ then 1 else 0

theorem ex0_start : Start exEnv ex0 where
  base sh h := by
    simp only [exEnv, List.mem_cons, List.not_mem_nil, or_false] at h
    rcases h with rfl | rfl <;> exact ⟨rfl, rfl⟩
  direct x := by simp [ex0, exEnv]
  stored x := rfl
  trees x := by simp [ex0]
  flags x h hx := by
    simp only [ex0] at hx
    split at hx
    · rename_i e; cases hx; exact ⟨fun _ => decide_eq_true e, rfl⟩
    · cases hx
  handles x hx := by
    have : x = ⟨0, 4, 0⟩ ∨ x = ⟨1, 4, 0⟩ := of_decide_eq_true hx
    exact ⟨⟨true, false, false, false⟩, if_pos this, rfl⟩
  cache x := rfl
  tasks t := rfl
  held := rfl
  todo := rfl

def dataFlags : Flags := ⟨false, false, true, false⟩

theorem steps_trans {env : Env} {s s' s'' : St} (h1 : Steps env s s') (h2 : Steps env s' s'') : Steps env s s'' := by
  induction h2 with
  | refl => exact h1
  | tail a b _ h ih => exact .tail _ _ _ ih h

theorem execUp_steps {env : Env} {s s' : St} (h : Steps env s s') (hs : ExecUp env s) : ExecUp env s' := by
  induction h with
  | refl => exact hs
  | tail s' s'' _ h ih => exact .step _ _ ih h

/-- No store is in progress. -/
def St.Quiet (s : St) : Prop := ∀ t k, s.tasks t = some k → k.result ≠ none

theorem quiet_put {s : St} (h : s.Quiet) (t : Nat) (f : Nat → Option Task) (k : Task) (hk : k.result ≠ none)
    (hf : ∀ u, u ≠ t → f u = s.tasks u) (ht : f t = some k) : ∀ u k', f u = some k' → k'.result ≠ none := by
  intro u k' hu
  by_cases e : u = t
  · subst e; rw [ht] at hu; cases hu; exact hk
  · exact h u k' ((hf u e).symm.trans hu)

/-- Store the data of a block, then its state, virtual, from the previous one. -/
def St.addVirt (s : St) (b : Id) (t : Nat) (src : Src) (r : Res) : St :=
  (((s.putHandle b (some dataFlags)).putTask t (some ⟨b, true, src, false, none⟩)).putCache b (some ⟨t, true, .pending⟩)).flagVirtual
    exEnv t ⟨b, true, src, false, none⟩ r

theorem exec_addVirt {s : St} (h : Exec exEnv s) (q : s.Quiet) (b : Id) (t : Nat) (src : Src) (r : Res) (hb : s.handles b = none)
    (hc : s.cache b = none)
    (ht : s.tasks t = none) (h0 : 0 < b.seqno) (hsh : b.shard ∈ exEnv.shards) (hprev : s.stored (exEnv.prev b) = true)
    (hmod : b.seqno % exEnv.stepOf b.shard ≠ 0)
    (hsrc : src = s.prevSrc exEnv b)
    (hr : (∃ u k, src = .task u ∧ s.tasks u = some k ∧ k.result = some (some r)) ∨
      (src = .storage ∧ s.base b.shard = exEnv.prev b ∧ s.direct (exEnv.prev b) = true ∧ r = ⟨exEnv.prev b, exEnv.prev b, []⟩)) :
    Steps exEnv s (s.addVirt b t src r) ∧ (s.addVirt b t src r).Quiet := by
  refine ⟨?_, quiet_put q t _ _ (by simp) (fun u hu => by simp [St.addVirt, St.flagVirtual, St.putTask, St.putCache, St.putHandle, St.markStored, hu])
    (if_pos rfl)⟩
  have hh : (s.putHandle b (some dataFlags)).handles b = some dataFlags := if_pos rfl
  have h1 : Steps exEnv s (s.putHandle b (some dataFlags)) :=
    .tail _ _ _ (.refl s) (.data s b _ (fun f hf => by rw [hb] at hf; cases hf) (fun _ => ⟨rfl, rfl⟩))
  have hbeg : (s.putHandle b (some dataFlags)).begin exEnv b false false t =
      ((s.putHandle b (some dataFlags)).putTask t (some ⟨b, true, src, false, none⟩)).putCache b (some ⟨t, true, .pending⟩) := by
    unfold St.begin
    rw [hh]
    simp only [dataFlags, Bool.or_self, Bool.false_eq_true, if_false]
    rw [show (s.putHandle b (some ⟨false, false, true, false⟩)).cache b = none from hc, hsrc]
    rfl
  have h2 := Steps.tail _ _ _ h1 (.begin _ b false false t ht h0 hsh (.inl hprev) (fun h => absurd h hmod))
  rw [hbeg] at h2
  generalize hs2 : ((s.putHandle b (some dataFlags)).putTask t (some ⟨b, true, src, false, none⟩)).putCache b (some ⟨t, true, .pending⟩) = s2 at h2
  have htask : s2.tasks t = some ⟨b, true, src, false, none⟩ := by rw [← hs2]; exact if_pos rfl
  have h3 : Exec exEnv s2 := exec_steps h2 h
  unfold St.addVirt
  rw [hs2]
  rcases hr with ⟨u, k, g1, g2, g3⟩ | ⟨h4, h5, h6, h7⟩
  · have hu : u ≠ t := by rintro rfl; rw [ht] at g2; cases g2
    have g4 : s2.prevRes src = some (some r) := by
      rw [g1, ← hs2]
      simp only [St.prevRes, St.putTask, St.putCache, if_neg hu]
      rw [show (s.putHandle b (some dataFlags)).tasks u = s.tasks u from rfl, g2]
      exact g3
    exact .tail _ _ _ h2 (.virt _ t ⟨b, true, src, false, none⟩ r htask rfl rfl (.inl g4) (store_applies exEnv_ok h3 t _ r htask g4))
  · have hd : s2.direct (exEnv.prev b) = true := by rw [← hs2]; exact h6
    have hbase : s2.base b.shard = exEnv.prev b := by rw [← hs2]; exact h5
    refine .tail _ _ _ h2 (.virt _ t ⟨b, true, src, false, none⟩ r htask rfl rfl
      (.inr ⟨h4, ⟨0, Nat.zero_le _, hbase.symm⟩, fun _ => false, exEnv.prev b, [], ?_, ⟨_, .fast _ _ rfl⟩, h7⟩) ?_)
    · obtain ⟨n, hn⟩ := Nat.exists_eq_succ_of_ne_zero (n := exEnv.stepOf b.shard) (by have := (stepOf_le exEnv_ok b.shard).1; omega)
      have : s2.lookup (fun _ => false) (exEnv.prev b) = .applied := by unfold St.lookup; rw [if_pos hd]
      show s2.searchDisk exEnv _ (exEnv.stepOf b.shard) _ _ = _
      rw [hn, St.searchDisk]
      show (match s2.lookup (fun _ => false) (exEnv.prev b) with
        | .applied => some (exEnv.prev b, []) | .virt => _ | .none => none) = _
      rw [this]
    · subst h7
      refine good_canApply exEnv_ok (good_self exEnv hd (not_todo (inv_exec exEnv_ok h3) ?_)) h0 rfl
      show (s2.base b.shard).seqno ≤ _
      rw [hbase]
      exact Nat.le_refl _

/-- The same, direct, the state being given: the batch is written. -/
def St.writeDirect (s : St) (b : Id) (t : Nat) : St :=
  ((s.putTask t (some ⟨b, false, .exact, false, none⟩)).putCache b (some ⟨t, false, .pending⟩)).write t ⟨b, false, .exact, false, none⟩

def St.doneDirect (s : St) (b : Id) (t : Nat) : St := s.flagDirect t ⟨b, false, .exact, true, none⟩

theorem exec_writeDirect {s : St} (q : s.Quiet) (b : Id) (t : Nat) (hb : s.handles b = some dataFlags)
    (hc : s.cache b = none) (ht : s.tasks t = none) (h0 : 0 < b.seqno) (hsh : b.shard ∈ exEnv.shards) (hprev : s.stored (exEnv.prev b) = true)
    (hbase : (s.base b.shard).seqno ≤ b.seqno) : Steps exEnv s (s.writeDirect b t) := by
  have hbeg : s.begin exEnv b true true t = (s.putTask t (some ⟨b, false, .exact, false, none⟩)).putCache b (some ⟨t, false, .pending⟩) := by
    unfold St.begin
    rw [hb]
    simp only [dataFlags, Bool.or_self, Bool.false_eq_true, if_false]
    rw [hc]
    rfl
  have h2 := Steps.tail _ _ _ (.refl s) (.begin _ b true true t ht h0 hsh (.inl hprev) (fun _ => rfl))
  rw [hbeg] at h2
  refine .tail _ _ _ h2 (.write _ t ⟨b, false, .exact, false, none⟩ dataFlags ?_ (if_pos rfl) rfl rfl rfl hb rfl (.inl rfl) hbase)
  intro u k hu hw
  by_cases e : u = t
  · subst e
    rw [show ((s.putTask u (some ⟨b, false, .exact, false, none⟩)).putCache b (some ⟨u, false, .pending⟩)).tasks u = _ from if_pos rfl] at hu
    cases hu; cases hw
  · exact q u k ((if_neg e : ((s.putTask t _).putCache b _).tasks u = s.tasks u).symm.trans hu)

theorem exec_direct {s : St} (q : s.Quiet) (b : Id) (t : Nat) (hb : s.handles b = some dataFlags)
    (hc : s.cache b = none) (ht : s.tasks t = none) (h0 : 0 < b.seqno) (hsh : b.shard ∈ exEnv.shards) (hprev : s.stored (exEnv.prev b) = true)
    (hbase : (s.base b.shard).seqno ≤ b.seqno) :
    Steps exEnv s ((s.writeDirect b t).doneDirect b t) ∧ ((s.writeDirect b t).doneDirect b t).Quiet := by
  refine ⟨.tail _ _ _ (exec_writeDirect q b t hb hc ht h0 hsh hprev hbase) (.flag _ t ⟨b, false, .exact, true, none⟩ (if_pos rfl) rfl rfl),
    quiet_put q t _ _ (by simp) (fun u hu => ?_) (if_pos rfl)⟩
  simp [St.writeDirect, St.write, St.doneDirect, St.flagDirect, St.putTask, St.putCache, St.putHandle, St.markStored, hu]

def St.addData (s : St) (b : Id) : St := s.putHandle b (some dataFlags)

theorem exec_data {s : St} (b : Id) (hb : s.handles b = none) : Steps exEnv s (s.addData b) :=
  .tail _ _ _ (.refl s) (.data s b _ (fun f hf => by rw [hb] at hf; cases hf) (fun _ => ⟨rfl, rfl⟩))

theorem exec0 : ExecUp exEnv ex0 := .start _ ex0_start
theorem quiet0 : ex0.Quiet := fun t k h => by cases h

/-! ### A virtual store, the next one on top of it, a load -/

def m4 : Id := ⟨1, 4, 0⟩
def m5 : Id := ⟨1, 5, 0⟩
def m6 : Id := ⟨1, 6, 0⟩
def ex1 : St := ex0.addVirt m5 0 .storage ⟨m4, m4, []⟩
def ex2 : St := ex1.addVirt m6 1 (.task 0) ⟨m5, m4, [5]⟩

theorem steps1 : Steps exEnv ex0 ex1 ∧ ex1.Quiet :=
  exec_addVirt (execUp_exec exec0) quiet0 m5 0 _ _ (by decide +kernel) rfl rfl (by decide) (by decide) (by decide +kernel) (by decide)
    rfl (.inr ⟨rfl, rfl, by decide +kernel, rfl⟩)

theorem steps2 : Steps exEnv ex1 ex2 ∧ ex2.Quiet :=
  exec_addVirt (execUp_exec (execUp_steps steps1.1 exec0)) steps1.2 m6 1 _ _ (by decide +kernel) (by decide +kernel) rfl (by decide) (by decide)
    (by decide +kernel) (by decide) (by decide +kernel) (.inl ⟨0, _, rfl, rfl, rfl⟩)

theorem exec2 : ExecUp exEnv ex2 := execUp_steps steps2.1 (execUp_steps steps1.1 exec0)

/-- The load of block 6 waits for the store, which is there. -/
example : find exEnv (fun _ => false) false (fun _ => false) (fun _ => ex2) m6 = .await 1 m6 [] := by decide +kernel

/-- After a restart it takes two updates on top of the imported state. -/
example : find exEnv (fun _ => false) false (fun _ => false) (fun _ => ex2.reboot) m6 = .disk m4 [m5, m6] := by decide +kernel

/-- the hypotheses of `load_complete` hold for it -/
theorem load_complete_ex : Served exEnv (fun _ => ex2.reboot) m6 (find exEnv (fun _ => false) false (fun _ => false) (fun _ => ex2.reboot) m6) := by
  refine load_complete exEnv_ok _ _ _ _ m6 (.restart _ (execUp_exec exec2)) (fun _ => .refl _) (fun _ => rfl) ?_ ?_ (.inl rfl) (.inl (by decide +kernel)) ?_
  · intro i x hx hsh hlt
    right
    have hx' : (if x = m6 then true else if x = m5 then true else decide (x = ⟨0, 4, 0⟩ ∨ x = ⟨1, 4, 0⟩)) = true := hx
    have hlt' : 4 < x.seqno := hlt
    by_cases e : x = m6
    · subst e; exact ⟨⟨false, true, true, false⟩, by decide +kernel, rfl⟩
    · by_cases e' : x = m5
      · subst e'; exact ⟨⟨false, true, true, false⟩, by decide +kernel, rfl⟩
      · rw [if_neg e, if_neg e'] at hx'
        rcases of_decide_eq_true hx' with rfl | rfl
        · exact absurd hlt' (by decide)
        · exact absurd hlt' (by decide)
  · intro i x it hx; cases hx
  · exact ⟨2, by decide, rfl⟩

/-- The bound on the number of updates is the configured step: a node restarted with a smaller one does not find its states. -/
theorem lower_step_breaks_loading : find { exEnv with step := 1 } (fun _ => true) false (fun _ => false) (fun _ => ex2.reboot) m6 = .notFound := by
  decide +kernel

/-! ### A crash between the batch and the flag -/

def exW : St := (ex0.addData m5).writeDirect m5 0
def exW2 : St := exW.reboot.writeDirect m5 0

theorem execW2 : Exec exEnv exW2 := by
  have h1 : Steps exEnv ex0 exW := steps_trans (exec_data m5 (by decide +kernel))
    (exec_writeDirect (s := ex0.addData m5) quiet0 m5 0 (by decide +kernel) rfl rfl (by decide) (by decide) (by decide +kernel) (by decide +kernel))
  have h2 : Exec exEnv exW.reboot := .restart _ (exec_steps h1 (execUp_exec exec0))
  exact exec_steps (exec_writeDirect (s := exW.reboot) (fun t k h => by cases h) m5 0 (by decide +kernel) rfl rfl (by decide) (by decide) (by decide +kernel)
    (by decide +kernel)) h2

/-- The tree of one state is counted twice: after its only removal it stays in the database for good. So `trees_once` needs a node that does
not stop. -/
theorem double_store_leak : Exec exEnv exW2 ∧ exW2.trees m5 = 2 := ⟨execW2, by decide +kernel⟩

/-! ### The state of a fork as the edge -/

def f5 : Id := ⟨1, 5, 1⟩
def c5 : Id := ⟨0, 5, 0⟩
/-- block 5 of the shard is virtual, its fork direct; block 5 of the masterchain direct; restart -/
def exF1 : St := ((ex1.addData f5).writeDirect f5 1).doneDirect f5 1
def exF2 : St := (((exF1.addData c5).writeDirect c5 2).doneDirect c5 2).reboot

theorem execF2 : Exec exEnv exF2 := by
  have a := steps_trans (exec_data (s := ex1) f5 (by decide +kernel))
    (exec_direct (s := ex1.addData f5) steps1.2 f5 1 (by decide +kernel) (by decide +kernel) rfl (by decide) (by decide) (by decide +kernel) (by decide +kernel)).1
  have qa := (exec_direct (s := ex1.addData f5) steps1.2 f5 1 (by decide +kernel) (by decide +kernel) rfl (by decide) (by decide) (by decide +kernel) (by decide +kernel)).2
  have b := steps_trans (exec_data (s := exF1) c5 (by decide +kernel))
    (exec_direct (s := exF1.addData c5) qa c5 2 (by decide +kernel) (by decide +kernel) rfl (by decide) (by decide) (by decide +kernel) (by decide +kernel)).1
  exact .restart _ (exec_steps (steps_trans steps1.1 (steps_trans a b)) (execUp_exec exec0))

def exEdges (sh : Nat) : Id := if sh = 0 then c5 else f5
def exF3 : St := { exF2 with
  todo := [⟨0, 4, 0⟩, m4]
  base := fun sh => if sh ∈ exEnv.shards ∧ (exF2.base sh).seqno ≤ (exEdges sh).seqno then exEdges sh else exF2.base sh }
def exF4 : St := { exF3 with
  todo := []
  direct := fun c => if c = m4 then false else if c = ⟨0, 4, 0⟩ then false else exF3.direct c
  trees := fun c => if c = m4 then (if c = ⟨0, 4, 0⟩ then exF3.trees c - 1 else exF3.trees c) - 1 else if c = ⟨0, 4, 0⟩ then exF3.trees c - 1 else exF3.trees c }

theorem exF2_direct (x : Id) : exF2.direct x = true ↔ x = c5 ∨ x = f5 ∨ x = ⟨0, 4, 0⟩ ∨ x = m4 := by
  show (if x = c5 then true else if x = f5 then true else decide (x = ⟨0, 4, 0⟩ ∨ x = ⟨1, 4, 0⟩)) = true ↔ _
  by_cases h1 : x = c5
  · simp [h1]
  · by_cases h2 : x = f5
    · simp [h2]
    · rw [if_neg h1, if_neg h2, decide_eq_true_eq]; simp [h1, h2, m4]

theorem execF4 : Exec exEnv exF4 := by
  have h3 : Exec exEnv exF3 := by
    refine .step _ _ execF2 (.gcStart exF2 5 exEdges _ rfl ?_ ?_ ?_ (by decide))
    · rintro r (⟨b, it, h, _⟩ | ⟨t, k, h, _⟩ | ⟨t, k, h, _⟩ | ⟨t, k, h, _⟩ | h) <;> cases h
    · intro sh hsh
      simp only [exEnv, List.mem_cons, List.not_mem_nil, or_false] at hsh
      rcases hsh with rfl | rfl
      · exact ⟨by decide +kernel, rfl, rfl⟩
      · refine ⟨by decide +kernel, rfl, Nat.le_refl _, fun d hd h1 h2 => ?_⟩
        exact h2
    · intro x
      rw [exF2_direct]
      constructor
      · intro h
        simp only [List.mem_cons, List.not_mem_nil, or_false] at h
        rcases h with rfl | rfl
        · exact ⟨.inr (.inr (.inl rfl)), by decide, by decide, by decide⟩
        · exact ⟨.inr (.inr (.inr rfl)), by decide, by decide, by decide⟩
      · rintro ⟨rfl | rfl | rfl | rfl, h1, h2, h3⟩
        · exact absurd h3 (by decide)
        · exact absurd h3 (by decide)
        · decide
        · decide
  have hsk : ∀ x h, exF3.handles x = some h → (x = ⟨0, 4, 0⟩ ∨ x = m4) → h.skip = false := by
    rintro x h hx (rfl | rfl)
    · have : exF3.handles ⟨0, 4, 0⟩ = some ⟨true, false, false, false⟩ := by decide +kernel
      rw [this] at hx; cases hx; rfl
    · have : exF3.handles m4 = some ⟨true, false, false, false⟩ := by decide +kernel
      rw [this] at hx; cases hx; rfl
  have h4 := Exec.step _ _ h3 (.gcRemove exF3 ⟨0, 4, 0⟩ [m4] (fun t k h => by cases h) rfl (fun h hh => hsk _ h hh (.inl rfl)))
  exact Exec.step _ _ h4 (.gcRemove _ m4 [] (fun t k h => by cases h) rfl (fun h hh => hsk m4 h hh (.inr rfl)))

/-- The newest direct state up to the top block belongs to a fork; the state that the top block is computed from is removed: the top block,
stored and at the edge, is lost. So `top_above` needs that no state of a fork is stored. -/
theorem fork_hides_pivot : Exec exEnv exF4 ∧ exF4.stored m5 = true ∧ exEnv.top 5 1 = m5 ∧
    find exEnv (fun _ => false) false (fun _ => false) (fun _ => exF4) m5 = .notFound :=
  ⟨execF4, by decide +kernel, rfl, by decide +kernel⟩

/-- Without the fork in the way the edge is kept and the block is there: hypotheses of `in_use_kept`, `removed_below_edge`. -/
example : exF4.direct m4 = false ∧ exF4.direct c5 = true ∧ exF4.trees c5 = 1 := by decide +kernel

/-- `store_applies`, `await_result` -/
example : Exec exEnv ex2 ∧ ex2.live ⟨m6, m4, [5, 6]⟩ :=
  ⟨execUp_exec exec2, .inr (.inl ⟨1, _, rfl, rfl⟩)⟩

example : ex2.direct m4 = true := (in_use_kept exEnv_ok (execUp_exec exec2) ⟨m6, m4, [5, 6]⟩ (.inr (.inl ⟨1, _, rfl, rfl⟩))).1

/-- `trees_once` -/
example : ex2.trees m4 = 1 ∧ ex2.trees m5 = 0 := by decide +kernel

end Tycho.ShardStates
