import Verif.CumulStats.Steps2
import Mathlib.Tactic.ByContra
import Mathlib.Data.List.Induction

/-! Properties of the cumulative statistics. -/
namespace Tycho.CumulStats
open Tycho.Table

theorem inv_step {env : Env} (hdis : Disjoint env) {c : Cum} {s : Spec} (h : Inv env c s) (op : Op) (hl : Legal env s op) :
    ∃ c', c.step env op = some c' ∧ Inv env c' (s.step env op) := by
  cases op with
  | apply id stats => exact inv_apply h hl
  | update dst pt => exact inv_update hdis h hl
  | updateAll new => exact inv_updateAll hdis h hl
  | read part a n => exact inv_read h hl
  | begin => exact inv_begin h hl
  | commit => exact inv_commit h hl
  | rollback => exact inv_rollback h hl

theorem run_append (env : Env) (c : Cum) (ops : List Op) (op : Op) :
    Cum.run env c (ops ++ [op]) = (Cum.run env c ops).bind (Cum.step env · op) := by
  unfold Cum.run
  rw [List.foldl_append]
  rfl

theorem inv_run {env : Env} (hdis : Disjoint env) {proc : Table Nat (Bool × ProcTo)} (hu : Uniq proc) {ops : List Op} {s : Spec}
    (h : Trace env proc ops s) : ∃ c, Cum.run env (Cum.new proc) ops = some c ∧ Inv env c s := by
  induction h with
  | init => exact ⟨_, rfl, inv_init env proc hu⟩
  | step op _ hl ih =>
    obtain ⟨c, hc, hinv⟩ := ih
    obtain ⟨c', hc', hinv'⟩ := inv_step hdis hinv op hl
    exact ⟨c', by rw [run_append, hc]; exact hc', hinv'⟩

theorem inv_of_run {env : Env} (hdis : Disjoint env) {proc : Table Nat (Bool × ProcTo)} (hu : Uniq proc) {ops : List Op} {s : Spec}
    (h : Trace env proc ops s) {c : Cum} (hc : Cum.run env (Cum.new proc) ops = some c) : Inv env c s := by
  obtain ⟨c', hc', hinv⟩ := inv_run hdis hu h
  rw [hc] at hc'
  simp only [Option.some.injEq] at hc'
  rw [hc']
  exact hinv

theorem initialCount_eq {env : Env} {c : Cum} {s : Snap} (h : Body env c s) (p a : Nat) : c.initialCount p a = s.pending env p a := by
  rw [← h.vals]
  unfold Cum.initialCount iv
  cases Table.get c.result p with
  | none => rfl
  | some e => exact getD_get _ _

theorem remainingCount_eq {env : Env} {c : Cum} {s : Snap} (h : Body env c s) (p a : Nat) :
    c.remainingCount p a = if env.contains env.own a then s.unread p a else s.pending env p a := by
  rw [← h.vals, ← h.rems]
  unfold Cum.remainingCount rv
  cases Table.get c.result p with
  | none => rfl
  | some e => exact getD_get _ _

/-- C63. For every legal history the statistics never panic, and the count for an account in a partition is the number of messages
in all added diffs minus those the shard of the account has processed; the count of remaining messages is the same for accounts of
other shards, for own accounts it is what was added as not processed minus what was read. -/
theorem cumulative_counts_exact {env : Env} (hdis : Disjoint env) {proc : Table Nat (Bool × ProcTo)} (hu : Uniq proc)
    {ops : List Op} {s : Spec} (h : Trace env proc ops s) :
    ∃ c, Cum.run env (Cum.new proc) ops = some c ∧
      (∀ p a, c.initialCount p a = s.now.pending env p a) ∧
      (∀ p a, c.remainingCount p a = if env.contains env.own a then s.now.unread p a else s.now.pending env p a) := by
  obtain ⟨c, hc, hinv⟩ := inv_run hdis hu h
  exact ⟨c, hc, initialCount_eq hinv.1, remainingCount_eq hinv.1⟩

/-- C63. Iteration over the statistics of a partition gives each account with a count above zero once, with the count that a lookup
gives. -/
theorem view_agrees {env : Env} (hdis : Disjoint env) {proc : Table Nat (Bool × ProcTo)} (hu : Uniq proc)
    {ops : List Op} {s : Spec} (h : Trace env proc ops s) {c : Cum} (hc : Cum.run env (Cum.new proc) ops = some c)
    {p : Nat} {e : Entry} (he : (p, e) ∈ c.result) :
    (e.initial.iter.map (·.1)).Nodup ∧ (e.remaining.q.iter.map (·.1)).Nodup ∧
    (∀ a v, (a, v) ∈ e.initial.iter ↔ e.initial.get a = some v) ∧
    (∀ a v, (a, v) ∈ e.remaining.q.iter ↔ e.remaining.q.get a = some v) ∧
    (∀ a v, (a, v) ∈ e.initial.iter ↔ s.now.pending env p a = v ∧ 0 < v) := by
  have hinv := inv_of_run hdis hu h hc
  obtain ⟨w1, w2⟩ := hinv.1.ok _ he
  have hview : ∀ {q : QStats}, q.Wf → ∀ a v, (a, v) ∈ q.iter ↔ q.get a = some v := by
    intro q hq a v
    rw [mem_iter hq, get_eq_val]
    split
    · simp only [Option.some.injEq]; omega
    · simp only [reduceCtorEq, iff_false]; omega
  refine ⟨uniq_iter w1, uniq_iter w2.wf, hview w1, hview w2.wf, ?_⟩
  intro a v
  rw [mem_iter w1, ← hinv.1.vals p a]
  unfold iv
  rw [get_of_mem _ hinv.1.ures _ _ he]

/-! ### transactions -/

/-- Operations inside a transaction. -/
def Op.plain : Op → Bool
  | .begin => false
  | .commit => false
  | .rollback => false
  | _ => true

theorem step_plain {env : Env} {s : Spec} {op : Op} (h : op.plain = true) : s.step env op = ⟨s.now.step env op, s.saved⟩ := by
  cases op <;> first | rfl | simp [Op.plain] at h

theorem trace_snoc {env : Env} {proc : Table Nat (Bool × ProcTo)} {ops : List Op} {op : Op} {s : Spec}
    (h : Trace env proc (ops ++ [op]) s) : ∃ s0, Trace env proc ops s0 ∧ Legal env s0 op ∧ s = s0.step env op := by
  generalize hl : ops ++ [op] = l at h
  cases h with
  | init => simp at hl
  | step op' h0 hleg =>
    have := List.append_inj' hl rfl
    obtain ⟨h1, h2⟩ := this
    simp only [List.cons.injEq, and_true] at h2
    subst h1; subst h2
    exact ⟨_, h0, hleg, rfl⟩

theorem trace_plain {env : Env} {proc : Table Nat (Bool × ProcTo)} {ops : List Op} : ∀ (mid : List Op) {s : Spec},
    (∀ op ∈ mid, op.plain = true) → Trace env proc (ops ++ mid) s → ∃ s0, Trace env proc ops s0 ∧ s.saved = s0.saved := by
  intro mid
  induction mid using List.reverseRecOn with
  | nil => intro s _ h; rw [List.append_nil] at h; exact ⟨s, h, rfl⟩
  | append_singleton mid op ih =>
    intro s hp h
    rw [← List.append_assoc] at h
    obtain ⟨s1, h1, _, rfl⟩ := trace_snoc h
    obtain ⟨s0, h0, hs⟩ := ih (fun o ho => hp o (List.mem_append_left _ ho)) h1
    refine ⟨s0, h0, ?_⟩
    rw [step_plain (hp op (by simp))]
    exact hs

/-- C64. A transaction that is rolled back leaves no trace: whatever was added, processed or read in it, all counts are as before
it began, and the operations allowed afterwards are the same. -/
theorem rollback_restores_counts {env : Env} (hdis : Disjoint env) {proc : Table Nat (Bool × ProcTo)} (hu : Uniq proc)
    {ops mid : List Op} (hmid : ∀ op ∈ mid, op.plain = true) {s' : Spec}
    (h : Trace env proc (ops ++ .begin :: mid ++ [.rollback]) s') :
    ∃ s c c', Trace env proc ops s ∧ s' = s ∧ Cum.run env (Cum.new proc) ops = some c ∧
      Cum.run env (Cum.new proc) (ops ++ .begin :: mid ++ [.rollback]) = some c' ∧
      (∀ p a, c'.initialCount p a = c.initialCount p a) ∧ (∀ p a, c'.remainingCount p a = c.remainingCount p a) ∧
      c'.proc = c.proc := by
  have h' := h
  obtain ⟨s2, h2, _, rfl⟩ := trace_snoc h
  rw [show ops ++ Op.begin :: mid = (ops ++ [Op.begin]) ++ mid by simp] at h2
  obtain ⟨s1, h1, hs1⟩ := trace_plain mid hmid h2
  obtain ⟨s, h0, hleg, rfl⟩ := trace_snoc h1
  have hs : s2.step env .rollback = s := by
    simp only [Spec.step] at hs1 ⊢
    rw [hs1]
    simp only [Legal] at hleg
    obtain ⟨n, v⟩ := s
    simp only at hleg
    rw [hleg]
  rw [hs] at h'
  obtain ⟨c, hc, hinv⟩ := inv_run hdis hu h0
  obtain ⟨c', hc', hinv'⟩ := inv_run hdis hu h'
  refine ⟨s, c, c', h0, hs, hc, hc', ?_, ?_, ?_⟩
  · intro p a; rw [initialCount_eq hinv.1, initialCount_eq hinv'.1]
  · intro p a; rw [remainingCount_eq hinv.1, remainingCount_eq hinv'.1]
  · rw [hinv.1.proc, hinv'.1.proc]

theorem trace_strip {env : Env} {proc : Table Nat (Bool × ProcTo)} {ops : List Op} {s : Spec} (h : Trace env proc ops s)
    (hr : ∀ op ∈ ops, op matches .rollback → False) : Trace env proc (ops.filter Op.plain) ⟨s.now, none⟩ := by
  induction h with
  | init => exact .init
  | @step ops s op h0 hl ih =>
    have ih := ih (fun o ho => hr o (List.mem_append_left _ ho))
    rw [List.filter_append]
    cases op with
    | begin => simpa [Op.plain, Spec.step] using ih
    | commit => simpa [Op.plain, Spec.step] using ih
    | rollback => exact absurd rfl (hr .rollback (by simp))
    | apply id stats => exact Trace.step (.apply id stats) ih hl
    | update dst pt => exact Trace.step (.update dst pt) ih hl
    | updateAll new => exact Trace.step (.updateAll new) ih hl
    | read part a n => exact Trace.step (.read part a n) ih hl

/-- C64. Transactions that are committed (or still going on) do not change what is counted: the counts are the same as after the same
operations without any transaction. -/
theorem commit_transparent {env : Env} (hdis : Disjoint env) {proc : Table Nat (Bool × ProcTo)} (hu : Uniq proc)
    {ops : List Op} (hr : ∀ op ∈ ops, op matches .rollback → False) {s : Spec} (h : Trace env proc ops s) :
    ∃ c c', Cum.run env (Cum.new proc) ops = some c ∧ Cum.run env (Cum.new proc) (ops.filter Op.plain) = some c' ∧
      (∀ p a, c.initialCount p a = c'.initialCount p a) ∧ (∀ p a, c.remainingCount p a = c'.remainingCount p a) ∧
      c.proc = c'.proc := by
  obtain ⟨c, hc, hinv⟩ := inv_run hdis hu h
  obtain ⟨c', hc', hinv'⟩ := inv_run hdis hu (trace_strip h hr)
  refine ⟨c, c', hc, hc', ?_, ?_, ?_⟩
  · intro p a; rw [initialCount_eq hinv.1, initialCount_eq hinv'.1]
  · intro p a; rw [remainingCount_eq hinv.1, remainingCount_eq hinv'.1]
  · rw [hinv.1.proc, hinv'.1.proc]

/-! ### totals -/

theorem sum_filter_ne {α : Type} (T : α → Nat) (l : List α) : (l.map T).sum = ((l.filter (fun x => decide (T x ≠ 0))).map T).sum := by
  induction l with
  | nil => rfl
  | cons x l ih =>
    by_cases hx : T x = 0
    · rw [List.filter_cons_of_neg (by simp [hx]), List.map_cons, List.sum_cons, hx, ih, Nat.zero_add]
    · rw [List.filter_cons_of_pos (by simp [hx]), List.map_cons, List.sum_cons, List.map_cons, List.sum_cons, ih]

/-- Sums over lists that have all places where a function is not zero are equal. -/
theorem sum_support {α : Type} [DecidableEq α] (T : α → Nat) {l l' : List α} (h : l.Nodup) (h' : l'.Nodup)
    (hs : ∀ x, T x ≠ 0 → x ∈ l ∧ x ∈ l') : (l.map T).sum = (l'.map T).sum := by
  rw [sum_filter_ne T l, sum_filter_ne T l']
  apply List.Perm.sum_nat
  apply List.Perm.map
  rw [List.perm_ext_iff_of_nodup (h.filter _) (h'.filter _)]
  intro x
  simp only [List.mem_filter, decide_eq_true_eq]
  constructor
  · rintro ⟨_, h2⟩; exact ⟨(hs x h2).2, h2⟩
  · rintro ⟨_, h2⟩; exact ⟨(hs x h2).1, h2⟩

theorem sumOwn_eq {env : Env} {q : QStats} (hq : q.Wf) {as : List Nat} (has : as.Nodup)
    (hcov : ∀ a, env.contains env.own a = true → q.val a ≠ 0 → a ∈ as) :
    sumOwn env q.iter = (as.map (fun a => if env.contains env.own a then q.val a else 0)).sum := by
  have h1 : sumOwn env q.iter = ((q.iter.map (·.1)).map (fun a => if env.contains env.own a then q.val a else 0)).sum := by
    unfold sumOwn
    rw [List.map_map]
    congr 1
    apply List.map_congr_left
    intro e he
    obtain ⟨a, v⟩ := e
    simp only [Function.comp]
    rw [((mem_iter hq a v).mp he).1]
  rw [h1]
  apply sum_support _ (uniq_iter hq) has
  intro a ha
  split at ha
  · rename_i ho
    refine ⟨?_, hcov a ho ha⟩
    exact List.mem_map.mpr ⟨(a, q.val a), (mem_iter hq a _).mpr ⟨rfl, by omega⟩, rfl⟩
  · exact absurd rfl ha

/-- C65. The total of remaining messages of the own shard is the sum over partitions and own accounts of the messages added as not
processed and not read yet. -/
theorem remaining_total_exact {env : Env} (hdis : Disjoint env) {proc : Table Nat (Bool × ProcTo)} (hu : Uniq proc)
    {ops : List Op} {s : Spec} (h : Trace env proc ops s) {c : Cum} (hc : Cum.run env (Cum.new proc) ops = some c)
    {ps as : List Nat} (hps : ps.Nodup) (has : as.Nodup)
    (hcov : ∀ p a, env.contains env.own a = true → s.now.unread p a ≠ 0 → p ∈ ps ∧ a ∈ as) :
    c.remainingTotal = (ps.map (fun p => (as.map (fun a => if env.contains env.own a then s.now.unread p a else 0)).sum)).sum := by
  have hinv := (inv_of_run hdis hu h hc).1
  have h1 : c.remainingTotal =
      ((c.result.map (·.1)).map (fun p => (as.map (fun a => if env.contains env.own a then s.now.unread p a else 0)).sum)).sum := by
    unfold Cum.remainingTotal
    rw [List.map_map]
    congr 1
    apply List.map_congr_left
    intro x hx
    have hv : ∀ a, env.contains env.own a = true → x.2.remaining.q.val a = s.now.unread x.1 a := by
      intro a ha
      have := hinv.rems x.1 a
      unfold rv at this
      rw [get_of_mem _ hinv.ures x.1 x.2 hx, if_pos ha] at this
      exact this
    simp only [Function.comp]
    rw [(hinv.ok x hx).2.total, sumOwn_eq (hinv.ok x hx).2.wf has]
    · congr 1
      apply List.map_congr_left
      intro a _
      split
      · rename_i ha; exact hv a ha
      · rfl
    · intro a ha hne
      rw [hv a ha] at hne
      exact (hcov x.1 a ha hne).2
  rw [h1]
  apply sum_support _ hinv.ures hps
  intro p hp
  have : ∃ a ∈ as, (if env.contains env.own a then s.now.unread p a else 0) ≠ 0 := by
    by_contra hcon
    apply hp
    apply List.sum_eq_zero_iff_forall_eq_nat.mpr
    intro n hn
    obtain ⟨a, ha, rfl⟩ := List.mem_map.mp hn
    by_contra hne
    exact hcon ⟨a, ha, hne⟩
  obtain ⟨a, _, ha⟩ := this
  split at ha
  · rename_i ho
    refine ⟨?_, (hcov p a ho ha).1⟩
    cases hg : Table.get c.result p with
    | some e => exact List.mem_map.mpr ⟨(p, e), mem_of_get _ _ _ hg, rfl⟩
    | none =>
      have := hinv.rems p a
      unfold rv at this
      rw [hg, if_pos ho] at this
      exact absurd this.symm ha
  · exact absurd rfl ha

theorem countOf_iter {q : QStats} (hq : q.Wf) (a : Nat) : countOf q.iter a = q.val a := by
  unfold countOf
  cases hg : Table.get q.iter a with
  | some v =>
    have := (mem_iter hq a v).mp (mem_of_get _ _ _ hg)
    exact this.1.symm
  | none =>
    by_contra hne
    have hm : (a, q.val a) ∈ q.iter := (mem_iter hq a _).mpr ⟨rfl, by simp only [Option.getD_none] at hne; omega⟩
    have := get_some_of_mem _ _ _ hm
    rw [hg] at this
    simp at this

theorem aggregate_val {env : Env} : ∀ (l : List Entry), (∀ e ∈ l, EntryOk env e) → ∀ {q : QStats}, q.Wf →
    ∀ a, (aggregate l (some q)).val a = q.val a + (l.map (fun e => e.initial.val a)).sum := by
  intro l
  induction l with
  | nil => intro _ q _ a; rfl
  | cons e l ih =>
    intro hok q hq a
    have hwe := (hok e (by simp)).1
    obtain ⟨h1, h2, _⟩ := append_spec (uniq_iter hwe) hq
    rw [aggregate]
    have := ih (fun x hx => hok x (List.mem_cons_of_mem _ hx)) h2 a
    unfold QStats.append at this h1
    rw [this, h1, countOf_iter hwe, List.map_cons, List.sum_cons]
    omega

theorem sum_parts (f : Diff → Nat) {keys : List Nat} (hk : keys.Nodup) : ∀ (ds : List Diff),
    (∀ d ∈ ds, f d ≠ 0 → d.id.part ∈ keys) →
    (keys.map (fun p => (ds.map (fun d => if d.id.part = p then f d else 0)).sum)).sum = (ds.map f).sum := by
  intro ds
  induction ds with
  | nil =>
    intro _
    apply List.sum_eq_zero_iff_forall_eq_nat.mpr
    intro n hn
    obtain ⟨_, _, rfl⟩ := List.mem_map.mp hn
    rfl
  | cons d ds ih =>
    intro h
    have ih1 := ih (fun x hx => h x (List.mem_cons_of_mem _ hx))
    have hsplit : (keys.map (fun p => ((d :: ds).map (fun d => if d.id.part = p then f d else 0)).sum)).sum =
        (keys.map (fun p => if d.id.part = p then f d else 0)).sum +
        (keys.map (fun p => (ds.map (fun d => if d.id.part = p then f d else 0)).sum)).sum := by
      clear hk ih ih1 h
      induction keys with
      | nil => rfl
      | cons k keys ih2 =>
        rw [List.map_cons, List.sum_cons, List.map_cons, List.sum_cons, List.map_cons, List.sum_cons, ih2, List.map_cons, List.sum_cons]
        omega
    have hone : (keys.map (fun p => if d.id.part = p then f d else 0)).sum = f d := by
      by_cases hz : f d = 0
      · rw [hz]
        apply List.sum_eq_zero_iff_forall_eq_nat.mpr
        intro n hn
        obtain ⟨_, _, rfl⟩ := List.mem_map.mp hn
        split <;> rfl
      · have hm := h d (by simp) hz
        have := sum_support (fun p => if d.id.part = p then f d else 0) hk (l' := [d.id.part]) (by simp) (by
          intro p hp
          split at hp
          · rename_i heq; subst heq; exact ⟨hm, by simp⟩
          · exact absurd rfl hp)
        rw [this]
        simp
    rw [hsplit, hone, ih1, List.map_cons, List.sum_cons]

/-- C65. The statistics aggregated over all partitions count for each account all its messages in added diffs that are not
processed. -/
theorem aggregated_exact {env : Env} (hdis : Disjoint env) {proc : Table Nat (Bool × ProcTo)} (hu : Uniq proc)
    {ops : List Op} {s : Spec} (h : Trace env proc ops s) {c : Cum} (hc : Cum.run env (Cum.new proc) ops = some c) (a : Nat) :
    (c.aggregated.get a).getD 0 = (s.now.applied.map (fun d => pendingIn env s.now.proc d a)).sum := by
  have hinv := (inv_of_run hdis hu h hc).1
  rw [getD_get]
  have hsum : c.aggregated.val a = (c.result.map (fun x => x.2.initial.val a)).sum := by
    unfold Cum.aggregated
    have hok := hinv.ok
    cases hr : c.result with
    | nil => rfl
    | cons x r =>
      rw [hr] at hok
      rw [List.map_cons, aggregate, aggregate_val (env := env) _ (by
        intro e he
        obtain ⟨y, hy, rfl⟩ := List.mem_map.mp he
        exact hok y (List.mem_cons_of_mem _ hy)) (hok x (by simp)).1, List.map_map, List.map_cons, List.sum_cons]
      rfl
  have hkeys : (c.result.map (fun x => x.2.initial.val a)).sum = ((c.result.map (·.1)).map (fun p => s.now.pending env p a)).sum := by
    rw [List.map_map]
    congr 1
    apply List.map_congr_left
    intro x hx
    have := hinv.vals x.1 a
    unfold iv at this
    rw [get_of_mem _ hinv.ures x.1 x.2 hx] at this
    exact this
  rw [hsum, hkeys]
  unfold Snap.pending
  apply sum_parts _ hinv.ures
  intro d hd hne
  by_contra hk
  have hg : Table.get c.result d.id.part = none := get_eq_none (fun v hv => hk (List.mem_map_of_mem (f := (·.1)) hv))
  have := hinv.vals d.id.part a
  unfold iv at this
  rw [hg] at this
  simp only at this
  have hz := List.sum_eq_zero_iff_forall_eq_nat.mp this.symm (if d.id.part = d.id.part then pendingIn env s.now.proc d a else 0)
    (List.mem_map.mpr ⟨d, hd, rfl⟩)
  rw [if_pos rfl] at hz
  exact hne hz

end Tycho.CumulStats
