import Verif.CumulStats.Lemmas

/-! The invariant of the cumulative statistics. -/
namespace Tycho.CumulStats
open Tycho.Table

/-! ### processed diffs -/

theorem isProcessed_iff {env : Env} {proc : Table Nat (Bool × ProcTo)} (hu : Uniq proc) (id : DiffId) (a : Nat) :
    isProcessed env proc id a = true ↔ ∃ dst x, Table.get proc dst = some x ∧ env.contains dst a = true ∧ selId x.2 id = true := by
  unfold isProcessed
  rw [List.any_eq_true]
  constructor
  · rintro ⟨x, hx, hx2⟩
    rw [Bool.and_eq_true] at hx2
    exact ⟨x.1, x.2, get_of_mem proc hu x.1 x.2 hx, hx2.1, hx2.2⟩
  · rintro ⟨dst, x, hx, h1, h2⟩
    refine ⟨(dst, x), mem_of_get proc dst x hx, ?_⟩
    rw [Bool.and_eq_true]
    exact ⟨h1, h2⟩

theorem sel_later {old new : ProcTo} (h : Later old new) {id : DiffId} (hs : selId old id = true) : selId new id = true := by
  unfold selId at *
  cases hg : Table.get old (id.part, id.src) with
  | none => rw [hg] at hs; simp at hs
  | some k =>
    rw [hg] at hs
    simp only [decide_eq_true_eq] at hs
    obtain ⟨k', hk', hle⟩ := h _ _ hg
    rw [hk']
    simp only [decide_eq_true_eq]
    omega

theorem isProcessed_put {env : Env} {proc : Table Nat (Bool × ProcTo)} (hu : Uniq proc) {dst : Nat} {pt : ProcTo} {b : Bool}
    (hl : ∀ x, Table.get proc dst = some x → Later x.2 pt) (id : DiffId) (a : Nat) :
    isProcessed env (put proc dst (b, pt)) id a = true ↔
      (selId pt id = true ∧ env.contains dst a = true) ∨ isProcessed env proc id a = true := by
  rw [isProcessed_iff (uniq_put _ _ _ hu), isProcessed_iff hu]
  constructor
  · rintro ⟨d, x, hx, h1, h2⟩
    rw [get_put] at hx
    split at hx
    · rename_i hd
      simp only [Option.some.injEq] at hx
      subst hx; subst hd
      exact Or.inl ⟨h2, h1⟩
    · exact Or.inr ⟨d, x, hx, h1, h2⟩
  · rintro (⟨h1, h2⟩ | ⟨d, x, hx, h1, h2⟩)
    · exact ⟨dst, (b, pt), by rw [get_put, if_pos rfl], h2, h1⟩
    · by_cases hd : d = dst
      · subst hd
        exact ⟨d, (b, pt), by rw [get_put, if_pos rfl], h1, sel_later (hl x hx) h2⟩
      · exact ⟨d, x, by rw [get_put, if_neg hd]; exact hx, h1, h2⟩

theorem pendingIn_put {env : Env} {proc : Table Nat (Bool × ProcTo)} (hu : Uniq proc) {dst : Nat} {pt : ProcTo} {b : Bool}
    (hl : ∀ x, Table.get proc dst = some x → Later x.2 pt) (r : Diff) (a : Nat) :
    pendingIn env (put proc dst (b, pt)) r a =
      if selId pt r.id = true ∧ env.contains dst a = true then 0 else pendingIn env proc r a := by
  have h := isProcessed_put (env := env) (b := b) hu hl r.id a
  unfold pendingIn
  by_cases h1 : selId pt r.id = true ∧ env.contains dst a = true
  · rw [if_pos (h.mpr (Or.inl h1)), if_pos h1]
  · rw [if_neg h1]
    by_cases h2 : isProcessed env proc r.id a = true
    · rw [if_pos (h.mpr (Or.inr h2)), if_pos h2]
    · rw [if_neg h2, if_neg]
      intro h3
      rcases h.mp h3 with h4 | h4
      · exact h1 h4
      · exact h2 h4

theorem retain_eq (env : Env) (id : DiffId) : ∀ (proc : Table Nat (Bool × ProcTo)) (stats : Accounts),
    retainUnprocessed env proc id stats = stats.filter (fun e => !isProcessed env proc id e.1) := by
  intro proc
  induction proc with
  | nil => intro stats; simp [retainUnprocessed, isProcessed]
  | cons x proc ih =>
    intro stats
    have hstep : retainUnprocessed env (x :: proc) id stats = retainUnprocessed env proc id
        (match Table.get x.2.2 (id.part, id.src) with
          | some toKey => if id.key ≤ toKey then stats.filter (fun e => !env.contains x.1 e.1) else stats
          | none => stats) := rfl
    rw [hstep, ih]
    cases hg : Table.get x.2.2 (id.part, id.src) with
    | none =>
      apply List.filter_congr
      intro e _
      simp [isProcessed, hg]
    | some k =>
      simp only
      by_cases hk : id.key ≤ k
      · rw [if_pos hk, List.filter_filter]
        apply List.filter_congr
        intro e _
        simp [isProcessed, hg, hk, Bool.and_comm]
      · rw [if_neg hk]
        apply List.filter_congr
        intro e _
        simp [isProcessed, hg, hk]

theorem countOf_retain (env : Env) (proc : Table Nat (Bool × ProcTo)) (id : DiffId) (stats : Accounts) (a : Nat) :
    countOf (retainUnprocessed env proc id stats) a = pendingIn env proc ⟨id, stats⟩ a := by
  rw [retain_eq, countOf_filter stats (fun k => !isProcessed env proc id k)]
  unfold pendingIn countOf
  simp only
  cases isProcessed env proc id a <;> rfl

/-! ### rollback -/

/-- An entry after a rollback. -/
def undoE (e : Entry) : Entry :=
  ⟨if e.initial.tx.isSome then ⟨e.initial.base, none⟩ else e.initial,
   if e.remaining.q.tx.isSome then ⟨⟨e.remaining.q.base, none⟩, e.remaining.snapshot, e.remaining.snapshot⟩ else e.remaining⟩

theorem entry_rollback (e : Entry) : e.rollback = some (undoE e) := by
  obtain ⟨⟨b, t⟩, ⟨⟨b', t'⟩, n, k⟩⟩ := e
  cases t <;> cases t' <;> rfl

theorem mapAll_eq {f : Entry → Option Entry} {g : Entry → Entry} : ∀ {t : Results}, (∀ x ∈ t, f x.2 = some (g x.2)) →
    mapAll f t = some (t.map (fun x => (x.1, g x.2)))
  | [], _ => rfl
  | x :: t, h => by
    unfold mapAll
    rw [h x (by simp), mapAll_eq (t := t) (fun y hy => h y (List.mem_cons_of_mem _ hy))]
    rfl

/-- The results after a rollback. -/
def undoR (r : Results) (np : List Nat) : Results := (r.map (fun x => (x.1, undoE x.2))).filter (fun x => !decide (x.1 ∈ np))

theorem rollback_eq (c : Cum) (t : Tx) (h : c.tx = some t) : c.rollback =
    some ⟨t.proc, c.diffs.filter (fun d => !decide (d.id ∈ t.added)), undoR c.result t.newParts, none⟩ := by
  unfold Cum.rollback
  rw [h]
  simp only
  rw [mapAll_eq (g := undoE) (fun x _ => entry_rollback x.2)]
  rfl

/-- Whether the statistics of a partition are in a transaction. -/
def inTxFor (tx : Option Tx) (p : Nat) : Bool := match tx with
  | none => false
  | some t => !decide (p ∈ t.newParts)

/-- Transaction flags of an entry. -/
def FlagsOk (tx : Option Tx) (x : Nat × Entry) : Prop :=
  x.2.initial.tx.isSome = inTxFor tx x.1 ∧ x.2.remaining.q.tx.isSome = inTxFor tx x.1

theorem undoE_rel {e e' : Entry} (h : EntryRel e e') (h1 : e.initial.tx.isSome = true) (h2 : e.remaining.q.tx.isSome = true) :
    undoE e' = undoE e := by
  have g1 := h.1.1
  have g2 := h.1.2 h1
  have g3 := h.2.1.1
  have g4 := h.2.1.2 h2
  have g5 := h.2.2
  unfold undoE
  rw [if_pos h1, if_pos h2, if_pos (by rw [g1]; exact h1), if_pos (by rw [g3]; exact h2), g2, g4, g5]

theorem undoR_rel {r r' : Results} (h : ResRel r r') {t : Tx} (hf : ∀ x ∈ r, FlagsOk (some t) x) :
    undoR r' t.newParts = undoR r t.newParts := by
  unfold undoR
  induction h with
  | nil => rfl
  | @cons x y r r' hxy _ ih =>
    have ih := ih (fun z hz => hf z (List.mem_cons_of_mem _ hz))
    rw [List.map_cons, List.map_cons]
    have hk : y.1 = x.1 := hxy.1
    by_cases hn : x.1 ∈ t.newParts
    · rw [List.filter_cons_of_neg (by simp [hk, hn]), List.filter_cons_of_neg (by simp [hn]), ih]
    · rw [List.filter_cons_of_pos (by simp [hk, hn]), List.filter_cons_of_pos (by simp [hn]), ih]
      obtain ⟨f1, f2⟩ := hf x (by simp)
      simp only [inTxFor, hn, decide_false, Bool.not_false] at f1 f2
      rw [hk, undoE_rel hxy.2 f1 f2]

theorem flags_rel {r r' : Results} (h : ResRel r r') {tx : Option Tx} (hf : ∀ x ∈ r, FlagsOk tx x) : ∀ y ∈ r', FlagsOk tx y := by
  induction h with
  | nil => intro y hy; simp at hy
  | @cons x y r r' hxy _ ih =>
    intro z hz
    rcases List.mem_cons.mp hz with rfl | hz
    · obtain ⟨f1, f2⟩ := hf x (by simp)
      refine ⟨?_, ?_⟩
      · rw [hxy.2.1.1, hxy.1]; exact f1
      · rw [hxy.2.2.1.1, hxy.1]; exact f2
    · exact ih (fun w hw => hf w (List.mem_cons_of_mem _ hw)) z hz

/-! ### the invariant -/

def stgOf (c : Cum) : List (Nat × DiffId) := match c.tx with
  | some t => t.staged
  | none => []

structure Body (env : Env) (c : Cum) (s : Snap) : Prop where
  proc : c.proc = s.proc
  uproc : Uniq c.proc
  ures : Uniq c.result
  ok : ∀ x ∈ c.result, EntryOk env x.2
  flags : ∀ x ∈ c.result, FlagsOk c.tx x
  uapp : (s.applied.map Diff.id).Nodup
  udiffs : (c.diffs.map Diff.id).Nodup
  dstats : ∀ d ∈ c.diffs, Uniq d.stats ∧ (∀ e ∈ d.stats, 0 < e.2) ∧ (Table.get c.result d.id.part).isSome = true
  ids : ∀ d ∈ c.diffs, ∃ r ∈ s.applied, r.id = d.id
  pw : ∀ r ∈ s.applied, ∀ a, (if stagedFor env (stgOf c) r.id a then 0 else lk c.diffs r.id a) = pendingIn env s.proc r a
  vals : ∀ p a, iv c.result p a = s.pending env p a
  rems : ∀ p a, rv c.result p a = if env.contains env.own a then s.unread p a else iv c.result p a

structure TxOk (env : Env) (c : Cum) (s : Snap) (t : Tx) : Prop where
  ka : ∀ x ∈ t.staged, ∃ pt, Table.get t.updates x.1 = some pt ∧ selId pt x.2 = true
  kb : ∀ dst pt, Table.get t.updates dst = some pt → ∀ d ∈ c.diffs, selId pt d.id = true → ∀ a, env.contains dst a = true →
    (dst, d.id) ∈ t.staged ∨ countOf d.stats a = 0
  kc : ∀ dst pt, Table.get t.updates dst = some pt → ∃ b, Table.get c.proc dst = some (b, pt)
  kd : ∀ x ∈ t.staged, ∃ r ∈ s.applied, r.id = x.2
  uups : Uniq t.updates

/-- The state of the transaction agrees with the saved copy of the specification. -/
def TxRel (env : Env) (c : Cum) (s : Spec) : Prop := match c.tx, s.saved with
  | none, none => True
  | some t, some x => TxOk env c s.now t ∧ ∃ c0, c.rollback = some c0 ∧ Body env c0 x ∧ c0.tx = none
  | _, _ => False

def Inv (env : Env) (c : Cum) (s : Spec) : Prop := Body env c s.now ∧ TxRel env c s

theorem sum_pending {env : Env} {A D : List Diff} (hA : (A.map Diff.id).Nodup) (hD : (D.map Diff.id).Nodup)
    (hids : ∀ d ∈ D, ∃ r ∈ A, r.id = d.id) (proc : Table Nat (Bool × ProcTo)) (a : Nat) (f : DiffId → Nat) (F : Diff → Nat → Nat)
    (hF : ∀ d ∈ D, F d a = f d.id) (hG : ∀ r ∈ A, pendingIn env proc r a = f r.id) (hz : ∀ id, id ∉ D.map Diff.id → f id = 0)
    (p : Nat) (u : Nat → Nat → Nat) : sumP F D p a = Snap.pending env ⟨A, proc, u⟩ p a := by
  have h := sum_bridge hA (fun r => pendingIn env proc r a) p f hD hids (by
    intro r hr
    split
    · exact hG r hr
    · rename_i hn; rw [hG r hr, hz _ hn])
  unfold sumP Snap.pending
  simp only
  rw [← h]
  congr 1
  apply List.map_congr_left
  intro d hd
  rw [hF d hd]

theorem lk_not_mem {ds : List Diff} {id : DiffId} (h : id ∉ ds.map Diff.id) (a : Nat) : lk ds id a = 0 :=
  lk_eq_zero (fun d hd hh => h (by rw [← hh]; exact List.mem_map_of_mem hd)) a

theorem Body.sumEff {env : Env} {c : Cum} {s : Snap} (h : Body env c s) (p a : Nat) :
    iv c.result p a = sumP (eff env (stgOf c)) c.diffs p a := by
  rw [h.vals]
  exact (sum_pending h.uapp h.udiffs h.ids s.proc a (fun id => if stagedFor env (stgOf c) id a then 0 else lk c.diffs id a)
    (eff env (stgOf c)) (fun d hd => by rw [lk_mem h.udiffs hd]; rfl) (fun r hr => (h.pw r hr a).symm)
    (fun id hid => by rw [lk_not_mem hid]; split <;> rfl) p s.unread).symm

/-! ### begin, commit, rollback, read -/

theorem inv_init (env : Env) (proc : Table Nat (Bool × ProcTo)) (hu : Uniq proc) :
    Inv env (Cum.new proc) ⟨⟨[], proc, fun _ _ => 0⟩, none⟩ := by
  refine ⟨?_, trivial⟩
  constructor
  · rfl
  · exact hu
  · simp [Cum.new, Uniq]
  · simp [Cum.new]
  · simp [Cum.new]
  · simp
  · simp [Cum.new]
  · simp [Cum.new]
  · simp [Cum.new]
  · simp
  · intro p a; rfl
  · intro p a
    simp [Cum.new, rv, iv, Table.get]

theorem get_map (t : Results) (g : Entry → Entry) (p : Nat) :
    Table.get (t.map (fun x => (x.1, g x.2))) p = (Table.get t p).map g := by
  induction t with
  | nil => rfl
  | cons x t ih =>
    simp only [List.map_cons, Table.get]
    split
    · rfl
    · exact ih

/-- A change of all entries that keeps values. -/
theorem body_map {env : Env} {c c' : Cum} {s : Snap} (h : Body env c s) (g : Entry → Entry)
    (hr : c'.result = c.result.map (fun x => (x.1, g x.2))) (hp : c'.proc = c.proc) (hd : c'.diffs = c.diffs) (hs : stgOf c' = stgOf c)
    (hok : ∀ x ∈ c.result, EntryOk env (g x.2)) (hfl : ∀ x ∈ c.result, FlagsOk c'.tx (x.1, g x.2))
    (hv : ∀ x ∈ c.result, (∀ a, (g x.2).initial.val a = x.2.initial.val a) ∧ ∀ a, (g x.2).remaining.q.val a = x.2.remaining.q.val a) :
    Body env c' s := by
  have hkeys : c'.result.map (·.1) = c.result.map (·.1) := by
    rw [hr, List.map_map]
    rfl
  have hiv : ∀ p a, iv c'.result p a = iv c.result p a := by
    intro p a
    unfold iv
    rw [hr, get_map]
    cases hg : Table.get c.result p with
    | none => rfl
    | some e => exact (hv (p, e) (mem_of_get _ _ _ hg)).1 a
  have hrv : ∀ p a, rv c'.result p a = rv c.result p a := by
    intro p a
    unfold rv
    rw [hr, get_map]
    cases hg : Table.get c.result p with
    | none => rfl
    | some e => exact (hv (p, e) (mem_of_get _ _ _ hg)).2 a
  constructor
  · rw [hp]; exact h.proc
  · rw [hp]; exact h.uproc
  · unfold Uniq; rw [hkeys]; exact h.ures
  · rw [hr]
    intro x hx
    obtain ⟨y, hy, rfl⟩ := List.mem_map.mp hx
    exact hok y hy
  · rw [hr]
    intro x hx
    obtain ⟨y, hy, rfl⟩ := List.mem_map.mp hx
    exact hfl y hy
  · exact h.uapp
  · rw [hd]; exact h.udiffs
  · rw [hd]
    intro d hd'
    obtain ⟨g1, g2, g3⟩ := h.dstats d hd'
    exact ⟨g1, g2, by rw [hr, get_map]; simpa using g3⟩
  · rw [hd]; exact h.ids
  · rw [hd, hs]; exact h.pw
  · intro p a; rw [hiv]; exact h.vals p a
  · intro p a; rw [hrv, hiv]; exact h.rems p a

/-- An entry at the begin of a transaction. -/
def beginE (e : Entry) : Entry := ⟨{ e.initial with tx := some [] }, ⟨{ e.remaining.q with tx := some [] }, e.remaining.total, e.remaining.total⟩⟩

theorem val_begin {q : QStats} (h : q.tx = none) (a : Nat) : (QStats.mk q.base (some [])).val a = q.val a := by
  unfold QStats.val
  rw [h]
  rfl

theorem inv_begin {env : Env} {c : Cum} {s : Spec} (h : Inv env c s) (hl : Legal env s .begin) :
    ∃ c', c.begin = some c' ∧ Inv env c' (s.step env .begin) := by
  obtain ⟨hb, ht⟩ := h
  simp only [Legal] at hl
  unfold TxRel at ht
  rw [hl] at ht
  cases htx : c.tx with
  | some t => rw [htx] at ht; exact absurd ht (by simp)
  | none =>
    have hfl : ∀ x ∈ c.result, x.2.initial.tx = none ∧ x.2.remaining.q.tx = none := by
      intro x hx
      obtain ⟨f1, f2⟩ := hb.flags x hx
      rw [htx] at f1 f2
      simp only [inTxFor, Option.isSome_eq_false_iff, Option.isNone_iff_eq_none] at f1 f2
      exact ⟨f1, f2⟩
    have hmap : mapAll Entry.begin c.result = some (c.result.map (fun x => (x.1, beginE x.2))) := by
      apply mapAll_eq
      intro x hx
      obtain ⟨f1, f2⟩ := hfl x hx
      unfold Entry.begin QStats.begin Tracked.begin QStats.begin beginE
      rw [f1, f2]
      rfl
    refine ⟨_, by unfold Cum.begin; rw [htx]; simp only; rw [hmap]; rfl, ?_, ?_⟩
    · refine body_map hb beginE rfl rfl rfl (by simp [stgOf, htx]) ?_ ?_ ?_
      · intro x hx
        obtain ⟨f1, f2⟩ := hfl x hx
        obtain ⟨w1, w2⟩ := hb.ok x hx
        refine ⟨⟨w1.1, fun t ht => ?_⟩, ⟨w2.wf.1, fun t ht => ?_⟩, ?_, fun _ => ?_⟩
        · simp only [beginE, Option.some.injEq] at ht; subst ht; exact uniq_nil
        · simp only [beginE, Option.some.injEq] at ht; subst ht; exact uniq_nil
        · rw [show (beginE x.2).remaining.total = x.2.remaining.total from rfl, w2.total]
          apply sumOwn_same env
          · exact ⟨w2.wf.1, fun t ht => by simp only [beginE, Option.some.injEq] at ht; subst ht; exact uniq_nil⟩
          · exact w2.wf
          · intro b; exact (val_begin f2 b).symm
        · show x.2.remaining.total = _
          rw [w2.total]
          simp only [beginE]
          rw [← f2]
      · intro x hx
        exact ⟨rfl, rfl⟩
      · intro x hx
        obtain ⟨f1, f2⟩ := hfl x hx
        exact ⟨fun a => val_begin f1 a, fun a => val_begin f2 a⟩
    · unfold TxRel
      simp only [Spec.step]
      refine ⟨⟨by simp, by simp [Table.get], by simp [Table.get], by simp, uniq_nil⟩, ?_⟩
      refine ⟨_, rollback_eq _ _ rfl, ?_, rfl⟩
      have hres : undoR (c.result.map (fun x => (x.1, beginE x.2))) [] =
          c.result.map (fun x => (x.1, (⟨x.2.initial, { x.2.remaining with snapshot := x.2.remaining.total }⟩ : Entry))) := by
        unfold undoR
        rw [List.filter_eq_self.mpr (by simp), List.map_map]
        apply List.map_congr_left
        intro x hx
        obtain ⟨f1, f2⟩ := hfl x hx
        simp only [Function.comp, undoE, beginE, Option.isSome_some, if_true, Prod.mk.injEq, true_and]
        have e1 : (QStats.mk x.2.initial.base none) = x.2.initial := by rw [← f1]
        have e2 : (QStats.mk x.2.remaining.q.base none) = x.2.remaining.q := by rw [← f2]
        rw [e1, e2]
      refine body_map (c := c) hb (fun e => ⟨e.initial, { e.remaining with snapshot := e.remaining.total }⟩) hres rfl ?_ ?_ ?_ ?_ ?_
      · simp
      · simp [stgOf, htx]
      · intro x hx
        obtain ⟨w1, w2⟩ := hb.ok x hx
        refine ⟨w1, w2.wf, w2.total, ?_⟩
        intro hh
        simp [(hfl x hx).2] at hh
      · intro x hx
        obtain ⟨f1, f2⟩ := hfl x hx
        simp [FlagsOk, inTxFor, f1, f2]
      · intro x hx
        exact ⟨fun _ => rfl, fun _ => rfl⟩

theorem inv_rollback {env : Env} {c : Cum} {s : Spec} (h : Inv env c s) (hl : Legal env s .rollback) :
    ∃ c', c.rollback = some c' ∧ Inv env c' (s.step env .rollback) := by
  obtain ⟨hb, ht⟩ := h
  simp only [Legal] at hl
  unfold TxRel at ht
  cases hs : s.saved with
  | none => exact absurd hs hl
  | some x =>
    rw [hs] at ht
    cases htx : c.tx with
    | none => rw [htx] at ht; exact absurd ht (by simp)
    | some t =>
      rw [htx] at ht
      simp only at ht
      obtain ⟨_, c0, h0, hb0, htx0⟩ := ht
      refine ⟨c0, h0, ?_⟩
      simp only [Spec.step, hs]
      refine ⟨hb0, ?_⟩
      unfold TxRel
      rw [htx0]
      trivial

theorem entry_commit {env : Env} {e : Entry} (hok : EntryOk env e) :
    ∃ e', e.commit = some e' ∧ EntryOk env e' ∧ e'.initial.tx = none ∧ e'.remaining.q.tx = none ∧
      (∀ a, e'.initial.val a = e.initial.val a) ∧ ∀ a, e'.remaining.q.val a = e.remaining.q.val a := by
  have h1 : ∃ i, (if e.initial.inTx then e.initial.commit else some e.initial) = some i ∧ i.Wf ∧ i.tx = none ∧
      ∀ a, i.val a = e.initial.val a := by
    cases hi : e.initial.inTx with
    | true =>
      obtain ⟨q, hq, hv, hw, ht⟩ := commit_spec hok.1 hi
      exact ⟨q, by simpa using hq, hw, ht, hv⟩
    | false =>
      refine ⟨e.initial, by simp, hok.1, ?_, fun _ => rfl⟩
      simpa [QStats.inTx] using hi
  have h2 : ∃ r, (if e.remaining.q.inTx then e.remaining.commit else some e.remaining) = some r ∧ r.Ok env ∧ r.q.tx = none ∧
      ∀ a, r.q.val a = e.remaining.q.val a := by
    cases hi : e.remaining.q.inTx with
    | true =>
      obtain ⟨q, hq, hv, hw, ht⟩ := tracked_commit hok.2 hi
      exact ⟨q, by simpa using hq, hw, ht, hv⟩
    | false =>
      refine ⟨e.remaining, by simp, hok.2, ?_, fun _ => rfl⟩
      simpa [QStats.inTx] using hi
  obtain ⟨i, hi, w1, t1, v1⟩ := h1
  obtain ⟨r, hr, w2, t2, v2⟩ := h2
  refine ⟨⟨i, r⟩, ?_, ⟨w1, w2⟩, t1, t2, v1, v2⟩
  unfold Entry.commit
  rw [hi, hr]
  rfl

theorem inv_commit {env : Env} {c : Cum} {s : Spec} (h : Inv env c s) (hl : Legal env s .commit) :
    ∃ c', c.commit env = some c' ∧ Inv env c' (s.step env .commit) := by
  obtain ⟨hb, ht⟩ := h
  simp only [Legal] at hl
  unfold TxRel at ht
  cases hs : s.saved with
  | none => exact absurd hs hl
  | some x =>
    rw [hs] at ht
    cases htx : c.tx with
    | none => rw [htx] at ht; exact absurd ht (by simp)
    | some t =>
      rw [htx] at ht
      simp only at ht
      obtain ⟨htok, _⟩ := ht
      let g : Entry → Entry := fun e => (e.commit).getD e
      have hg : ∀ x ∈ c.result, x.2.commit = some (g x.2) ∧ EntryOk env (g x.2) ∧ (g x.2).initial.tx = none ∧
          (g x.2).remaining.q.tx = none ∧ (∀ a, (g x.2).initial.val a = x.2.initial.val a) ∧
          ∀ a, (g x.2).remaining.q.val a = x.2.remaining.q.val a := by
        intro x hx
        obtain ⟨e', he', h'⟩ := entry_commit (hb.ok x hx)
        have : g x.2 = e' := by simp only [g]; rw [he']; rfl
        rw [this]
        exact ⟨he', h'⟩
      have hmap : mapAll Entry.commit c.result = some (c.result.map (fun x => (x.1, g x.2))) :=
        mapAll_eq (fun x hx => (hg x hx).1)
      obtain ⟨l1, l2, l3⟩ := commitLoop_spec env t.updates c.diffs hb.udiffs
      -- first without the change of diffs
      have hb' : Body env ⟨c.proc, c.diffs, c.result.map (fun x => (x.1, g x.2)), some t⟩ s.now → True := fun _ => trivial
      refine ⟨_, by unfold Cum.commit; rw [htx]; simp only; rw [hmap]; rfl, ?_, ?_⟩
      · have hkeys : (c.result.map (fun x => (x.1, g x.2))).map (·.1) = c.result.map (·.1) := by
          rw [List.map_map]; rfl
        have hiv : ∀ p a, iv (c.result.map (fun x => (x.1, g x.2))) p a = iv c.result p a := by
          intro p a
          unfold iv
          rw [get_map]
          cases hgg : Table.get c.result p with
          | none => rfl
          | some e => exact (hg (p, e) (mem_of_get _ _ _ hgg)).2.2.2.2.1 a
        have hrv : ∀ p a, rv (c.result.map (fun x => (x.1, g x.2))) p a = rv c.result p a := by
          intro p a
          unfold rv
          rw [get_map]
          cases hgg : Table.get c.result p with
          | none => rfl
          | some e => exact (hg (p, e) (mem_of_get _ _ _ hgg)).2.2.2.2.2 a
        constructor
        · exact hb.proc
        · exact hb.uproc
        · unfold Uniq; rw [hkeys]; exact hb.ures
        · intro x hx
          obtain ⟨y, hy, rfl⟩ := List.mem_map.mp hx
          exact (hg y hy).2.1
        · intro x hx
          obtain ⟨y, hy, rfl⟩ := List.mem_map.mp hx
          obtain ⟨_, _, f1, f2, _⟩ := hg y hy
          simp [FlagsOk, inTxFor, f1, f2]
        · exact hb.uapp
        · exact l1
        · intro d' hd'
          obtain ⟨d, hd, hid, hsub⟩ := l2 d' hd'
          obtain ⟨g1, g2, g3⟩ := hb.dstats d hd
          refine ⟨?_, fun e he => g2 e (hsub.subset he), ?_⟩
          · unfold Uniq at *; exact g1.sublist (hsub.map _)
          · rw [hid, get_map]; simpa using g3
        · intro d' hd'
          obtain ⟨d, hd, hid, _⟩ := l2 d' hd'
          obtain ⟨r, hr, hr'⟩ := hb.ids d hd
          exact ⟨r, hr, by rw [hr', hid]⟩
        · intro r hr a
          have hpw := hb.pw r hr a
          simp only [stgOf, htx] at hpw
          show (if stagedFor env [] r.id a then 0 else lk (commitLoop env c.diffs t.updates) r.id a) = pendingIn env s.now.proc r a
          rw [show stagedFor env [] r.id a = false from rfl, if_neg (by simp), l3, ← hpw]
          by_cases hst : stagedFor env t.staged r.id a = true
          · rw [if_pos hst, if_pos]
            unfold stagedFor at hst
            rw [List.any_eq_true] at hst
            obtain ⟨x, hx, hx2⟩ := hst
            simp only [Bool.and_eq_true, decide_eq_true_eq] at hx2
            obtain ⟨pt, hpt, hsel⟩ := htok.ka x hx
            rw [List.any_eq_true]
            exact ⟨(x.1, pt), mem_of_get _ _ _ hpt, by rw [hx2.1] at hsel; simp [hsel, hx2.2]⟩
          · rw [if_neg hst]
            split
            · rename_i hany
              rw [List.any_eq_true] at hany
              obtain ⟨⟨dst, pt⟩, hx, hx2⟩ := hany
              simp only [Bool.and_eq_true] at hx2
              have hget := get_of_mem _ htok.uups _ _ hx
              by_cases hmem : r.id ∈ c.diffs.map Diff.id
              · obtain ⟨d, hd, hid⟩ := List.mem_map.mp hmem
                rw [← hid, lk_mem hb.udiffs hd]
                rcases htok.kb dst pt hget d hd (by rw [hid]; exact hx2.1) a hx2.2 with hin | hz
                · exfalso
                  apply hst
                  unfold stagedFor
                  rw [List.any_eq_true]
                  exact ⟨(dst, d.id), hin, by simp [hid, hx2.2]⟩
                · exact hz.symm
              · exact (lk_not_mem hmem a).symm
            · rfl
        · intro p a; rw [hiv]; exact hb.vals p a
        · intro p a; rw [hrv, hiv]; exact hb.rems p a
      · unfold TxRel
        simp [Spec.step]

theorem tx_rel_of {env : Env} {c c' : Cum} {s s' : Spec} (h : TxRel env c s) (hsv : s'.saved = s.saved)
    (htx : c.tx.isSome = c'.tx.isSome)
    (hok : ∀ t, c.tx = some t → TxOk env c s.now t → ∃ t', c'.tx = some t' ∧ TxOk env c' s'.now t')
    (hr : c.tx.isSome = true → c'.rollback = c.rollback) : TxRel env c' s' := by
  unfold TxRel at *
  rw [hsv]
  cases hc : c.tx with
  | none =>
    rw [hc] at h htx
    cases hc' : c'.tx with
    | some t => rw [hc'] at htx; simp at htx
    | none =>
      cases hs : s.saved with
      | none => trivial
      | some x => rw [hs] at h; exact h.elim
  | some t =>
    rw [hc] at h
    cases hs : s.saved with
    | none => rw [hs] at h; exact absurd h (by simp)
    | some x =>
      rw [hs] at h
      simp only at h
      obtain ⟨t', ht', htok'⟩ := hok t hc h.1
      rw [ht']
      simp only
      refine ⟨htok', ?_⟩
      rw [hr (by rw [hc]; rfl)]
      exact h.2

theorem inv_read {env : Env} {c : Cum} {s : Spec} (h : Inv env c s) {part a n : Nat} (hl : Legal env s (.read part a n)) :
    ∃ c', c.read env part a n = some c' ∧ Inv env c' (s.step env (.read part a n)) := by
  obtain ⟨hb, ht⟩ := h
  simp only [Legal] at hl
  obtain ⟨hown, hn, hle⟩ := hl
  have hrv := hb.rems part a
  rw [if_pos hown] at hrv
  cases hg : Table.get c.result part with
  | none =>
    unfold rv at hrv
    rw [hg] at hrv
    simp only at hrv
    omega
  | some e =>
    have hok := ok_get hb.ok hg
    have hval : e.remaining.q.val a = s.now.unread part a := by
      unfold rv at hrv
      rw [hg] at hrv
      exact hrv
    obtain ⟨r', hr', hv, hrok, hun⟩ := tracked_decrement hok.2 hn (show n ≤ e.remaining.q.val a by omega)
    have hmod := modify_eq hb.ures (p := part)
      (f := fun e => (e.remaining.decrement env a n).map fun r => { e with remaining := r }) hg (e' := { e with remaining := r' })
      (show Option.map _ (e.remaining.decrement env a n) = _ by rw [hr']; rfl)
    have hrel := rel_setAt hb.ures (p := part) (e' := { e with remaining := r' }) hg ⟨SameUndo.refl _, hun⟩
    have hiv : ∀ p b, iv (setAt c.result part { e with remaining := r' }) p b = iv c.result p b := by
      intro p b
      unfold iv
      rw [get_setAt]
      by_cases hp : p = part
      · subst hp; rw [if_pos rfl, hg]; rfl
      · rw [if_neg hp]
    refine ⟨_, by unfold Cum.read; rw [hmod]; rfl, ?_, ?_⟩
    · simp only [Spec.step, Snap.step]
      constructor
      · exact hb.proc
      · exact hb.uproc
      · exact uniq_of_keys hrel.keys hb.ures
      · exact ok_setAt hb.ok ⟨hok.1, hrok⟩
      · exact flags_rel hrel hb.flags
      · exact hb.uapp
      · exact hb.udiffs
      · intro d hd
        obtain ⟨g1, g2, g3⟩ := hb.dstats d hd
        exact ⟨g1, g2, by simp only; rw [hrel.isSome]; exact g3⟩
      · exact hb.ids
      · exact hb.pw
      · intro p b
        simp only
        rw [hiv]
        exact hb.vals p b
      · intro p b
        simp only
        rw [hiv]
        have hrb := hb.rems p b
        unfold rv at hrb ⊢
        rw [get_setAt]
        by_cases hp : p = part
        · subst hp
          rw [if_pos rfl, hg]
          rw [hg] at hrb
          simp only [Option.map_some, true_and] at hrb ⊢
          rw [hv]
          by_cases hba : b = a
          · subst hba
            rw [if_pos rfl, if_pos hown, if_pos rfl, hval]
          · rw [if_neg hba, if_neg hba]
            exact hrb
        · rw [if_neg hp]
          simp only [hp, false_and, if_false]
          exact hrb
    · refine tx_rel_of ht rfl rfl (fun t htx htok => ⟨t, htx, ?_⟩) ?_
      · exact { htok with }
      · intro hs
        obtain ⟨t, htx⟩ := Option.isSome_iff_exists.mp hs
        rw [rollback_eq c t htx, rollback_eq { c with result := setAt c.result part { e with remaining := r' } } t htx]
        simp only
        rw [undoR_rel hrel (by rw [← htx]; exact hb.flags)]

end Tycho.CumulStats
