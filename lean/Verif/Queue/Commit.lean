import Verif.Queue.Clear

/-!
C15: committing top blocks and collecting garbage. Histories interleave callers and the background collector in every
way, with restarts at any point (`Sys`, `Op`, `run`).
-/
namespace Tycho.Queue
open Tycho.Table

/-! ### the loop over the top blocks -/

/-- The diff record of a top block. -/
def topInfo (db : DB) (b : Top) : Option Info := get db.infos (b.shard, b.seqno)

theorem foldGc_uniq (l : List (Shard × Nat)) (gc : Table Shard Nat) (h : Uniq gc) : Uniq (l.foldl gcMin gc) := by
  induction l generalizing gc with
  | nil => exact h
  | cons e l ih =>
    apply ih
    unfold gcMin
    split
    · split
      · exact uniq_put _ _ _ h
      · exact h
    · exact uniq_put _ _ _ h

theorem gcMin_get (gc : Table Shard Nat) (e : Shard × Nat) (s : Shard) :
    get (gcMin gc e) s = if s = e.1 then some (match get gc s with | some o => min e.2 o | none => e.2) else get gc s := by
  unfold gcMin
  by_cases hs : s = e.1
  · subst hs
    rw [if_pos rfl]
    split
    · rename_i old h
      rw [h]
      split
      · rw [get_put, if_pos rfl]
        simp only [Option.some.injEq]; omega
      · rw [h]; simp only [Option.some.injEq]; omega
    · rename_i h
      rw [get_put, if_pos rfl, h]
  · rw [if_neg hs]
    split
    · split
      · rw [get_put, if_neg hs]
      · rfl
    · rw [get_put, if_neg hs]

/-- Folding in a list of positions takes the minimum per shard. -/
theorem foldGc_spec (l : List (Shard × Nat)) (gc : Table Shard Nat) (s : Shard) :
    (∀ v, (s, v) ∈ l → ∃ w, get (l.foldl gcMin gc) s = some w ∧ w ≤ v) ∧
    (∀ v, get gc s = some v → ∃ w, get (l.foldl gcMin gc) s = some w ∧ w ≤ v) ∧
    (∀ w, get (l.foldl gcMin gc) s = some w → (s, w) ∈ l ∨ get gc s = some w) := by
  induction l generalizing gc with
  | nil => exact ⟨by simp, fun v h => ⟨v, h, Nat.le_refl _⟩, fun w h => Or.inr h⟩
  | cons e l ih =>
    obtain ⟨h1, h2, h3⟩ := ih (gcMin gc e)
    simp only [List.foldl_cons]
    have hget := gcMin_get gc e s
    refine ⟨?_, ?_, ?_⟩
    · intro v hv
      rcases List.mem_cons.mp hv with hv | hv
      · subst hv
        rw [if_pos rfl] at hget
        obtain ⟨w, hw, hle⟩ := h2 _ hget
        refine ⟨w, hw, Nat.le_trans hle ?_⟩
        split
        · exact Nat.min_le_left _ _
        · exact Nat.le_refl _
      · exact h1 v hv
    · intro v hv
      by_cases hs : s = e.1
      · rw [if_pos hs, hv] at hget
        obtain ⟨w, hw, hle⟩ := h2 _ hget
        exact ⟨w, hw, Nat.le_trans hle (Nat.min_le_right _ _)⟩
      · rw [if_neg hs, hv] at hget
        exact h2 _ hget
    · intro w hw
      rcases h3 w hw with h | h
      · exact Or.inl (by simp [h])
      · rw [hget] at h
        split at h
        · rename_i hs
          simp only [Option.some.injEq] at h
          split at h
          · rename_i o ho
            rcases Nat.le_total e.2 o with hle | hle
            · rw [Nat.min_eq_left hle] at h
              left; rw [← h, hs]; simp
            · rw [Nat.min_eq_right hle] at h
              right; rw [ho, h]
          · left; rw [← h, hs]; simp
        · exact Or.inr h

/-- What the loop has computed after the blocks `tops`, starting from `a`. -/
theorem commitTops_spec {zs : Nat} {db : DB} {tops : List Top} {a r : CommitAcc}
    (h : commitTops zs db a tops = some r) (hu : Uniq a.gc) (hp : Uniq a.ptrs) :
    Uniq r.gc ∧ Uniq r.ptrs ∧
    (∀ b ∈ tops, ∀ i, topInfo db b = some i →
      get r.ptrs b.shard = some (i.maxMessage, i.seqno) ∧
      ∀ s v, (s, v) ∈ i.processedTo → ∃ w, get r.gc s = some w ∧ w ≤ v) ∧
    (∀ s v, get a.ptrs s = some v → get r.ptrs s = some v) ∧
    (∀ s v, get a.gc s = some v → ∃ w, get r.gc s = some w ∧ w ≤ v) ∧
    (∀ s v, get r.ptrs s = some v → get a.ptrs s = some v ∨
      ∃ b ∈ tops, ∃ i, topInfo db b = some i ∧ b.shard = s ∧ v = (i.maxMessage, i.seqno)) ∧
    (∀ s w, get r.gc s = some w → get a.gc s = some w ∨
      ∃ b ∈ tops, ∃ i, topInfo db b = some i ∧ (s, w) ∈ i.processedTo) ∧
    (∀ b ∈ tops, topInfo db b = none → b.updated = true → b.refByMc ≤ zs) := by
  induction tops generalizing a with
  | nil =>
    simp only [commitTops, Option.some.injEq] at h
    subst h
    refine ⟨hu, hp, by simp, fun _ _ h => h, fun _ v h => ⟨v, h, Nat.le_refl _⟩, fun _ _ h => Or.inl h,
      fun _ _ h => Or.inl h, by simp⟩
  | cons b tops ih =>
    unfold commitTops at h
    split at h
    · cases h
    · rename_i a' ha
      unfold commitTop at ha
      rw [getInfo_both] at ha
      split at ha
      · rename_i hnone
        split at ha
        · cases ha
        · rename_i hcond
          simp only [Option.some.injEq] at ha
          subst ha
          obtain ⟨u1, u2, c1, c2, c3, c4, c5, c6⟩ := ih h hu hp
          refine ⟨u1, u2, ?_, c2, c3, ?_, ?_, ?_⟩
          · intro b' hb' i hi
            rcases List.mem_cons.mp hb' with rfl | hb'
            · unfold topInfo at hi; rw [hnone] at hi; cases hi
            · exact c1 b' hb' i hi
          · intro s v hv
            rcases c4 s v hv with h | ⟨b', hb', i, hi⟩
            · exact Or.inl h
            · exact Or.inr ⟨b', by simp [hb'], i, hi⟩
          · intro s v hv
            rcases c5 s v hv with h | ⟨b', hb', i, hi⟩
            · exact Or.inl h
            · exact Or.inr ⟨b', by simp [hb'], i, hi⟩
          · intro b' hb' hn hup
            rcases List.mem_cons.mp hb' with rfl | hb'
            · simp only [hup, Bool.true_and, decide_eq_true_eq] at hcond
              omega
            · exact c6 b' hb' hn hup
      · rename_i i hi
        split at ha
        · cases ha
        · rename_i hfresh
          simp only [Option.some.injEq] at ha
          subst ha
          obtain ⟨u1, u2, c1, c2, c3, c4, c5, c6⟩ := ih h (foldGc_uniq _ _ hu) (uniq_put _ _ _ hp)
          simp only at c2 c3 c4 c5
          have hspec := foldGc_spec i.processedTo a.gc
          refine ⟨u1, u2, ?_, ?_, ?_, ?_, ?_, ?_⟩
          · intro b' hb' j hj
            rcases List.mem_cons.mp hb' with rfl | hb'
            · unfold topInfo at hj
              rw [hi] at hj; cases hj
              refine ⟨c2 _ _ (by rw [get_put, if_pos rfl]), ?_⟩
              intro s v hv
              obtain ⟨w, hw, hle⟩ := (hspec s).1 v hv
              obtain ⟨w', hw', hle'⟩ := c3 s w hw
              exact ⟨w', hw', Nat.le_trans hle' hle⟩
            · exact c1 b' hb' j hj
          · intro s v hv
            apply c2
            rw [get_put, if_neg, hv]
            intro heq; rw [heq, hfresh] at hv; cases hv
          · intro s v hv
            obtain ⟨w, hw, hle⟩ := (hspec s).2.1 v hv
            obtain ⟨w', hw', hle'⟩ := c3 s w hw
            exact ⟨w', hw', Nat.le_trans hle' hle⟩
          · intro s v hv
            rcases c4 s v hv with h | ⟨b', hb', j, hj⟩
            · rw [get_put] at h
              split at h
              · rename_i hs
                simp only [Option.some.injEq] at h
                exact Or.inr ⟨b, by simp, i, hi, hs.symm, h.symm⟩
              · exact Or.inl h
            · exact Or.inr ⟨b', by simp [hb'], j, hj⟩
          · intro s w hw
            rcases c5 s w hw with h | ⟨b', hb', j, hj⟩
            · rcases (hspec s).2.2 w h with h | h
              · exact Or.inr ⟨b, by simp, i, hi, h⟩
              · exact Or.inl h
            · exact Or.inr ⟨b', by simp [hb'], j, hj⟩
          · intro b' hb' hn hup
            rcases List.mem_cons.mp hb' with rfl | hb'
            · unfold topInfo at hn; rw [hi] at hn; cases hn
            · exact c6 b' hb' hn hup

/-! ### one commit -/

/-- The masterchain block of the call. -/
def IsMcOf (tops : List Top) (mc : Top) : Prop := tops.find? (fun b => isMc b.shard) = some mc

/-- A masterchain block that is not newer than the committed one: success without any effect. -/
theorem commit_old (zs : Nat) (db : DB) (u : Until) (tops : List Top) (parts : List Part) (mc : Top) (hmc : IsMcOf tops mc)
    (k n : Nat) (hp : get db.ptrs mc.shard = some (k, n)) (hle : mc.seqno ≤ n) :
    commit zs db u tops parts = some (db, u) := by
  unfold commit
  rw [hmc]
  simp only [committedBy, hp, hle, decide_true, if_true]

/-- The effect of a commit with a newer masterchain block: the pointer of every top block with a recorded diff is the
greatest message and the seqno of that diff; the other pointers stay; only the pointers, the last committed
masterchain seqno and the collection targets change. -/
theorem commit_effect (zs : Nat) (db db' : DB) (u u' : Until) (tops : List Top) (parts : List Part) (mc : Top)
    (hmc : IsMcOf tops mc) (hnew : ∀ k n, get db.ptrs mc.shard = some (k, n) → n < mc.seqno)
    (hc : commit zs db u tops parts = some (db', u')) :
    (∀ b ∈ tops, ∀ i, topInfo db b = some i → get db'.ptrs b.shard = some (i.maxMessage, i.seqno)) ∧
    (∀ s, (∀ b ∈ tops, b.shard = s → topInfo db b = none) → get db'.ptrs s = get db.ptrs s) ∧
    db'.lastMc = some mc.seqno ∧ db'.msgs = db.msgs ∧ db'.stats = db.stats ∧ db'.tails = db.tails ∧
    db'.infos = db.infos := by
  obtain ⟨mc', hmc', h⟩ := commit_some hc
  unfold IsMcOf at hmc
  rw [hmc] at hmc'; cases hmc'
  rcases h with ⟨hb, _⟩ | ⟨_, acc, hacc, heq⟩
  · exfalso
    unfold committedBy at hb
    split at hb
    · rename_i p hp
      simp only [decide_eq_true_eq] at hb
      have := hnew p.1 p.2 hp
      omega
    · cases hb
  · simp only [Prod.mk.injEq] at heq
    obtain ⟨rfl, _⟩ := heq
    obtain ⟨_, u2, c1, _, _, c4, _, _⟩ := commitTops_spec hacc uniq_nil uniq_nil
    refine ⟨?_, ?_, rfl, rfl, rfl, rfl, rfl⟩
    · intro b hb i hi
      have hg := (c1 b hb i hi).1
      have hm := mem_of_get _ _ _ hg
      exact get_putAll_mem db.ptrs acc.ptrs u2 _ hm
    · intro s hs
      apply get_putAll_not
      intro e he heq
      have hg := get_of_mem _ u2 e.1 e.2 he
      rcases c4 _ _ hg with h | ⟨b, hb, i, hi, hsh, _⟩
      · simp [Table.get] at h
      · have := hs b hb (by rw [hsh, heq])
        rw [this] at hi; cases hi

/-- A missing diff of an updated top block (after the zerostate) is an error. -/
theorem commit_missing (zs : Nat) (db : DB) (u : Until) (tops : List Top) (parts : List Part) (mc : Top)
    (hmc : IsMcOf tops mc) (hnew : ∀ k n, get db.ptrs mc.shard = some (k, n) → n < mc.seqno)
    (b : Top) (hb : b ∈ tops) (hn : topInfo db b = none) (hup : b.updated = true) (hz : zs < b.refByMc) :
    commit zs db u tops parts = none := by
  cases hc : commit zs db u tops parts with
  | none => rfl
  | some r =>
    obtain ⟨mc', hmc', h⟩ := commit_some hc
    unfold IsMcOf at hmc
    rw [hmc] at hmc'; cases hmc'
    rcases h with ⟨hb', _⟩ | ⟨_, acc, hacc, _⟩
    · exfalso
      unfold committedBy at hb'
      split at hb'
      · rename_i p hp
        simp only [decide_eq_true_eq] at hb'
        have := hnew p.1 p.2 hp
        omega
      · cases hb'
    · obtain ⟨_, _, _, _, _, _, _, c6⟩ := commitTops_spec hacc uniq_nil uniq_nil
      have := c6 b hb hn hup
      omega

theorem mem_foldParts (parts : List Part) (u : Until) (s : Shard) (v : Nat) (x : (Part × Shard) × Nat)
    (h : x ∈ parts.foldl (fun u p => put u (p, s) v) u) : x ∈ u ∨ ∃ p ∈ parts, x = ((p, s), v) := by
  induction parts generalizing u with
  | nil => exact Or.inl h
  | cons p ps ih =>
    rcases ih _ h with h | ⟨q, hq, rfl⟩
    · unfold put at h
      rcases List.mem_cons.mp h with rfl | h
      · exact Or.inr ⟨p, by simp, rfl⟩
      · exact Or.inl ((mem_del _ _ _).mp h).1
    · exact Or.inr ⟨q, by simp [hq], rfl⟩

theorem mem_updateUntil (gc : Table Shard Nat) (u : Until) (parts : List Part) (x : (Part × Shard) × Nat)
    (h : x ∈ updateUntil u gc parts) : x ∈ u ∨ (x.1.2, x.2) ∈ gc ∧ x.1.1 ∈ parts := by
  unfold updateUntil at h
  induction gc generalizing u with
  | nil => exact Or.inl h
  | cons e gc ih =>
    simp only [List.foldl_cons] at h
    rcases ih _ h with h | ⟨h1, h2⟩
    · rcases mem_foldParts _ _ _ _ _ h with h | ⟨p, hp, rfl⟩
      · exact Or.inl h
      · exact Or.inr ⟨by simp, hp⟩
    · exact Or.inr ⟨by simp [h1], h2⟩

/-! ### garbage collection over all histories -/

/-- A commit that took effect in state `σ`. -/
def Effective (zs : Nat) (σ : Sys) (tops : List Top) (parts : List Part) : Prop :=
  σ.pend = [] ∧ ∃ mc, IsMcOf tops mc ∧ committedBy σ.db mc = false ∧ (commit zs σ.db σ.until_ tops parts).isSome

/-- Position `k` of shard `s` in partition `p` was processed according to some commit of the history: a commit of
partition `p` took effect, some committed top block has a recorded diff that mentions `s`, and every committed top
block with a recorded diff that mentions `s` has processed `s` up to `k` or further. -/
def Processed (zs : Nat) (ops : List Op) (p : Part) (s : Shard) (k : Nat) : Prop :=
  ∃ pre tops parts post, ops = pre ++ .commit tops parts :: post ∧
    Effective zs (run zs Sys.init pre) tops parts ∧ p ∈ parts ∧
    (∃ b ∈ tops, ∃ i v, topInfo (run zs Sys.init pre).db b = some i ∧ (s, v) ∈ i.processedTo) ∧
    (∀ b ∈ tops, ∀ i v, topInfo (run zs Sys.init pre).db b = some i → (s, v) ∈ i.processedTo → k ≤ v)

theorem Processed.snoc {zs : Nat} {ops : List Op} {p : Part} {s : Shard} {k : Nat} (h : Processed zs ops p s k) (op : Op) :
    Processed zs (ops ++ [op]) p s k := by
  obtain ⟨pre, tops, parts, post, rfl, h⟩ := h
  exact ⟨pre, tops, parts, post ++ [op], by simp, h⟩

theorem Processed.le {zs : Nat} {ops : List Op} {p : Part} {s : Shard} {k j : Nat} (h : Processed zs ops p s k) (hj : j ≤ k) :
    Processed zs ops p s j := by
  obtain ⟨pre, tops, parts, post, rfl, h1, h2, h3, h4⟩ := h
  exact ⟨pre, tops, parts, post, rfl, h1, h2, h3, fun b hb i v hi hv => Nat.le_trans hj (h4 b hb i v hi hv)⟩

/-- Everything the collector holds is justified. -/
structure GcOk (zs : Nat) (ops : List Op) (σ : Sys) : Prop where
  until_ : ∀ x ∈ σ.until_, Processed zs ops x.1.1 x.1.2 x.2
  work : ∀ x ∈ σ.work, Processed zs ops x.1.1 x.1.2 x.2
  flight : ∀ d, σ.flight = some d → d.range.lo = 0 ∧ Processed zs ops d.range.part d.range.shard d.range.hi

theorem gcOk_run (zs : Nat) (ops : List Op) : GcOk zs ops (run zs Sys.init ops) := by
  induction ops using List.reverseRecOn with
  | nil => constructor <;> simp [run, Sys.init]
  | append_singleton ops op ih =>
    have hr : run zs Sys.init (ops ++ [op]) = step zs (run zs Sys.init ops) op := by simp [run]
    rw [hr]
    have base : GcOk zs (ops ++ [op]) (run zs Sys.init ops) :=
      ⟨fun x hx => (ih.until_ x hx).snoc op, fun x hx => (ih.work x hx).snoc op,
        fun d hd => ⟨(ih.flight d hd).1, (ih.flight d hd).2.snoc op⟩⟩
    have keep : ∀ σ' : Sys, σ'.until_ = (run zs Sys.init ops).until_ → σ'.work = (run zs Sys.init ops).work →
        σ'.flight = (run zs Sys.init ops).flight → GcOk zs (ops ++ [op]) σ' := by
      intro σ' h1 h2 h3
      exact ⟨by rw [h1]; exact base.until_, by rw [h2]; exact base.work, by rw [h3]; exact base.flight⟩
    cases op with
    | «prepare» d s n h st c =>
      simp only [step]; unfold doPrepare
      split
      · exact base
      · split
        · exact keep _ rfl rfl rfl
        · exact base
    | write s =>
      simp only [step]; unfold doWrite
      split
      · exact base
      · exact keep _ rfl rfl rfl
    | drop s => exact keep _ rfl rfl rfl
    | commit tops parts =>
      simp only [step]; unfold doCommit
      split
      · exact base
      · rename_i hpend
        simp only [ne_eq, Decidable.not_not] at hpend
        split
        · exact base
        · rename_i r hc
          obtain ⟨mc, hmc, h⟩ := commit_some hc
          rcases h with ⟨_, rfl⟩ | ⟨hnb, acc, hacc, rfl⟩
          · exact keep _ rfl rfl rfl
          · refine ⟨?_, base.work, base.flight⟩
            intro x hx
            rcases mem_updateUntil _ _ _ _ hx with hx | ⟨hx, hp⟩
            · exact base.until_ x hx
            · obtain ⟨u1, _, c1, _, _, _, c5, _⟩ := commitTops_spec hacc uniq_nil uniq_nil
              have hg := get_of_mem _ u1 _ _ hx
              refine ⟨ops, tops, parts, [], rfl, ⟨hpend, mc, hmc, hnb, by rw [hc]; rfl⟩, hp, ?_, ?_⟩
              · rcases c5 _ _ hg with h | ⟨b, hb, i, hi, hv⟩
                · simp [Table.get] at h
                · exact ⟨b, hb, i, _, hi, hv⟩
              · intro b hb i v hi hv
                obtain ⟨w, hw, hle⟩ := (c1 b hb i hi).2 _ _ hv
                rw [hg] at hw
                cases hw
                exact hle
    | clear parts tops =>
      simp only [step]; unfold doClear
      split
      · exact base
      · exact keep _ rfl rfl rfl
    | gcTick =>
      simp only [step]; unfold doGcTick
      split
      · exact ⟨base.until_, base.until_, base.flight⟩
      · exact base
    | gcPlan =>
      simp only [step]; unfold doGcPlan
      split
      · exact base
      · rename_i e rest he
        split
        · exact base
        · split
          · refine ⟨base.until_, fun x hx => base.work x (by rw [he]; simp [hx]), ?_⟩
            intro d hd
            simp only [Option.some.injEq] at hd
            subst hd
            exact ⟨rfl, base.work e (by rw [he]; simp)⟩
          · exact ⟨base.until_, fun x hx => base.work x (by rw [he]; simp [hx]), base.flight⟩
    | gcWrite =>
      simp only [step]; unfold doGcWrite
      split
      · exact base
      · exact ⟨base.until_, base.work, by simp⟩
    | gcFail => exact ⟨base.until_, base.work, by simp [step]⟩
    | restart => constructor <;> simp [step, Sys.init]

/-- In every history: a message that disappears in a step, other than by clearing the uncommitted state, was deleted by
the garbage collector, and an earlier commit shows it processed. -/
theorem gc_safe (zs : Nat) (ops : List Op) (op : Op) (hop : ∀ p t, op ≠ .clear p t)
    (p : Part) (s : Shard) (k : Nat) (m : Msg) (hm : get (run zs Sys.init ops).db.msgs (p, s, k) = some m)
    (hgone : get (run zs Sys.init (ops ++ [op])).db.msgs (p, s, k) = none) :
    op = .gcWrite ∧ Processed zs ops p s k := by
  have hr : run zs Sys.init (ops ++ [op]) = step zs (run zs Sys.init ops) op := by simp [run]
  rw [hr] at hgone
  have hok := gcOk_run zs ops
  generalize run zs Sys.init ops = σ at *
  have no : get σ.db.msgs (p, s, k) = none → False := by rw [hm]; simp
  cases op with
  | «prepare» d s' n h st c =>
    exfalso; apply no
    simp only [step] at hgone; unfold doPrepare at hgone
    split at hgone
    · exact hgone
    · split at hgone <;> exact hgone
  | write s' =>
    exfalso
    simp only [step] at hgone; unfold doWrite at hgone
    split at hgone
    · exact no hgone
    · rename_i tx _
      simp only [DB.write] at hgone
      clear hok hop hr
      have : ∀ (l : List ((Part × Shard × Nat) × Msg)) (t : Table (Part × Shard × Nat) Msg),
          (get t (p, s, k)).isSome → (get (putAll t l) (p, s, k)).isSome := by
        intro l
        induction l with
        | nil => exact fun t h => h
        | cons e l ih =>
          intro t h
          apply ih
          rw [get_put]
          split
          · rfl
          · exact h
      have h := this tx.msgs σ.db.msgs (by rw [hm]; rfl)
      rw [hgone] at h
      cases h
  | drop s' => exact absurd hgone no
  | commit tops parts =>
    exfalso; apply no
    simp only [step] at hgone; unfold doCommit at hgone
    split at hgone
    · exact hgone
    · split at hgone
      · exact hgone
      · rename_i r hc
        simp only [(commit_tables hc).2.1] at hgone
        exact hgone
  | clear a b => exact absurd rfl (hop a b)
  | gcTick =>
    exfalso; apply no
    simp only [step] at hgone; unfold doGcTick at hgone
    split at hgone <;> exact hgone
  | gcPlan =>
    exfalso; apply no
    simp only [step] at hgone; unfold doGcPlan at hgone
    split at hgone
    · exact hgone
    · split at hgone
      · exact hgone
      · split at hgone <;> exact hgone
  | gcWrite =>
    refine ⟨rfl, ?_⟩
    simp only [step] at hgone; unfold doGcWrite at hgone
    split at hgone
    · exact absurd hgone no
    · rename_i d hd
      simp only [execDel_msgs] at hgone
      split at hgone
      · rename_i hhit
        obtain ⟨h0, hpr⟩ := hok.flight d hd
        have hx : (p = d.range.part ∧ s = d.range.shard) ∧ inDel d.range.lo d.range.hi k = true := by
          unfold hitMsg at hhit
          rw [Bool.and_eq_true, Bool.and_eq_true] at hhit
          exact ⟨⟨dec_iff.mp hhit.1.1, dec_iff.mp hhit.1.2⟩, hhit.2⟩
        obtain ⟨⟨rfl, rfl⟩, hin⟩ := hx
        rw [h0, inDel_iff _ _ _ (Nat.zero_le _)] at hin
        exact hpr.le hin.2
      · exact absurd hgone no
  | gcFail => exact absurd hgone no
  | restart => exact absurd hgone no

/-- A collection run deletes everything at or below its target. -/
theorem gc_removes (zs : Nat) (σ : Sys) (e : (Part × Shard) × Nat) (rest : Until) (hw : σ.work = e :: rest)
    (hf : σ.flight = none) (hexec : ∀ v, get σ.exec e.1 = some v → v < e.2) (k : Nat) (hk : k ≤ e.2) :
    get (step zs (step zs σ .gcPlan) .gcWrite).db.msgs (e.1.1, e.1.2, k) = none := by
  have hcan : canDelete σ.exec e = true := by
    unfold canDelete
    split
    · rfl
    · rename_i v hv; simpa using hexec v hv
  have h1 : step zs σ .gcPlan = { σ with work := rest, exec := put σ.exec e.1 e.2, flight := some (planDel σ.db ⟨e.1.2, e.1.1, 0, e.2⟩) } := by
    simp only [step]; unfold doGcPlan
    rw [hw, hf]
    simp [hcan]
  rw [h1]
  simp only [step, doGcWrite, execDel_msgs]
  rw [if_pos]
  rw [hitMsg_iff]
  exact ⟨⟨rfl, rfl⟩, (inDel_iff _ _ _ (Nat.zero_le _)).mpr ⟨Nat.zero_le _, hk⟩⟩

/-! ### pointers over all histories -/

theorem step_ptrs_uniq (zs : Nat) (σ : Sys) (op : Op) (h : Uniq σ.db.ptrs) : Uniq (step zs σ op).db.ptrs := by
  cases op with
  | «prepare» d s n hh st c =>
    simp only [step]; unfold doPrepare
    split
    · exact h
    · split <;> exact h
  | write s =>
    simp only [step]; unfold doWrite
    split <;> exact h
  | drop s => exact h
  | commit tops parts =>
    simp only [step]; unfold doCommit
    split
    · exact h
    · split
      · exact h
      · rename_i r hc
        obtain ⟨mc, _, ⟨_, rfl⟩ | ⟨_, acc, _, rfl⟩⟩ := commit_some hc
        · exact h
        · exact uniq_putAll _ _ h
  | clear parts tops =>
    simp only [step]; unfold doClear
    split
    · exact h
    · simp only [(clear_pointers _ _ _).1]; exact h
  | gcTick =>
    simp only [step]; unfold doGcTick
    split <;> exact h
  | gcPlan =>
    simp only [step]; unfold doGcPlan
    split
    · exact h
    · split
      · exact h
      · split <;> exact h
  | gcWrite =>
    simp only [step]; unfold doGcWrite
    split <;> exact h
  | gcFail => exact h
  | restart => exact h

theorem run_ptrs_uniq (zs : Nat) (ops : List Op) (σ : Sys) (h : Uniq σ.db.ptrs) : Uniq (run zs σ ops).db.ptrs := by
  induction ops generalizing σ with
  | nil => exact h
  | cons op ops ih => exact ih _ (step_ptrs_uniq zs σ op h)

/-- In every history: at and below the commit pointer of its shard a stored position (other than `QueueKey::MAX`) never
changes, neither by applying, nor by committing, nor by clearing the uncommitted state; only the garbage collector
removes committed messages. -/
theorem committed_zone_frozen (zs : Nat) (ops : List Op) (op : Op) (ho : ∀ o ∈ ops ++ [op], o.Ordered) (hop : op ≠ .gcWrite)
    (p : Part) (s : Shard) (k n kp : Nat) (hp : get (run zs Sys.init ops).db.ptrs s = some (kp, n)) (hk : k ≤ kp)
    (hmax : k < keyMax) :
    get (run zs Sys.init (ops ++ [op])).db.msgs (p, s, k) = get (run zs Sys.init ops).db.msgs (p, s, k) := by
  have hw : WF (run zs Sys.init ops) := run_wf zs _ wf_init ops (fun o h => ho o (by simp [h]))
  have hr : run zs Sys.init (ops ++ [op]) = step zs (run zs Sys.init ops) op := by simp [run]
  have hu : Uniq (run zs Sys.init ops).db.ptrs := run_ptrs_uniq zs ops _ uniq_nil
  rw [hr]
  generalize run zs Sys.init ops = σ at *
  cases op with
  | «prepare» d s' n h st c =>
    simp only [step]; unfold doPrepare
    split
    · rfl
    · split <;> rfl
  | write s' =>
    simp only [step]; unfold doWrite
    split
    · rfl
    · rename_i tx hf
      have hm := List.mem_of_find?_eq_some hf
      simp only [DB.write]
      apply get_putAll_not
      intro e he heq
      obtain ⟨h1, h2⟩ := hw.pendMsg tx hm e he
      have hs : tx.shard = s := by rw [← h1, heq]
      rw [hs] at h2
      have := h2 _ hp
      rw [heq] at this
      simp only at this
      omega
  | drop s' => rfl
  | commit tops parts =>
    simp only [step]; unfold doCommit
    split
    · rfl
    · split
      · rfl
      · rename_i r hc
        simp only [(commit_tables hc).2.1]
  | clear parts tops =>
    simp only [step]; unfold doClear
    split
    · rfl
    · simp only [clear, delete_msgs]
      rw [if_neg]
      intro hx
      simp only [List.any_map, List.any_eq_true, Function.comp, hitMsg_iff] at hx
      obtain ⟨r, hr', ⟨h1, h2⟩, h3⟩ := hx
      obtain ⟨hh, _, h⟩ := (mem_clearRanges σ.db hu parts tops r).mp hr'
      rw [← h2, hp] at h
      rcases h with ⟨q, hq, hl⟩ | ⟨hn, _⟩
      · cases hq
        simp only at hl
        have hlo : k < r.lo := by
          rw [hl]; unfold nextValue; split <;> omega
        unfold inDel at h3
        simp only [Bool.or_eq_true, Bool.and_eq_true, decide_eq_true_eq, hh] at h3
        omega
      · cases hn
  | gcTick =>
    simp only [step]; unfold doGcTick
    split <;> rfl
  | gcPlan =>
    simp only [step]; unfold doGcPlan
    split
    · rfl
    · split
      · rfl
      · split <;> rfl
  | gcWrite => exact absurd rfl hop
  | gcFail => rfl
  | restart => rfl

/-- The commit calls have at most one masterchain block. -/
def Op.OneMc : Op → Prop
  | .commit tops _ => ∀ a ∈ tops, ∀ b ∈ tops, isMc a.shard → isMc b.shard → a = b
  | _ => True

/-- In every history the seqno of the masterchain commit pointer never decreases. -/
theorem mc_pointer_monotone (zs : Nat) (ops : List Op) (op : Op) (ho : ∀ o ∈ ops ++ [op], o.Ordered) (h1 : op.OneMc)
    (s : Shard) (hs : isMc s = true) (k n : Nat) (hp : get (run zs Sys.init ops).db.ptrs s = some (k, n)) :
    ∃ k' n', get (run zs Sys.init (ops ++ [op])).db.ptrs s = some (k', n') ∧ n ≤ n' ∧ (n' = n → k' = k) := by
  have hw : WF (run zs Sys.init ops) := run_wf zs _ wf_init ops (fun o h => ho o (by simp [h]))
  have hr : run zs Sys.init (ops ++ [op]) = step zs (run zs Sys.init ops) op := by simp [run]
  rw [hr]
  generalize run zs Sys.init ops = σ at *
  have triv : ∀ σ' : Sys, σ'.db.ptrs = σ.db.ptrs → ∃ k' n', get σ'.db.ptrs s = some (k', n') ∧ n ≤ n' ∧ (n' = n → k' = k) := by
    intro σ' h
    exact ⟨k, n, by rw [h, hp], Nat.le_refl _, fun _ => rfl⟩
  cases op with
  | «prepare» d s' n' h st c =>
    apply triv
    simp only [step]; unfold doPrepare
    split
    · rfl
    · split <;> rfl
  | write s' => apply triv; simp only [step]; unfold doWrite; split <;> rfl
  | drop s' => exact triv _ rfl
  | commit tops parts =>
    simp only [step]; unfold doCommit
    split
    · exact triv _ rfl
    · split
      · exact triv _ rfl
      · rename_i r hc
        obtain ⟨mc, hmc, ⟨_, rfl⟩ | ⟨hnb, acc, hacc, rfl⟩⟩ := commit_some hc
        · exact triv _ rfl
        · obtain ⟨_, u2, c1, _, _, c4, _, _⟩ := commitTops_spec hacc uniq_nil uniq_nil
          simp only
          cases hg : get acc.ptrs s with
          | none =>
            refine ⟨k, n, ?_, Nat.le_refl _, fun _ => rfl⟩
            rw [get_putAll_not, hp]
            intro e he heq
            have := get_of_mem _ u2 e.1 e.2 he
            rw [heq, hg] at this; cases this
          | some v =>
            have := get_putAll_mem σ.db.ptrs acc.ptrs u2 _ (mem_of_get _ _ _ hg)
            rcases c4 _ _ hg with h | ⟨b, hb, i, hi, hsh, hv⟩
            · simp [Table.get] at h
            · have hmem := List.mem_of_find?_eq_some hmc
              have hmcp := List.find?_some hmc
              have hbm : b = mc := h1 b hb mc hmem (by rw [hsh, hs]) hmcp
              subst hbm
              have hseq : i.seqno = b.seqno := hw.seqno _ _ _ hi
              have hlt : n < b.seqno := by
                unfold committedBy at hnb
                rw [hsh, hp] at hnb
                simpa using hnb
              exact ⟨i.maxMessage, i.seqno, by rw [this, hv], by omega, by omega⟩
  | clear parts tops =>
    simp only [step]; unfold doClear
    split
    · exact triv _ rfl
    · exact triv _ (clear_pointers _ _ _).1
  | gcTick => apply triv; simp only [step]; unfold doGcTick; split <;> rfl
  | gcPlan =>
    apply triv
    simp only [step]; unfold doGcPlan
    split
    · rfl
    · split
      · rfl
      · split <;> rfl
  | gcWrite => apply triv; simp only [step]; unfold doGcWrite; split <;> rfl
  | gcFail => exact triv _ rfl
  | restart => exact triv _ rfl

end Tycho.Queue
