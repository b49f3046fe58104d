import Verif.BlocksCache.Props
/-! Taking master blocks with their shard blocks out of the cache, and committing them. -/
namespace Tycho.BlocksCache
open Tycho.Table
open Tycho.Table (get)

theorem reach_del_master {t : Table (Nat × Nat) Entry} {mc : Nat} {q : List Id} (n : Nat)
    (hp : ∀ k e, get t k = some e → k.1 ≠ 0 → ∀ p ∈ e.prevs, p.shard ≠ 0) (hq : ∀ i ∈ q, i.shard ≠ 0) (k : Nat × Nat) :
    Reach (del t (fun j => decide (j = (0, n)))) mc q k ↔ Reach t mc q k := by
  constructor
  · intro h
    induction h with
    | base hm => exact .base hm
    | @next k e p _ hg hr hm ih =>
      rw [get_del] at hg
      split at hg
      · cases hg
      · exact .next ih hg hr hm
  · intro h
    have key : k.1 ≠ 0 ∧ Reach (del t (fun j => decide (j = (0, n)))) mc q k := by
      induction h with
      | base hm => exact ⟨hq _ hm, .base hm⟩
      | @next k e p _ hg hr hm ih =>
        refine ⟨hp _ _ hg ih.1 _ hm, .next ih.2 ?_ hr hm⟩
        have : k ≠ (0, n) := fun h => ih.1 (by rw [h])
        rw [get_del]; simp [this, hg]
    exact key.2

/-- What it means that a master block, cached under `n`, was taken out with its subgraph `g`, leaving the cache `c'`. -/
structure TookOut (c c' : Cache) (n : Nat) (g : Subgraph) : Prop where
  master : get c.blocks (0, n) = some g.master
  /-- the shard blocks returned are exactly the cached blocks reachable from the updated tops that reference the master
  block -/
  shards : ∀ e, e ∈ g.shards ↔
    ∃ k, Reach c.blocks n (startTops c.zero g.master) k ∧ get c.blocks k = some e ∧ e.ref = n
  once : (g.shards.map (·.id.key)).Nodup
  /-- the slots emptied are that of the master block and the reachable ones -/
  gone : ∀ k, (k = (0, n) ∨ Reach c.blocks n (startTops c.zero g.master) k) → get c'.blocks k = none
  kept : ∀ k, k ≠ (0, n) → ¬ Reach c.blocks n (startTops c.zero g.master) k → get c'.blocks k = get c.blocks k
  /-- a returned block is a starting one, or comes before a returned block whose previous block it is -/
  order : ∀ a e b, g.shards = a ++ e :: b →
    (∃ i ∈ startTops c.zero g.master, i.key = e.id.key) ∨ ∃ x ∈ b, ∃ p ∈ x.prevs, p.key = e.id.key

theorem tookOut_of {c d : Cache} (h : Inv c) {n : Nat} {e : Entry} (he : get c.blocks (0, n) = some e)
    (hn : e.id.seqno = n) (hd : d.blocks = del c.blocks (fun j => decide (j = (0, n)))) (hz : d.zero = c.zero) :
    TookOut c (d.subgraph e).1 n (d.subgraph e).2 := by
  have hq := startTops_shard (z := c.zero) (h.tops _ _ he)
  have hR := reach_del_master (mc := n) n h.prevs hq
  have hkd : Keyed d.blocks := by rw [hd]; exact keyed_del h.keyed _
  have hT := drain_table e.id.seqno (steps d.blocks (startTops d.zero e)) d.blocks d.synced (startTops d.zero e) []
    (Nat.le_refl _)
  obtain ⟨ext, ho, hm⟩ := drain_out e.id.seqno (steps d.blocks (startTops d.zero e)) d.blocks d.synced
    (startTops d.zero e) [] (Nat.le_refl _)
  obtain ⟨ext2, ho2, hnd, _, hor, _⟩ := drain_order e.id.seqno (steps d.blocks (startTops d.zero e)) d.blocks d.synced
    (startTops d.zero e) [] hkd
  have hee : ext2 = ext := by rw [ho] at ho2; simpa using ho2.symm
  subst hee
  have hsh : (d.subgraph e).2.shards = ext2.reverse := by simp only [Cache.subgraph]; rw [ho]; simp
  have hms : (d.subgraph e).2.master = e := rfl
  have hbl : (d.subgraph e).1.blocks =
    (drain e.id.seqno (steps d.blocks (startTops d.zero e)) d.blocks d.synced (startTops d.zero e) []).1 := rfl
  rw [hn, hz] at hT hm
  rw [hz] at hor
  rw [hn, hz] at hbl
  rw [hd] at hT hm
  have hne : ∀ k, Reach c.blocks n (startTops c.zero e) k → k ≠ (0, n) := fun k hk heq =>
    reach_shard h.prevs hq hk (by rw [heq])
  constructor
  · rw [hms]; exact he
  · intro x
    rw [hsh, hms, List.mem_reverse, hm]
    constructor
    · rintro ⟨k, hk, hg, hr⟩
      rw [hR] at hk
      refine ⟨k, hk, ?_, hr⟩
      rw [get_del] at hg
      split at hg
      · cases hg
      · exact hg
    · rintro ⟨k, hk, hg, hr⟩
      refine ⟨k, (hR k).mpr hk, ?_, hr⟩
      rw [get_del]; simp [hne k hk, hg]
  · rw [hsh, List.map_reverse]
    exact List.pairwise_reverse.mpr (List.Pairwise.imp (fun h => Ne.symm h) hnd)
  · intro k hk
    rw [hbl, hd]
    rw [hms] at hk
    rcases hk with rfl | hk
    · by_cases hr : Reach (del c.blocks (fun j => decide (j = (0, n)))) n (startTops c.zero e) (0, n)
      · exact (hT _).1 hr
      · rw [(hT _).2 hr, get_del]; simp
    · exact (hT _).1 ((hR k).mpr hk)
  · intro k hk hnr
    rw [hbl, hd]
    rw [hms] at hnr
    rw [(hT _).2 (fun hr => hnr ((hR k).mp hr)), get_del]; simp [hk]
  · intro a x b hab
    rw [hms]
    rw [hsh] at hab
    have : ext2 = b.reverse ++ x :: a.reverse := by
      have := congrArg List.reverse hab
      simpa using this
    rcases hor _ _ _ this with h1 | ⟨y, hy, hp⟩
    · exact Or.inl h1
    · exact Or.inr ⟨y, by simpa using hy, hp⟩

/-! ### Taking out -/

/-- Taking the front applied block: it fails exactly when there is no applied master block from `f` on; otherwise it
returns the lowest one, says whether an applied one is left above it, and takes out its subgraph. -/
theorem pop_front_exact (z : Nat) (ops : List Op) (hw : ∀ o ∈ ops, o.Wf) (f : Nat) :
    (((run z ops).popFront f).2 = none ↔
      ∀ n e, f ≤ n → get (run z ops).blocks (0, n) = some e → e.applied = false) ∧
    ∀ g l, ((run z ops).popFront f).2 = some (g, l) →
      g.master.applied = true ∧ f ≤ g.master.id.seqno ∧
      (∀ n e, f ≤ n → get (run z ops).blocks (0, n) = some e → e.applied = true → g.master.id.seqno ≤ n) ∧
      (l = true ↔ ∀ n e, g.master.id.seqno < n → get (run z ops).blocks (0, n) = some e → e.applied = false) ∧
      TookOut (run z ops) ((run z ops).popFront f).1 g.master.id.seqno g := by
  have h := inv_run z ops hw
  generalize run z ops = c at h
  rcases popFront_cases h f with ⟨hp, hn⟩ | ⟨n, x, hf, hx, ha, hn, hp⟩
  · rw [hp]
    simp only [true_iff]
    exact ⟨fun n e => frontKey_none hn n e, by simp⟩
  · rw [hp]
    obtain ⟨h1, _, h2⟩ := frontKey_spec h.ub hf
    have hTO := tookOut_of (d := c.takeFront n x) h hx hn rfl rfl
    simp only [reduceCtorEq, false_iff, Option.some.injEq, Prod.mk.injEq, and_imp]
    constructor
    · intro hall
      have := hall n x h1 hx
      rw [ha] at this; cases this
    · intro g l hg hl
      subst hg; subst hl
      have hm : ((c.takeFront n x).subgraph x).2.master = x := rfl
      rw [hm, hn]
      refine ⟨ha, h1, h2, ?_, hTO⟩
      unfold Cache.isLast
      rw [Bool.not_eq_true']
      rw [List.any_eq_false]
      constructor
      · intro hall m e hlt hg
        have := hall ((0, m), e) (mem_of_get _ _ _ hg)
        simpa [isAppliedMc, hlt] using this
      · intro hall y hy
        simp only [isAppliedMc, Bool.and_eq_true, decide_eq_true_eq, not_and, Bool.not_eq_true]
        intro h0 
        have := hall y.1.2 y.2 h0.2 (get_of_mem _ h.ub _ _ (by
          have : y = ((0, y.1.2), y.2) := by rw [← h0.1]
          rw [← this]; exact hy))
        exact this

/-- Extraction for a commit: nothing when no master block is cached at that seqno, otherwise the cached one and its
subgraph. -/
theorem extract_exact (z : Nat) (ops : List Op) (hw : ∀ o ∈ ops, o.Wf) (i : Id) :
    (((run z ops).extract i).2 = none ↔ get (run z ops).blocks (0, i.seqno) = none) ∧
    ∀ g, ((run z ops).extract i).2 = some g → TookOut (run z ops) ((run z ops).extract i).1 i.seqno g := by
  have h := inv_run z ops hw
  generalize run z ops = c at h
  unfold Cache.extract
  cases hx : get c.blocks (0, i.seqno) with
  | none => simp
  | some x =>
    have hn : x.id.seqno = i.seqno := congrArg Prod.snd (h.keyed _ _ hx)
    have hTO := tookOut_of (d := c.takeForSync i x) h hx hn rfl rfl
    simp only [reduceCtorEq, false_iff, Option.some.injEq, not_false_eq_true, true_and]
    intro g hg
    subst hg
    exact hTO

/-- When no extracted block is a previous block of two extracted blocks, and no starting block is a previous block, the
extracted blocks come in chain order: every block after its previous blocks. -/
theorem parents_first {c c' : Cache} {n : Nat} {g : Subgraph} (h : TookOut c c' n g)
    (hu : ∀ x ∈ g.shards, ∀ y ∈ g.shards, ∀ p ∈ x.prevs, ∀ q ∈ y.prevs, p.key = q.key → x = y)
    (ht : ∀ x ∈ g.shards, ∀ p ∈ x.prevs, ∀ i ∈ startTops c.zero g.master, i.key ≠ p.key)
    (x e : Entry) (hx : x ∈ g.shards) (he : e ∈ g.shards) (p : Id) (hp : p ∈ x.prevs) (hk : e.id.key = p.key) :
    ∃ a b d, g.shards = a ++ e :: (b ++ x :: d) := by
  obtain ⟨a, b, hab⟩ := List.append_of_mem he
  rcases h.order a e b hab with ⟨i, hi, hik⟩ | ⟨y, hy, q, hq, hqk⟩
  · exact absurd (hik.trans hk) (ht x hx p hp i hi)
  · have hyin : y ∈ g.shards := by rw [hab]; simp [hy]
    have := hu x hx y hyin p hp q hq (by rw [hqk, hk])
    subst this
    obtain ⟨u, v, huv⟩ := List.append_of_mem hy
    exact ⟨a, u, v, by rw [hab, huv]⟩

/-! ### Peeking -/

theorem viewTops_spec (c : Cache) (mc : Nat) (ts : List Top) (acc : List Id) :
    (∀ i ∈ (viewTops c mc ts acc).1, i ∈ acc ∨
      (i ∈ (ts.filter (fun t => t.updated && decide (t.ref > c.zero))).map (·.id) ∧
        ∃ e, get c.blocks i.key = some e ∧ e.ref = mc)) ∧
    ((viewTops c mc ts acc).2 = none →
      (viewTops c mc ts acc).1 = acc ++ (ts.filter (fun t => t.updated && decide (t.ref > c.zero))).map (·.id)) ∧
    (∀ k, (viewTops c mc ts acc).2 = some k →
      (∃ i ∈ (ts.filter (fun t => t.updated && decide (t.ref > c.zero))).map (·.id), i.key = k) ∧
        ∀ e, get c.blocks k = some e → e.ref ≠ mc) := by
  induction ts generalizing acc with
  | nil => simp [viewTops]
  | cons t ts ih =>
    unfold viewTops
    by_cases hc : (!t.updated || decide (t.ref ≤ c.zero)) = true
    · rw [if_pos hc]
      have hf : (t.updated && decide (t.ref > c.zero)) = false := by
        cases hu : t.updated <;> simp_all
      rw [List.filter_cons_of_neg (by simp [hf])]
      exact ih acc
    · rw [if_neg hc]
      have hf : (t.updated && decide (t.ref > c.zero)) = true := by
        cases hu : t.updated <;> simp_all
      rw [List.filter_cons_of_pos (p := fun t : Top => t.updated && decide (t.ref > c.zero)) hf]
      cases hg : get c.blocks t.id.key with
      | none =>
        refine ⟨fun i hi => Or.inl hi, by simp, ?_⟩
        intro k hk
        cases hk
        exact ⟨⟨t.id, by simp, rfl⟩, by simp [hg]⟩
      | some e =>
        simp only
        by_cases hr : e.ref = mc
        · rw [if_pos hr]
          obtain ⟨h1, h2, h3⟩ := ih (acc ++ [t.id])
          refine ⟨?_, ?_, ?_⟩
          · intro i hi
            rcases h1 i hi with h | h
            · rcases List.mem_append.mp h with h | h
              · exact Or.inl h
              · right
                have : i = t.id := by simpa using h
                subst this
                exact ⟨by simp, e, hg, hr⟩
            · exact Or.inr ⟨by rw [List.map_cons]; exact List.mem_cons_of_mem _ h.1, h.2⟩
          · intro hn
            rw [h2 hn]; simp
          · intro k hk
            obtain ⟨⟨i, hi, hik⟩, h5⟩ := h3 k hk
            exact ⟨⟨i, by rw [List.map_cons]; exact List.mem_cons_of_mem _ hi, hik⟩, h5⟩
        · rw [if_neg hr]
          refine ⟨fun i hi => Or.inl hi, by simp, ?_⟩
          intro k hk
          cases hk
          exact ⟨⟨t.id, by simp, rfl⟩, by rw [hg]; intro e' h'; cases h'; exact hr⟩

/-- Peeking tells what popping from the same seqno would give: nothing exactly when popping fails; the same master block;
top shard blocks that the pop would extract; all starting top blocks when none is reported missing; and a missing one is
a starting top block that the pop would not extract. -/
theorem peek_agrees_with_pop (z : Nat) (ops : List Op) (hw : ∀ o ∈ ops, o.Wf) (f : Nat) :
    ((run z ops).peekFront f = none ↔ ((run z ops).popFront f).2 = none) ∧
    ∀ v g l, (run z ops).peekFront f = some v → ((run z ops).popFront f).2 = some (g, l) →
      v.master = g.master.id ∧
      (∀ i ∈ v.tops, ∃ e ∈ g.shards, e.id.key = i.key) ∧
      (v.missing = none → v.tops = startTops (run z ops).zero g.master) ∧
      (∀ k, v.missing = some k → (∃ i ∈ startTops (run z ops).zero g.master, i.key = k) ∧
        ∀ e ∈ g.shards, e.id.key ≠ k) := by
  have h := inv_run z ops hw
  have hpe := pop_front_exact z ops hw f
  generalize run z ops = c at h hpe
  rcases popFront_cases h f with ⟨hp, hn⟩ | ⟨n, x, hf, hx, ha, hn, hp⟩
  · rw [hp]
    simp only [true_iff]
    unfold Cache.peekFront
    rw [hn]; simp
  · have hpk : c.peekFront f = some (View.mk x.id (viewTops c x.id.seqno x.tops []).1
        (viewTops c x.id.seqno x.tops []).2) := by
      unfold Cache.peekFront; rw [hf]; simp only; rw [hx]
    rw [hpk]
    refine ⟨by rw [hp]; simp, ?_⟩
    intro v g l hv hg
    obtain ⟨_, _, _, _, hTO⟩ := hpe.2 g l hg
    cases hv
    rw [hp] at hg
    simp only [Option.some.injEq, Prod.mk.injEq] at hg
    have hm : g.master = x := by rw [← hg.1]; rfl
    obtain ⟨h1, h2, h3⟩ := viewTops_spec c x.id.seqno x.tops []
    rw [hm] at hTO ⊢
    refine ⟨rfl, ?_, ?_, ?_⟩
    · intro i hi
      rcases h1 i hi with hh | ⟨hi2, e, he, hr⟩
      · simp at hh
      · refine ⟨e, ?_, h.keyed _ _ he⟩
        rw [hTO.shards]
        refine ⟨i.key, .base ?_, he, hr⟩
        rw [hm]; exact hi2
    · intro hmiss
      have := h2 hmiss
      simpa [startTops] using this
    · intro k hk
      obtain ⟨h4, h5⟩ := h3 k hk
      refine ⟨h4, ?_⟩
      intro e he hke
      obtain ⟨j, _, hg2, hr⟩ := (hTO.shards e).mp he
      have := h.keyed _ _ hg2
      rw [hke] at this
      subst this
      exact h5 e hg2 hr

/-! ### Committing -/

/-- What a commit does, from what is cached at the seqno of the given id. A master block that is an own candidate, was
validated and was not received from the chain is handed to the node, followed by the extracted own shard candidates that
were not received; nothing else is ever handed over. The queue diffs are committed exactly when the cached block is
applied. -/
theorem commit_exact (z : Nat) (ops : List Op) (hw : ∀ o ∈ ops, o.Wf) (i : Id) (d : Option Nat) :
    (get (run z ops).blocks (0, i.seqno) = none →
      ((run z ops).commit i d).2 = { sent := [], diff := false, notify := d }) ∧
    ∀ e, get (run z ops).blocks (0, i.seqno) = some e → ∃ g, ((run z ops).extract i).2 = some g ∧ g.master = e ∧
      (e.applied = true → ((run z ops).commit i d).2 = { sent := [], diff := true, notify := e.anchor }) ∧
      (e.applied = false → e.kind ≠ .collated .validated false →
        ((run z ops).commit i d).2 = { sent := [], diff := false, notify := none }) ∧
      (e.kind = .collated .validated false →
        ((run z ops).commit i d).2.diff = false ∧ ((run z ops).commit i d).2.notify = none ∧
        ∃ l, ((run z ops).commit i d).2.sent = e.id :: l ∧
          l = (g.shards.filter (fun s => decide (s.kind = .collated .collated false))).map (·.id)) := by
  have h := inv_run z ops hw
  have hex := extract_exact z ops hw i
  generalize run z ops = c at h hex
  rcases commit_cases c i d with ⟨hn, hp⟩ | ⟨x, hx, hp⟩
  · rw [hp, hn]; simp
  · rw [hx, hp]
    simp only [reduceCtorEq, false_implies, Option.some.injEq, forall_eq', true_and]
    have hxg : (c.extract i).2 = some ((c.takeForSync i x).subgraph x).2 := by unfold Cache.extract; rw [hx]
    refine ⟨_, hxg, rfl, ?_⟩
    have hTO := hex.2 _ hxg
    generalize hgg : ((c.takeForSync i x).subgraph x).2 = g at hTO
    have hm : g.master = x := by rw [← hgg]; rfl
    have hst := fun st r => h.stat _ _ st r hx
    refine ⟨?_, ?_, ?_⟩
    · intro ha
      unfold decideCommit
      rw [hm]
      cases hk : x.kind with
      | received cl => simp
      | collated st r =>
        have hr : r = true := by simpa [Entry.applied, hk] using ha
        have := (hst st r hk).mpr hr
        subst this; subst hr
        simp
    · intro ha hnv
      unfold decideCommit
      rw [hm]
      cases hk : x.kind with
      | received cl => simp [Entry.applied, hk] at ha
      | collated st r =>
        have hr : r = false := by simpa [Entry.applied, hk] using ha
        subst hr
        have := hst st false hk
        rw [hk] at hnv
        cases st <;> simp_all
    · intro hv
      unfold decideCommit
      rw [hm, if_pos hv]
      refine ⟨rfl, rfl, _, ?_, rfl⟩
      have hs : x.sends = true := by simp [Entry.sends, hv]
      rw [List.filter_cons_of_pos hs]
      simp only [List.map_cons, List.cons.injEq, true_and]
      congr 1
      apply List.filter_congr
      intro s hsm
      obtain ⟨k, hr, hg, _⟩ := (hTO.shards s).mp hsm
      have hk0 : k.1 ≠ 0 := reach_shard h.prevs (startTops_shard (h.tops _ _ hTO.master)) hr
      unfold Entry.sends
      cases hk : s.kind with
      | received cl => simp
      | collated st r =>
        cases r with
        | true => simp
        | false =>
          have := h.shst k s st hg hk0 hk
          subst this
          simp

/-- Nothing is both handed to the node and committed by its queue diffs. -/
theorem commit_sends_or_commits (z : Nat) (ops : List Op) (hw : ∀ o ∈ ops, o.Wf) (i : Id) (d : Option Nat) :
    ((run z ops).commit i d).2.sent = [] ∨ ((run z ops).commit i d).2.diff = false := by
  obtain ⟨h1, h2⟩ := commit_exact z ops hw i d
  cases hx : get (run z ops).blocks (0, i.seqno) with
  | none => rw [h1 hx]; simp
  | some e =>
    obtain ⟨g, _, _, h3, h4, h5⟩ := h2 e hx
    by_cases hv : e.kind = .collated .validated false
    · right; exact (h5 hv).1
    · cases ha : e.applied with
      | true => left; rw [h3 ha]
      | false => left; rw [h4 ha hv]

end Tycho.BlocksCache
