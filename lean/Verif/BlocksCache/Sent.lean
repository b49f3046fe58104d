import Verif.BlocksCache.Extract
import Mathlib.Data.List.Nodup
/-! What was handed to the node: candidates of this node, validated, and each stored candidate at most once. -/
namespace Tycho.BlocksCache
open Tycho.Table
open Tycho.Table (get)

/-- The history stored the own candidate `i` and later got a completed validation of a master block of its seqno. -/
def ValidatedIn (ops : List Op) (i : Id) : Prop :=
  ∃ pre b mid v, ops = pre ++ .collated b :: mid ∧ b.id = i ∧ .validation v true ∈ mid ∧ v.seqno = i.seqno

theorem own_stored (z : Nat) (ops : List Op) (hw : ∀ o ∈ ops, o.Wf) :
    (∀ k e st r, get (run z ops).blocks k = some e → e.kind = .collated st r →
      ∃ pre b mid, ops = pre ++ .collated b :: mid ∧ b.id = e.id) ∧
    (∀ k e r, get (run z ops).blocks k = some e → e.kind = .collated .validated r → ValidatedIn ops e.id) := by
  refine hist_ind (P := fun ops => (∀ k e st r, get (run z ops).blocks k = some e → e.kind = .collated st r →
      ∃ pre b mid, ops = pre ++ .collated b :: mid ∧ b.id = e.id) ∧
    (∀ k e r, get (run z ops).blocks k = some e → e.kind = .collated .validated r → ValidatedIn ops e.id))
    z ?_ ?_ ops hw
  · simp [run, Cache.init, Table.get]
  · intro ops o _ ho hI ⟨ih1, ih2⟩
    have lift1 : ∀ i : Id, (∃ pre b mid, ops = pre ++ .collated b :: mid ∧ b.id = i) →
        ∃ pre b mid, ops ++ [o] = pre ++ .collated b :: mid ∧ b.id = i := by
      rintro i ⟨pre, b, mid, h1, h2⟩
      exact ⟨pre, b, mid ++ [o], by rw [h1]; simp, h2⟩
    have lift2 : ∀ i : Id, ValidatedIn ops i → ValidatedIn (ops ++ [o]) i := by
      rintro i ⟨pre, b, mid, v, h1, h2, h3, h4⟩
      exact ⟨pre, b, mid ++ [o], v, by rw [h1]; simp, h2, by simp [h3], h4⟩
    constructor
    · intro k e st r hg hk
      rw [run_snoc] at hg
      rcases step_blocks hI o k e hg with hs | ⟨b, h1, h2, h3, h4⟩ | ⟨b, e0, cl, h1, h2, h3, h4, h5, h6⟩ |
        ⟨b, h1, h2, h3, h4, h5⟩ | ⟨b, e0, st', r', h1, h2, h3, h4, h5, h6, h7⟩ |
        ⟨i, v, e0, st', r', h1, h2, h3, h4, h5, h6⟩
      · exact lift1 _ (ih1 k e st r hs hk)
      · subst h4; exact ⟨ops, b, [], by rw [h1], rfl⟩
      · subst h6; cases hk
      · subst h5; cases hk
      · subst h7; exact lift1 _ (ih1 k e0 st' r' h4 h5)
      · subst h6; exact lift1 _ (ih1 k e0 st' r' h3 h4)
    · intro k e r hg hk
      rw [run_snoc] at hg
      rcases step_blocks hI o k e hg with hs | ⟨b, h1, h2, h3, h4⟩ | ⟨b, e0, cl, h1, h2, h3, h4, h5, h6⟩ |
        ⟨b, h1, h2, h3, h4, h5⟩ | ⟨b, e0, st', r', h1, h2, h3, h4, h5, h6, h7⟩ |
        ⟨i, v, e0, st', r', h1, h2, h3, h4, h5, h6⟩
      · exact lift2 _ (ih2 k e r hs hk)
      · subst h4; cases hk
      · subst h6; cases hk
      · subst h5; cases hk
      · subst h7; cases hk
      · subst h6
        simp only [Kind.collated.injEq] at hk
        have hv : v = true := by
          cases v
          · simp [verdict] at hk
          · rfl
        subst hv
        obtain ⟨pre, b, mid, h7, h8⟩ := ih1 k e0 st' r' h3 h4
        refine ⟨pre, b, mid ++ [o], i, by rw [h7]; simp, h8, by simp [h1], ?_⟩
        have := hI.keyed _ _ h3
        rw [h2] at this
        exact (congrArg Prod.snd this).symm

/-- Whatever a commit hands to the node: the first block is a master block of the committed seqno which this node stored
as its candidate and for whose seqno it got a completed validation afterwards, and all are candidates this node stored. -/
theorem sent_was_validated (z : Nat) (ops : List Op) (hw : ∀ o ∈ ops, o.Wf) (i : Id) (d : Option Nat) (m : Id)
    (l : List Id) (h : ((run z ops).commit i d).2.sent = m :: l) :
    m.key = (0, i.seqno) ∧ ValidatedIn ops m ∧
      ∀ s ∈ l, s.shard ≠ 0 ∧ ∃ pre b mid, ops = pre ++ .collated b :: mid ∧ b.id = s := by
  obtain ⟨h1, h2⟩ := commit_exact z ops hw i d
  have hI := inv_run z ops hw
  obtain ⟨ho1, ho2⟩ := own_stored z ops hw
  cases hx : get (run z ops).blocks (0, i.seqno) with
  | none => rw [h1 hx] at h; cases h
  | some e =>
    obtain ⟨g, hg, hgm, h3, h4, h5⟩ := h2 e hx
    by_cases hv : e.kind = .collated .validated false
    · obtain ⟨_, _, l', hl1, hl2⟩ := h5 hv
      rw [hl1] at h
      cases h
      refine ⟨hI.keyed _ _ hx, ho2 _ _ _ hx hv, ?_⟩
      intro s hs
      rw [hl2] at hs
      obtain ⟨x, hxm, rfl⟩ := List.mem_map.mp hs
      obtain ⟨hxs, hxk⟩ := List.mem_filter.mp hxm
      simp only [decide_eq_true_eq] at hxk
      have hTO := (extract_exact z ops hw i).2 g hg
      obtain ⟨k, hr, hgk, _⟩ := (hTO.shards x).mp hxs
      have hk0 : k.1 ≠ 0 := reach_shard hI.prevs (startTops_shard (hI.tops _ _ hTO.master)) hr
      refine ⟨?_, ho1 _ _ _ _ hgk hxk⟩
      have := hI.keyed _ _ hgk
      intro h0; apply hk0; rw [← this]; exact h0
    · cases ha : e.applied with
      | true => rw [h3 ha] at h; cases h
      | false => rw [h4 ha hv] at h; cases h

/-! ### At most once -/

/-- The cached block at the place of `i` is the own candidate `i`. -/
def ownCached (c : Cache) (i : Id) : Bool := match get c.blocks i.key with
  | some e => decide (e.id = i) && (match e.kind with | .collated _ _ => true | .received _ => false)
  | none => false

theorem ownCached_iff (c : Cache) (i : Id) : ownCached c i = true ↔
    ∃ e st r, get c.blocks i.key = some e ∧ e.id = i ∧ e.kind = .collated st r := by
  unfold ownCached
  cases get c.blocks i.key with
  | none => simp
  | some e =>
    cases hk : e.kind with
    | received cl => simp [hk]
    | collated st r =>
      simp only [hk, Bool.and_true, decide_eq_true_eq, Option.some.injEq]
      constructor
      · intro h; exact ⟨e, st, r, rfl, h, hk⟩
      · rintro ⟨x, _, _, rfl, h, _⟩; exact h

theorem ownCached_step {c : Cache} (h : Inv c) (o : Op) (i : Id) (hs : ownCached (step c o) i = true) :
    ownCached c i = true ∨ (addsOwn c o = some i ∧ ownCached c i = false) := by
  rw [ownCached_iff] at hs
  obtain ⟨e, st, r, hg, hid, hk⟩ := hs
  rcases step_blocks h o i.key e hg with hs | ⟨b, h1, h2, h3, h4⟩ | ⟨b, e0, cl, h1, h2, h3, h4, h5, h6⟩ |
    ⟨b, h1, h2, h3, h4, h5⟩ | ⟨b, e0, st', r', h1, h2, h3, h4, h5, h6, h7⟩ |
    ⟨v, w, e0, st', r', h1, h2, h3, h4, h5, h6⟩
  · left; rw [ownCached_iff]; exact ⟨e, st, r, hs, hid, hk⟩
  · right
    subst h4
    have hb : b.id = i := hid
    refine ⟨?_, ?_⟩
    · subst h1
      simp only [addsOwn]
      rcases collated_cases c b with ⟨x, st, r, g1, _⟩ | ⟨x, cl, g1, _⟩ | ⟨x, cl, g1, _⟩ | ⟨_, g2, _⟩
      · rw [h2, h3] at g1; cases g1
      · rw [h2, h3] at g1; cases g1
      · rw [h2, h3] at g1; cases g1
      · rw [g2, hb]
    · unfold ownCached; rw [h3]
  · subst h6; cases hk
  · subst h5; cases hk
  · left; subst h7; rw [ownCached_iff]; exact ⟨e0, st', r', h4, hid, h5⟩
  · left; subst h6; rw [ownCached_iff]; exact ⟨e0, st', r', h3, hid, h4⟩

/-- A block handed to the node was cached as an own candidate, is handed over once, and is not cached afterwards. -/
theorem sends_step {c : Cache} (h : Inv c) (o : Op) (i : Id) (hs : i ∈ sends c o) :
    ownCached c i = true ∧ (sends c o).count i = 1 ∧ ownCached (step c o) i = false ∧ addsOwn c o = none := by
  cases o with
  | commit j d =>
    simp only [sends, step, addsOwn] at *
    rcases commit_cases c j d with ⟨hn, hp⟩ | ⟨x, hx, hp⟩
    · rw [hp] at hs; simp at hs
    · have hn : x.id.seqno = j.seqno := congrArg Prod.snd (h.keyed _ _ hx)
      have hTO := tookOut_of (d := c.takeForSync j x) h hx hn rfl rfl
      rw [hp] at hs ⊢
      simp only at hs ⊢
      have hm : ((c.takeForSync j x).subgraph x).2.master = x := rfl
      generalize hgg : ((c.takeForSync j x).subgraph x).2 = g at *
      have hall : ∀ e ∈ x :: g.shards, ∃ k, get c.blocks k = some e ∧
          get ((c.takeForSync j x).subgraph x).1.blocks k = none := by
        intro e he
        rcases List.mem_cons.mp he with rfl | he
        · exact ⟨_, hx, hTO.gone _ (Or.inl rfl)⟩
        · obtain ⟨k, hr, hg, _⟩ := (hTO.shards e).mp he
          exact ⟨k, hg, hTO.gone _ (Or.inr hr)⟩
      have hnd : ((x :: g.shards).map (·.id)).Nodup := by
        have h1 : (g.shards.map (·.id)).Nodup := by
          have := hTO.once
          rw [show (g.shards.map (·.id.key)) = (g.shards.map (·.id)).map Id.key by simp] at this
          exact List.Nodup.of_map _ this
        rw [List.map_cons, List.nodup_cons]
        refine ⟨?_, h1⟩
        intro hmem
        obtain ⟨e, he, heq⟩ := List.mem_map.mp hmem
        obtain ⟨k, hr, hg, _⟩ := (hTO.shards e).mp he
        have hk0 : k.1 ≠ 0 := reach_shard h.prevs (startTops_shard (h.tops _ _ hTO.master)) hr
        have h2 := h.keyed _ _ hg
        have h3 := h.keyed _ _ hx
        rw [heq, h3] at h2
        apply hk0; rw [← h2]
      have hsent : ∃ M : List Entry, M.Sublist (x :: g.shards) ∧ (decideCommit g).sent = M.map (·.id) ∧
          ∀ e ∈ M, e.sends = true := by
        unfold decideCommit
        rw [hm]
        split
        · exact ⟨_, List.filter_sublist, rfl, fun e he => (List.mem_filter.mp he).2⟩
        · cases x.kind with
          | received cl => exact ⟨[], by simp, rfl, by simp⟩
          | collated st r => cases st <;> exact ⟨[], by simp, rfl, by simp⟩
      obtain ⟨M, hM1, hM2, hM3⟩ := hsent
      rw [hM2] at hs ⊢
      obtain ⟨e, he, heq⟩ := List.mem_map.mp hs
      obtain ⟨k, hg, hgn⟩ := hall e (hM1.subset he)
      have hke := h.keyed _ _ hg
      have hkk : i.key = k := by rw [← heq]; exact hke
      refine ⟨?_, ?_, ?_, trivial⟩
      · rw [ownCached_iff]
        have hse := hM3 e he
        cases hk : e.kind with
        | received cl => simp [Entry.sends, hk] at hse
        | collated st r => exact ⟨e, st, r, by rw [hkk]; exact hg, heq, hk⟩
      · have hndM : (M.map (·.id)).Nodup := List.Nodup.sublist (List.Sublist.map _ hM1) hnd
        exact List.count_eq_one_of_mem hndM hs
      · unfold ownCached
        rw [hkk]
        have : get ((((c.takeForSync j x).subgraph x).1.setGc x.topKeys).gc).blocks k = none := by
          simp only [Cache.gc, get_del]
          split
          · rfl
          · rw [(setGc_fields _ _).1]; exact hgn
        rw [this]
  | _ => simp [sends] at hs

/-- A candidate is handed to the node at most as many times as it was added to the cache. -/
theorem sent_at_most_once (z : Nat) (ops : List Op) (hw : ∀ o ∈ ops, o.Wf) (i : Id) :
    (sentIn z ops).count i ≤ (addedIn z ops).count i := by
  have main : (sentIn z ops).count i + (if ownCached (run z ops) i then 1 else 0) ≤ (addedIn z ops).count i := by
    refine hist_ind (P := fun ops => (sentIn z ops).count i + (if ownCached (run z ops) i then 1 else 0) ≤
      (addedIn z ops).count i) z ?_ ?_ ops hw
    · simp [sentIn, addedIn, observe, ownCached, run, Cache.init, Table.get]
    · intro ops o _ ho hI ih
      rw [run_snoc]
      have e1 : sentIn z (ops ++ [o]) = sentIn z ops ++ sends (run z ops) o := observe_snoc _ _ _ _
      have e2 : addedIn z (ops ++ [o]) = addedIn z ops ++ (addsOwn (run z ops) o).toList := observe_snoc _ _ _ _
      rw [e1, e2, List.count_append, List.count_append]
      by_cases hs : i ∈ sends (run z ops) o
      · obtain ⟨h1, h2, h3, h4⟩ := sends_step hI o i hs
        rw [h1] at ih
        rw [h2, h3, h4]
        simp at ih ⊢; omega
      · rw [List.count_eq_zero_of_not_mem hs]
        by_cases hc : ownCached (step (run z ops) o) i = true
        · rcases ownCached_step hI o i hc with h1 | ⟨h1, h2⟩
          · rw [h1] at ih; rw [hc]
            simp at ih ⊢; omega
          · rw [h2] at ih; rw [hc, h1]
            simp at ih ⊢; omega
        · rw [if_neg hc]
          split at ih <;> omega
  omega

end Tycho.BlocksCache
