import Verif.BlocksCache.Drain
/-! The invariant of the blocks cache. -/
namespace Tycho.BlocksCache
open Tycho.Table
open Tycho.Table (get)

/-- `n` is at or below a recorded seqno. -/
def Below (n : Nat) (o : Option Nat) : Prop := ∃ m, o = some m ∧ n ≤ m

/-- The invariant that every history keeps. -/
structure Inv (c : Cache) : Prop where
  ub : Uniq c.blocks
  ul : Uniq c.lastColl
  keyed : Keyed c.blocks
  tops : ∀ k e, get c.blocks k = some e → ∀ t ∈ e.tops, t.id.shard ≠ 0
  prevs : ∀ k e, get c.blocks k = some e → k.1 ≠ 0 → ∀ p ∈ e.prevs, p.shard ≠ 0
  appl : ∀ k e, get c.blocks k = some e → e.applied = true → Below k.2 (c.synced k.1)
  gcm : ∀ m, c.gcTo 0 = some m → Below m (c.synced 0)
  lck : ∀ n i, get c.lastColl n = some i → i.key = (0, n)
  lcm : ∀ n i e, get c.lastColl n = some i → get c.blocks (0, n) = some e → e.id = i
  lcn : ∀ n i, get c.lastColl n = some i → get c.blocks (0, n) = none → Below n (c.synced 0)
  stat : ∀ k e st r, get c.blocks k = some e → e.kind = .collated st r → (st = .synced ↔ r = true)
  shst : ∀ k e st, get c.blocks k = some e → k.1 ≠ 0 → e.kind = .collated st false → st = .collated

theorem inv_init (z : Nat) : Inv (Cache.init z) := by
  constructor <;> simp [Cache.init, Uniq, Keyed, Table.get]

theorem get_filter_val {κ ν : Type} [DecidableEq κ] (t : Table κ ν) (hu : Uniq t) (p : κ × ν → Bool) (k : κ) :
    get (t.filter p) k = match get t k with
      | some v => if p (k, v) then some v else none
      | none => none := by
  induction t with
  | nil => simp [Table.get]
  | cons x t ih =>
    have hu2 : Uniq t := by unfold Uniq at *; simp at hu; exact hu.2
    have hnot : get t x.1 = none := by
      cases hg : get t x.1 with
      | none => rfl
      | some v =>
        exfalso
        have := mem_of_get t x.1 v hg
        unfold Uniq at hu
        simp only [List.map_cons, List.nodup_cons] at hu
        exact hu.1 (List.mem_map.mpr ⟨(x.1, v), this, rfl⟩)
    by_cases hp : p x
    · rw [List.filter_cons_of_pos hp]
      by_cases hk : x.1 = k
      · subst hk
        simp [Table.get, hp]
      · simp only [Table.get, hk, if_false]
        exact ih hu2
    · rw [List.filter_cons_of_neg hp]
      by_cases hk : x.1 = k
      · subst hk
        rw [ih hu2, hnot]
        simp [Table.get, hp]
      · simp only [Table.get, hk, if_false]
        exact ih hu2

theorem uniq_filter {κ ν : Type} [DecidableEq κ] (t : Table κ ν) (hu : Uniq t) (p : κ × ν → Bool) : Uniq (t.filter p) := by
  unfold Uniq at *
  exact List.Nodup.sublist (List.Sublist.map _ List.filter_sublist) hu

theorem refresh_other (sy : Nat → Option Nat) (sh n s : Nat) (h : s ≠ sh) : refresh sy sh n s = sy s := by
  unfold refresh
  cases hs : sy sh with
  | none => simp [upd, h]
  | some k => by_cases hk : k ≥ n <;> simp [upd, h, hk]

theorem refresh_same (sy : Nat → Option Nat) (sh n : Nat) :
    refresh sy sh n sh = some (match sy sh with | some k => max k n | none => n) := by
  unfold refresh
  cases hs : sy sh with
  | none => simp [upd]
  | some k =>
    by_cases hk : k ≥ n
    · simp [hk, hs]
    · simp only [hk, if_false, upd, if_true]
      congr 1; omega

theorem refresh_self (sy : Nat → Option Nat) (sh n : Nat) : Below n (refresh sy sh n sh) := by
  rw [refresh_same]
  cases hs : sy sh with
  | none => exact ⟨n, rfl, Nat.le_refl _⟩
  | some k => exact ⟨max k n, rfl, by omega⟩

theorem refresh_below (sy : Nat → Option Nat) (sh n s m : Nat) (h : Below m (sy s)) :
    Below m (refresh sy sh n s) := by
  by_cases hs : s = sh
  · subst hs
    rw [refresh_same]
    obtain ⟨k, hk, hm⟩ := h
    rw [hk]
    exact ⟨max k n, rfl, by omega⟩
  · rw [refresh_other _ _ _ _ hs]; exact h

theorem fold_refresh_below (ext : List Entry) (sy : Nat → Option Nat) (s m : Nat) (h : Below m (sy s)) :
    Below m ((ext.foldl (fun sy e => refresh sy e.id.shard e.id.seqno) sy) s) := by
  induction ext generalizing sy with
  | nil => exact h
  | cons e ext ih => exact ih _ (refresh_below sy e.id.shard e.id.seqno s m h)

theorem fold_refresh_zero (ext : List Entry) (sy : Nat → Option Nat) (h : ∀ e ∈ ext, e.id.shard ≠ 0) :
    (ext.foldl (fun sy e => refresh sy e.id.shard e.id.seqno) sy) 0 = sy 0 := by
  induction ext generalizing sy with
  | nil => rfl
  | cons e ext ih =>
    simp only [List.foldl_cons]
    rw [ih _ (fun x hx => h x (by simp [hx])), refresh_other _ _ _ _ (Ne.symm (h e (by simp)))]

theorem drain_uniq (mc f : Nat) (t : Table (Nat × Nat) Entry) (sy : Nat → Option Nat) (q : List Id) (out : List Entry)
    (h : Uniq t) : Uniq (drain mc f t sy q out).1 := by
  induction f generalizing t sy q out with
  | zero => exact h
  | succ f ih =>
    cases q with
    | nil => exact h
    | cons i q =>
      unfold drain
      split
      · exact ih _ _ _ _ h
      · split
        · exact ih _ _ _ _ (uniq_del _ _ h)
        · exact ih _ _ _ _ (uniq_del _ _ h)

theorem reach_shard {c : Cache}
    (hp : ∀ k e, get c.blocks k = some e → k.1 ≠ 0 → ∀ p ∈ e.prevs, p.shard ≠ 0)
    {mc : Nat} {q : List Id} (hq : ∀ i ∈ q, i.shard ≠ 0) {k : Nat × Nat} (h : Reach c.blocks mc q k) : k.1 ≠ 0 := by
  induction h with
  | base hm => exact hq _ hm
  | next hk1 hg hr hm ih => exact hp _ _ hg ih _ hm

theorem startTops_shard {z : Nat} {e : Entry} (h : ∀ t ∈ e.tops, t.id.shard ≠ 0) : ∀ i ∈ startTops z e, i.shard ≠ 0 := by
  intro i hi
  unfold startTops at hi
  obtain ⟨t, ht, rfl⟩ := List.mem_map.mp hi
  exact h t (List.mem_filter.mp ht).1

/-- What the extraction of shard blocks leaves of a cache. -/
structure Shrunk (c c' : Cache) : Prop where
  zero : c'.zero = c.zero
  known : c'.known = c.known
  gcTo : c'.gcTo = c.gcTo
  flow : c'.flow = c.flow
  funds : c'.funds = c.funds
  lastColl : c'.lastColl = c.lastColl
  range : c'.range = c.range
  sub : ∀ k e, get c'.blocks k = some e → get c.blocks k = some e
  master : ∀ n, get c'.blocks (0, n) = get c.blocks (0, n)
  sync : ∀ s m, Below m (c.synced s) → Below m (c'.synced s)
  sync0 : c'.synced 0 = c.synced 0
  ub : Uniq c.blocks → Uniq c'.blocks

theorem subgraph_shrunk {c : Cache} {e : Entry} (hk : Keyed c.blocks)
    (hp : ∀ k e, get c.blocks k = some e → k.1 ≠ 0 → ∀ p ∈ e.prevs, p.shard ≠ 0)
    (ht : ∀ t ∈ e.tops, t.id.shard ≠ 0) : Shrunk c (c.subgraph e).1 := by
  have hq := startTops_shard (z := c.zero) ht
  have hT := drain_table e.id.seqno (steps c.blocks (startTops c.zero e)) c.blocks c.synced (startTops c.zero e) []
    (Nat.le_refl _)
  obtain ⟨ext, ho, hm⟩ := drain_out e.id.seqno (steps c.blocks (startTops c.zero e)) c.blocks c.synced
    (startTops c.zero e) [] (Nat.le_refl _)
  obtain ⟨ext2, ho2, _, _, _, hs⟩ := drain_order e.id.seqno (steps c.blocks (startTops c.zero e)) c.blocks c.synced
    (startTops c.zero e) [] hk
  have hee : ext2 = ext := by rw [ho] at ho2; simpa using ho2.symm
  subst hee
  constructor
  · rfl
  · rfl
  · rfl
  · rfl
  · rfl
  · rfl
  · rfl
  · intro k e' hg
    by_cases hr : Reach c.blocks e.id.seqno (startTops c.zero e) k
    · have := (hT k).1 hr
      simp only [Cache.subgraph] at hg
      rw [this] at hg; cases hg
    · have := (hT k).2 hr
      simp only [Cache.subgraph] at hg
      rw [this] at hg; exact hg
  · intro n
    have hr : ¬ Reach c.blocks e.id.seqno (startTops c.zero e) (0, n) := fun h => reach_shard hp hq h rfl
    exact (hT (0, n)).2 hr
  · intro s m h
    simp only [Cache.subgraph]
    rw [hs]
    exact fold_refresh_below _ _ _ _ h
  · simp only [Cache.subgraph]
    rw [hs]
    apply fold_refresh_zero
    intro x hx
    obtain ⟨k, hr, hg, _⟩ := (hm x).mp hx
    have h1 := reach_shard hp hq hr
    have h2 := hk _ _ hg
    intro h0
    apply h1
    rw [← h2]; exact h0
  · intro h
    exact drain_uniq _ _ _ _ _ _ h

theorem inv_shrunk {c c' : Cache} (h : Inv c) (s : Shrunk c c') : Inv c' := by
  constructor
  · exact s.ub h.ub
  · rw [s.lastColl]; exact h.ul
  · intro k e hg; exact h.keyed k e (s.sub k e hg)
  · intro k e hg; exact h.tops k e (s.sub k e hg)
  · intro k e hg; exact h.prevs k e (s.sub k e hg)
  · intro k e hg ha; exact s.sync _ _ (h.appl k e (s.sub k e hg) ha)
  · intro m hm; rw [s.gcTo] at hm; exact s.sync _ _ (h.gcm m hm)
  · rw [s.lastColl]; exact h.lck
  · intro n i e hn hg
    rw [s.lastColl] at hn
    exact h.lcm n i e hn (s.sub _ _ hg)
  · intro n i hn hg
    rw [s.lastColl] at hn
    rw [s.master] at hg
    exact s.sync _ _ (h.lcn n i hn hg)
  · intro k e st r hg; exact h.stat k e st r (s.sub k e hg)
  · intro k e st hg; exact h.shst k e st (s.sub k e hg)

theorem get_dropFrom (t : Table Nat Id) (n k : Nat) : get (dropFrom t n) k = if k ≥ n then none else get t k := by
  unfold dropFrom; rw [get_del]; simp

theorem get_dropBefore (t : Table Nat Id) (n k : Nat) : get (dropBefore t n) k = if k < n then none else get t k := by
  unfold dropBefore; rw [get_del]; simp

theorem get_fold_dropFrom (l : List Nat) (t : Table Nat Id) (k : Nat) (i : Id)
    (h : get (l.foldl dropFrom t) k = some i) : get t k = some i ∧ ∀ n ∈ l, k < n := by
  induction l generalizing t with
  | nil => exact ⟨h, by simp⟩
  | cons n l ih =>
    obtain ⟨h1, h2⟩ := ih _ h
    rw [get_dropFrom] at h1
    split at h1
    · cases h1
    · refine ⟨h1, ?_⟩
      intro m hm
      rcases List.mem_cons.mp hm with rfl | hm
      · omega
      · exact h2 m hm

theorem get_fold_dropBefore (l : List Nat) (t : Table Nat Id) (k : Nat) (i : Id)
    (h : get (l.foldl dropBefore t) k = some i) : get t k = some i ∧ ∀ n ∈ l, n ≤ k := by
  induction l generalizing t with
  | nil => exact ⟨h, by simp⟩
  | cons n l ih =>
    obtain ⟨h1, h2⟩ := ih _ h
    rw [get_dropBefore] at h1
    split at h1
    · cases h1
    · refine ⟨h1, ?_⟩
      intro m hm
      rcases List.mem_cons.mp hm with rfl | hm
      · omega
      · exact h2 m hm

theorem uniq_fold_dropFrom (l : List Nat) (t : Table Nat Id) (h : Uniq t) : Uniq (l.foldl dropFrom t) := by
  induction l generalizing t with
  | nil => exact h
  | cons n l ih => exact ih _ (uniq_del _ _ h)

theorem uniq_fold_dropBefore (l : List Nat) (t : Table Nat Id) (h : Uniq t) : Uniq (l.foldl dropBefore t) := by
  induction l generalizing t with
  | nil => exact h
  | cons n l ih => exact ih _ (uniq_del _ _ h)

end Tycho.BlocksCache
