import Verif.Counters.Lemmas

/-! The property of the cell reference counters (C27). -/
namespace Tycho.Counters
open Tycho.Bytes Tycho.Codec Tycho.Table

theorem Repr.step (F : BitmapFormat) {c : Counters} {rc : Rc} (h : Repr c rc) (hf : Fits c rc) (op : Op)
    (ho : ∀ ts, op = .batch ts → Contract rc c.nextIdx ts) :
    ∃ c', step F c op = some c' ∧ Repr c' (specStep rc op) ∧ c'.nextIdx = specNext c.nextIdx op := by
  have grow : ∀ m, c.nextIdx ≤ m → Repr { c with nextIdx := m } rc := by
    intro m hm
    refine ⟨h.present, h.large, h.small, ?_, fun i hi => h.fresh i (by simp only at hi; omega), h.uniq⟩
    have hl := h.live
    simp only
    rw [hl]
    clear hl
    induction m, hm using Nat.le_induction with
    | base => rfl
    | succ m hm ih =>
      rw [ih]
      unfold liveCount
      rw [List.range_succ, List.filter_append, List.length_append]
      simp [h.fresh m hm]
  cases op with
  | alloc => exact ⟨_, rfl, grow _ (by omega), rfl⟩
  | reserve n => exact ⟨_, rfl, grow _ (by omega), rfl⟩
  | batch ts =>
    obtain ⟨h1, h2⟩ := runBatch_repr h (ho ts rfl)
    exact ⟨_, rfl, h1, h2⟩
  | reload =>
    obtain ⟨c', h1, h2, h3⟩ := reload_repr F h hf
    exact ⟨c', h1, h2, h3⟩

theorem Repr.new (n : Nat) : Repr (Counters.new n) (fun _ => 0) := by
  refine ⟨?_, ?_, ?_, ?_, ?_, uniq_nil⟩
  · simp [Counters.new]
  · simp [Counters.new, Table.get, bigMin]
  · simp [Counters.new, encodeSmall]
  · simp [Counters.new, liveCount]
  · simp

theorem Repr.run (F : BitmapFormat) {c : Counters} {rc : Rc} (h : Repr c rc) (hb : ∀ i, rc i < 2 ^ 64) (ops : List Op)
    (ho : Honest rc c.nextIdx ops) :
    ∃ c', run F c ops = some c' ∧ Repr c' (specRun rc ops) := by
  induction ops generalizing c rc with
  | nil => exact ⟨c, rfl, h⟩
  | cons op ops ih =>
    obtain ⟨hn, hbat, hrest⟩ := ho
    obtain ⟨c1, hs, hr, hnx⟩ := h.step F ⟨hn, hb⟩ op (fun ts he => (hbat ts he).1)
    rw [← hnx] at hrest
    have hb1 : ∀ i, specStep rc op i < 2 ^ 64 := by
      intro i
      cases op with
      | batch ts =>
        obtain ⟨hc, hv⟩ := hbat ts rfl
        by_cases hi : ∃ t ∈ ts, t.idx = i
        · obtain ⟨t, ht, rfl⟩ := hi
          show rc.setAll ts t.idx < _
          rw [setAll_mem rc hc.once ht]; exact hv t ht
        · show rc.setAll ts i < _
          rw [setAll_not rc (fun t ht he => hi ⟨t, ht, he⟩)]; exact hb i
      | alloc => exact hb i
      | reserve n => exact hb i
      | reload => exact hb i
    obtain ⟨c2, h2, hr2⟩ := ih hr hb1 hrest
    refine ⟨c2, ?_, hr2⟩
    rw [Counters.run, hs]
    exact h2

/-- C27. Over any history of allocations, batches that keep the caller contract and save-and-load cycles, starting from fresh
counters: every load succeeds, and afterwards the count reported for every existing row is the one last written, the total is
the number of existing rows, and no row at or above the next free number exists. -/
theorem counters_agree (F : BitmapFormat) (n : Nat) (ops : List Op) (ho : Honest (fun _ => 0) n ops) :
    ∃ c, run F (Counters.new n) ops = some c ∧ Agrees c (specRun (fun _ => 0) ops) := by
  obtain ⟨c, h1, h2⟩ := (Repr.new n).run F (by simp) ops ho
  exact ⟨c, h1, h2.agrees⟩

/-- Materialised rows only: after such a history a row has an entry in the bitmap of overrides exactly when it is counted above
one, an entry in the hash map exactly when it is counted above 256, and no deleted row keeps an entry in any tier. -/
theorem no_leftovers (F : BitmapFormat) (n : Nat) (ops : List Op) (ho : Honest (fun _ => 0) n ops) :
    ∃ c, run F (Counters.new n) ops = some c ∧ ∀ i,
      (i ∈ c.present ↔ 1 < specRun (fun _ => 0) ops i) ∧
      ((Table.get c.large i).isSome ↔ 256 < specRun (fun _ => 0) ops i) ∧
      (specRun (fun _ => 0) ops i = 0 → ∀ b < 8, i ∉ c.small b) := by
  obtain ⟨c, h1, h2⟩ := (Repr.new n).run F (by simp) ops ho
  refine ⟨c, h1, fun i => ⟨h2.present i, ?_, ?_⟩⟩
  · rw [h2.large i]
    unfold bigMin
    split
    · simp; omega
    · simp; omega
  · intro hz b hb hm
    have := (h2.small i b hb).1 hm
    rw [hz] at this
    simp [encodeSmall] at this

/-- A batch in ascending row order takes the branch without sorting; in any order the transitions applied are strictly
ascending, as the debug assertion of `prepare_order` says. -/
theorem prepareOrder_sorted (ts : List Transition) (hn : (ts.map (·.idx)).Nodup) :
    ((prepareOrder (ts.foldl Scratch.push Scratch.empty)).map (·.idx)).Pairwise (· < ·) := by
  have key : ∀ (ts : List Transition) (s : Scratch),
      (s.isSorted = true → (s.transitions.map (·.idx)).Pairwise (· < ·) ∧
        (s.lastIdx = (s.transitions.map (·.idx)).getLast?)) →
      ((ts.foldl Scratch.push s).isSorted = true →
        ((ts.foldl Scratch.push s).transitions.map (·.idx)).Pairwise (· < ·)) := by
    intro ts
    induction ts with
    | nil => intro s h hs; exact (h hs).1
    | cons t ts ih =>
      intro s h
      rw [List.foldl_cons]
      apply ih
      rw [push_eq]
      split
      · intro hs
        simp only [Bool.and_eq_true, Bool.not_eq_true'] at hs
        obtain ⟨h1, h2⟩ := h hs.1
        refine ⟨?_, by simp⟩
        simp only [List.map_append, List.map_cons, List.map_nil]
        rw [List.pairwise_append]
        refine ⟨h1, by simp, ?_⟩
        intro a ha b hb
        simp only [List.mem_singleton] at hb
        subst hb
        rw [h2] at hs
        obtain ⟨ys, y, hy⟩ : ∃ ys y, s.transitions.map (·.idx) = ys ++ [y] := by
          have hne : s.transitions.map (·.idx) ≠ [] := fun h0 => by rw [h0] at ha; simp at ha
          exact ⟨_, _, (List.dropLast_append_getLast hne).symm⟩
        rw [hy] at ha hs h1
        simp only [breaksOrder, List.getLast?_append, List.getLast?_singleton, Option.some_or,
          decide_eq_false_iff_not] at hs
        rw [List.pairwise_append] at h1
        rcases List.mem_append.1 ha with ha | ha
        · have := h1.2.2 a ha y (by simp); omega
        · simp only [List.mem_singleton] at ha; subst ha; omega
      · exact h
  have hs := key ts Scratch.empty (by simp [Scratch.empty])
  unfold prepareOrder
  split
  · rename_i hb; exact hs hb
  · have hn' : ((ts.filter kept).map (·.idx)).Nodup := hn.sublist (List.filter_sublist.map _)
    rw [pushes_transitions] 
    simp only [Scratch.empty, List.nil_append]
    generalize ts.filter kept = l at *
    have hp := (l.perm_insertionSort (fun a b => a.idx ≤ b.idx))
    have hsorted : (l.insertionSort (fun a b => a.idx ≤ b.idx)).Pairwise (fun a b => a.idx ≤ b.idx) := by
      haveI : Std.Total (fun a b : Transition => a.idx ≤ b.idx) := ⟨fun a b => Nat.le_total _ _⟩
      haveI : IsTrans Transition (fun a b : Transition => a.idx ≤ b.idx) := ⟨fun a b c h1 h2 => Nat.le_trans h1 h2⟩
      exact List.pairwise_insertionSort _ l
    have hnd : ((l.insertionSort (fun a b => a.idx ≤ b.idx)).map (·.idx)).Nodup := (hp.map _).nodup_iff.2 hn'
    rw [List.pairwise_map]
    rw [List.Nodup, List.pairwise_map] at hnd
    exact (hsorted.and hnd).imp (fun h => by omega)

end Tycho.Counters
