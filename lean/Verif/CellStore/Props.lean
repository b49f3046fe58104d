import Verif.CellStore.Ops

/-!
The properties of the cell store: reference counts and liveness (C28), loading and promotion (C29).
-/
namespace Tycho.CellStore
open Tycho.Table

section
variable {w : World} {s : Store} {roots : Nat → Nat} {rcI : Counters.Rc}

theorem Inv.liveIff (J : Inv w s roots rcI) (h : Nat) : h ∈ live s ↔ ∃ r, 0 < roots r ∧ Reach w r h := by
  constructor
  · intro hl
    have key : ∀ n h, h ∈ live s → (live s).sup w.size - w.size h ≤ n → ∃ r, 0 < roots r ∧ Reach w r h := by
      intro n
      induction n with
      | zero =>
        intro h hl hn
        have hu := (J.liveUses h).1 hl
        unfold uses at hu
        by_cases hr : 0 < roots h
        · exact ⟨h, hr, .refl _⟩
        · obtain ⟨c, hc, hm⟩ := (inDeg_pos w (live s) h).1 (by omega)
          have h1 := Finset.le_sup (f := w.size) hc
          have h2 := size_lt w hm
          omega
      | succ n ih =>
        intro h hl hn
        have hu := (J.liveUses h).1 hl
        unfold uses at hu
        by_cases hr : 0 < roots h
        · exact ⟨h, hr, .refl _⟩
        · obtain ⟨c, hc, hm⟩ := (inDeg_pos w (live s) h).1 (by omega)
          have h1 := Finset.le_sup (f := w.size) hc
          have h2 := size_lt w hm
          obtain ⟨r, hr, hreach⟩ := ih c hc (by omega)
          exact ⟨r, hr, .step hreach hm⟩
    exact key _ h hl (Nat.le_refl _)
  · rintro ⟨r, hr, hreach⟩
    induction hreach with
    | refl => exact (J.liveUses r).2 (by unfold uses; omega)
    | @step c h _ hm ih =>
      apply (J.liveUses _).2
      have := (inDeg_pos w (live s) h).2 ⟨c, ih, hm⟩
      unfold uses; omega

theorem Inv.total (J : Inv w s roots rcI) : s.counters.liveCells = (live s).card := by
  rw [J.repr.live]
  unfold Counters.liveCount
  have hnd : ((List.range s.counters.nextIdx).filter (fun i => decide (0 < rcI i))).Nodup := List.nodup_range.filter _
  rw [← List.toFinset_card_of_nodup hnd]
  symm
  refine Finset.card_bij (fun h _ => (rowIdx s h).getD 0) ?_ ?_ ?_
  · intro h hl
    obtain ⟨i, hi⟩ := Option.isSome_iff_exists.1 ((mem_live s h).1 hl)
    have := J.idx_lt hi
    rw [hi, List.mem_toFinset, List.mem_filter, List.mem_range]
    simp [this.1, this.2.1]
  · intro h hl h' hl' he
    obtain ⟨i, hi⟩ := Option.isSome_iff_exists.1 ((mem_live s h).1 hl)
    obtain ⟨i', hi'⟩ := Option.isSome_iff_exists.1 ((mem_live s h').1 hl')
    rw [hi, hi'] at he
    simp only [Option.getD_some] at he
    subst he
    exact J.inj h h' i hi hi'
  · intro i hi
    rw [List.mem_toFinset, List.mem_filter] at hi
    obtain ⟨h, hr⟩ := J.own i (by simpa using hi.2)
    refine ⟨h, (mem_live s h).2 (by rw [hr]; rfl), by rw [hr]; rfl⟩

theorem Inv.loadsLive (J : Inv w s roots rcI) (h : Nat) (hl : h ∈ live s)
    (hp : ∀ b, s.batch = some b → h ∈ b.puts.map (·.1) → (get s.cache h).isSome) :
    (load s h).1 = some (w.refs h) := by
  unfold load
  cases hn : get s.nursery h with
  | some e => simp [J.nData h e hn]
  | none =>
    simp only
    cases hc : get s.cache h with
    | some r => simp [J.cData h r (J.cache h r hc)]
    | none =>
      simp only
      have hl' := (mem_live s h).1 hl
      unfold rowIdx at hl'
      rw [hn] at hl'
      simp only [Option.isSome_map] at hl'
      obtain ⟨r, hr⟩ := Option.isSome_iff_exists.1 hl'
      have hcells : get s.cells h = some r := by
        unfold durable at hr
        cases hb : s.batch with
        | none => rw [hb] at hr; exact hr
        | some b =>
          rw [hb] at hr
          have hr : get (putAll (del s.cells (fun h => b.deletes.contains h)) b.puts) h = some r := hr
          have hnp : ∀ e ∈ b.puts, e.1 ≠ h := by
            rintro e he rfl
            have := hp b hb (List.mem_map_of_mem he)
            rw [hc] at this; cases this
          rw [get_putAll_not _ _ _ hnp, get_del] at hr
          split at hr
          · cases hr
          · exact hr
      rw [hcells]
      simp [J.cData h r hr]

theorem Inv.loads (J : Inv w s roots rcI) (hb : s.batch = none) (h : Nat) :
    (load s h).1 = if h ∈ live s then some (w.refs h) else none := by
  by_cases hl : h ∈ live s
  · rw [if_pos hl]
    exact J.loadsLive h hl (fun b hbb => by rw [hb] at hbb; cases hbb)
  · rw [if_neg hl]
    have hd : durable s = s.cells := by unfold durable; rw [hb]
    rw [mem_live] at hl
    unfold rowIdx at hl
    rw [hd] at hl
    unfold load
    cases hn : get s.nursery h with
    | some e => rw [hn] at hl; exact absurd rfl hl
    | none =>
      rw [hn] at hl
      simp only [Option.isSome_map] at hl
      have hcells : get s.cells h = none := by simpa using hl
      simp only
      cases hc : get s.cache h with
      | some r =>
        have := J.cache h r hc
        rw [hd, hcells] at this; cases this
      | none => simp [hcells]

theorem Inv.sound (J : Inv w s roots rcI) : Sound w s roots := by
  refine ⟨J.liveIff, ?_, J.total, J.loads, J.loadsLive⟩
  intro h hl
  obtain ⟨i, hi⟩ := Option.isSome_iff_exists.1 ((mem_live s h).1 hl)
  exact ⟨i, hi, (J.idx_lt hi).2.2⟩
end

/-- **C28.** After any run of allowed operations, under every schedule of every walk, the store is sound for the trees that were
stored and not removed. -/
theorem run_sound {w : World} {s : Store} {roots : Nat → Nat} (h : Run w s roots) : Sound w s roots := by
  obtain ⟨_, J⟩ := run_inv h
  exact J.sound

/-- **C28.** No allowed operation fails or panics, whatever the schedule. -/
theorem run_progress {w : World} {s : Store} {roots : Nat → Nat} (h : Run w s roots) (op : Op)
    (ha : Allowed w s roots op) : ∃ s', step w s op = some s' ∧ Sound w s' (specStep roots op) := by
  obtain ⟨_, J⟩ := run_inv h
  obtain ⟨s', _, h1, h2⟩ := step_inv J op ha
  exact ⟨s', h1, h2.sound⟩

/-- **C28.** When everything that was stored is removed, nothing is left: no cell and no counter. -/
theorem all_removed {w : World} {s : Store} {roots : Nat → Nat} (h : Run w s roots) (h0 : ∀ r, roots r = 0) :
    live s = ∅ ∧ s.counters.liveCells = 0 ∧ (s.batch = none → ∀ h, (load s h).1 = none) := by
  have S := run_sound h
  have hl : live s = ∅ := by
    apply Finset.eq_empty_of_forall_notMem
    intro x hx
    obtain ⟨r, hr, _⟩ := (S.liveIff x).1 hx
    rw [h0 r] at hr
    exact absurd hr (Nat.lt_irrefl 0)
  refine ⟨hl, by rw [S.total, hl]; rfl, ?_⟩
  intro hb x
  rw [S.loads hb x, hl]; simp

/-- **C28.** What two runs leave depends only on the trees they stored and removed: not on schedules, split points, rounds,
cache evictions, flushes or restarts. -/
theorem schedule_independent {w : World} {s s' : Store} {roots : Nat → Nat} (h : Run w s roots) (h' : Run w s' roots) :
    live s = live s' ∧ s.counters.liveCells = s'.counters.liveCells ∧
      ∀ x i i', rowIdx s x = some i → rowIdx s' x = some i' →
        Counters.get s.counters i = Counters.get s'.counters i' := by
  have S := run_sound h
  have S' := run_sound h'
  have hl : live s = live s' := by
    ext x; rw [S.liveIff, S'.liveIff]
  refine ⟨hl, by rw [S.total, S'.total, hl], ?_⟩
  intro x i i' hi hi'
  obtain ⟨j, hj, hc⟩ := S.count x ((mem_live s x).2 (by rw [hi]; rfl))
  obtain ⟨j', hj', hc'⟩ := S'.count x ((mem_live s' x).2 (by rw [hi']; rfl))
  rw [hi] at hj; rw [hi'] at hj'
  obtain rfl := Option.some.inj hj
  obtain rfl := Option.some.inj hj'
  rw [hc, hc', hl]

/-- **C29.** A cell does not stay in memory for long: after a store at round `round` every cell of the nursery was stored
for the first time less than `promotionDelay` rounds ago. -/
theorem store_promotes {w : World} {s s' : Store} {roots : Nat → Nat} (h : Run w s roots) (root : Nat)
    (split : Nat → Bool) (sched : Nat → Nat) (round : Nat) (hb : s.batch = none)
    (hs : step w s (.store root split sched round) = some s') :
    ∀ x e, get s'.nursery x = some e → round < e.born + promotionDelay := by
  intro x e he
  obtain ⟨_, J⟩ := run_inv h
  obtain ⟨s2, _, h1, h2⟩ := step_inv J (.store root split sched round) hb
  rw [hs] at h1
  obtain rfl := Option.some.inj h1
  have hr := h2.rounds x e he
  have hby : ∃ tx : Table Nat Added, s'.byRound = s.byRound.filter (fun p => !ripe round p.1) ++
      (tx.filterMap (addedEntry round)).map (fun e => (e.2.born, e.1)) := by
    unfold step store at hs
    simp only at hs
    split at hs
    · cases hs
    · unfold storeCommit at hs
      simp only at hs
      split at hs
      · cases hs
      · obtain rfl := Option.some.inj hs
        exact ⟨_, rfl⟩
  obtain ⟨tx, hby⟩ := hby
  rw [hby, List.mem_append] at hr
  have hpos : 0 < promotionDelay := by decide
  rcases hr with hr | hr
  · rw [List.mem_filter] at hr
    have := hr.2
    unfold ripe at this
    simp only [Bool.not_eq_true', Bool.and_eq_false_iff, decide_eq_false_iff_not] at this
    omega
  · obtain ⟨y, hy, hye⟩ := List.mem_map.1 hr
    obtain ⟨z, _, hz⟩ := List.mem_filterMap.1 hy
    unfold addedEntry at hz
    obtain ⟨_, _, rfl⟩ := Option.map_eq_some_iff.1 hz
    simp only [Prod.mk.injEq] at hye
    omega

/-- **C29.** After `prepare_persistent_state_save` every stored cell is in the database itself. -/
theorem flush_persists {w : World} {s : Store} {roots : Nat → Nat} (h : Run w s roots) (hb : s.batch = none) (x : Nat) :
    ((∃ i, get (flush w s).cells x = some { idx := i, refs := w.refs x }) ↔ ∃ r, 0 < roots r ∧ Reach w r x) ∧
    (flush w s).nursery = [] := by
  obtain ⟨_, J⟩ := run_inv h
  have J' := flush_inv J hb
  have hb' : (flush w s).batch = none := hb
  have hd : durable (flush w s) = (flush w s).cells := by unfold durable; rw [hb']
  refine ⟨?_, rfl⟩
  rw [← J'.liveIff x, mem_live]
  unfold rowIdx
  rw [hd]
  have hn : get (flush w s).nursery x = none := rfl
  rw [hn]
  simp only [Option.isSome_map]
  constructor
  · rintro ⟨i, hi⟩; rw [hi]; rfl
  · intro hs
    obtain ⟨r, hr⟩ := Option.isSome_iff_exists.1 hs
    refine ⟨r.idx, ?_⟩
    rw [hr, ← J'.cData x r (by rw [hd]; exact hr)]

/-- **C102.** A tree whose cells are in the temporary table is imported, in batches of any size, beside whatever is stored:
afterwards the store holds one tree more, with the right counts, and all rows are in the database. -/
theorem import_adds {w : World} {s : Store} {roots : Nat → Nat} (h : Run w s roots) (root : Nat) (temp : Nat → Option (List Nat)) (limit : Nat)
    (hb : s.batch = none) (hn : s.nursery = []) (ht : ∀ h, Reach w root h → temp h = some (w.refs h)) :
    ∃ s', importTree w s root temp limit = some s' ∧ Sound w s' (fun h => if h = root then roots h + 1 else roots h) ∧
      s'.nursery = [] ∧ s'.batch = none ∧ (∀ x, Reach w root x → (get s'.cells x).isSome) ∧
      (∀ x r, get s.cells x = some r → get s'.cells x = some r) := by
  obtain ⟨_, J⟩ := run_inv h
  obtain ⟨s', _, h1, J', h2⟩ := import_inv' J hb hn root temp ht limit
  have h3 : s'.nursery = [] ∧ s'.batch = none := by
    unfold importTree at h1
    split at h1
    · cases h1
    · split at h1
      · injection h1 with h1; subst h1; exact ⟨hn, hb⟩
      · cases h1
  refine ⟨s', h1, J'.sound, h3.1, h3.2, fun x hx => ?_, h2⟩
  have h4 := (J'.sound.liveIff x).2 ⟨root, by simp, hx⟩
  rw [mem_live] at h4
  unfold rowIdx durable at h4
  rw [h3.1, h3.2] at h4
  change ((get s'.cells x).map (fun r : Row => r.idx)).isSome at h4
  rw [Option.isSome_map] at h4
  exact h4

end Tycho.CellStore
