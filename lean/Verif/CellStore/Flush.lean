import Verif.CellStore.RemoveCommit
import Verif.Counters.Props

namespace Tycho.CellStore
open Tycho.Table

section
variable {w : World} {s : Store} {roots : Nat → Nat} {rcI : Counters.Rc}

theorem rowIdx_congr {s s' : Store} (hn : s'.nursery = s.nursery) (hd : durable s' = durable s) (h : Nat) :
    rowIdx s' h = rowIdx s h := by
  unfold rowIdx; rw [hn, hd]

theorem live_congr {s s' : Store} (hn : s'.nursery = s.nursery) (hd : durable s' = durable s) : live s' = live s := by
  unfold live; rw [hn, hd]

/-- Operations that move rows about without changing what is stored. -/
theorem Inv.same (J : Inv w s roots rcI) {s' : Store} (hn : s'.nursery = s.nursery) (hd : durable s' = durable s)
    (hc : s'.counters = s.counters) (hu : Uniq s'.cells)
    (hf : ∀ b, s'.batch = some b → ∀ e ∈ b.puts, get s'.cells e.1 = none)
    (hfl : ∀ f, ((keys (durable s)).filter (fun h => w.fp h = f)).card ≤ s'.filter.count f)
    (hca : ∀ h r, get s'.cache h = some r → get (durable s) h = some r)
    (hro : ∀ h e, get s.nursery h = some e → (e.born, h) ∈ s'.byRound) : Inv w s' roots rcI := by
  have hl := live_congr hn hd
  have hr := rowIdx_congr hn hd
  have hus : ∀ h, uses w s' roots h = uses w s roots h := by intro h; unfold uses; rw [hl]
  refine ⟨?_, hu, ?_, hf, ?_, ?_, ?_, ?_, ?_, ?_, ?_, ?_, ?_, ?_⟩
  · rw [hn]; exact J.uNur
  · intro h; rw [hn, hd]; exact J.disj h
  · intro h e; rw [hn]; exact J.nData h e
  · intro h r; rw [hd]; exact J.cData h r
  · intro h; rw [hl, hus]; exact J.liveUses h
  · intro h h' i; rw [hr, hr]; exact J.inj h h' i
  · rw [hc]; exact J.repr
  · intro h i; rw [hr, hus]; exact J.rc h i
  · intro i hi; obtain ⟨h, hh⟩ := J.own i hi; exact ⟨h, by rw [hr]; exact hh⟩
  · intro f; rw [hd]; exact hfl f
  · intro h r; rw [hd]; exact hca h r
  · intro h e; rw [hn]; exact hro h e

theorem write_inv (J : Inv w s roots rcI) : Inv w (write s) roots rcI := by
  unfold write
  cases hb : s.batch with
  | none => exact J
  | some b =>
    have hd : durable s = applyBatch s.cells b := by unfold durable; rw [hb]
    apply J.same (s' := { s with cells := applyBatch s.cells b, batch := none }) rfl
    · rw [hd]; rfl
    · rfl
    · exact uniq_putAll _ _ (uniq_del _ _ J.uCells)
    · intro b hb; cases hb
    · exact J.filt
    · exact J.cache
    · exact J.rounds

theorem durable_of_cells (J : Inv w s roots rcI) {h : Nat} {r : Row} (hg : get s.cells h = some r)
    (ha : ∀ b, s.batch = some b → h ∉ b.deletes) : get (durable s) h = some r := by
  unfold durable
  cases hb : s.batch with
  | none => exact hg
  | some b =>
    show get (putAll (del s.cells _) b.puts) h = some r
    rw [get_putAll_not]
    · rw [get_del]
      have := ha b hb
      simp [this, hg]
    · rintro e he rfl
      have := J.fresh b hb e he
      rw [hg] at this; cases this

theorem load_inv (J : Inv w s roots rcI) (h : Nat) (ha : ∀ b, s.batch = some b → h ∉ b.deletes) :
    Inv w (load s h).2 roots rcI := by
  unfold load
  split
  · exact J
  · split
    · exact J
    · split
      · rename_i r hg
        apply J.same (s' := { s with cache := put s.cache h r }) rfl rfl rfl J.uCells J.fresh J.filt _ J.rounds
        intro x q hx
        simp only [get_put] at hx
        split at hx
        · rename_i hxx; subst hxx
          obtain rfl := Option.some.inj hx
          exact durable_of_cells J hg ha
        · exact J.cache x q hx
      · exact J

theorem evict_inv (J : Inv w s roots rcI) (h : Nat) : Inv w (evict s h) roots rcI := by
  apply J.same (s' := evict s h) rfl rfl rfl J.uCells J.fresh J.filt _ J.rounds
  intro x q hx
  unfold evict at hx
  simp only [get_del] at hx
  split at hx
  · cases hx
  · exact J.cache x q hx

theorem reopen_inv (J : Inv w s roots rcI) (hb : s.batch = none) (stale : List (Nat × Nat)) :
    Inv w (reopen w s stale) roots rcI := by
  have hd : durable s = s.cells := by unfold durable; rw [hb]
  apply J.same (s' := reopen w s stale) rfl rfl rfl J.uCells J.fresh
  · intro f
    rw [hd]
    have := card_fp_le w.fp f (s.cells.map (·.1))
    rw [List.map_map] at this
    exact this
  · intro h r hr; cases hr
  · intro h e he
    exact List.mem_append_right _ (List.mem_map.2 ⟨(h, e), mem_of_get he, rfl⟩)

/-- The rows of the nursery as a list for the database. -/
theorem get_flush {t : Table Nat Row} {n : Table Nat NEntry} (hu : Uniq n) (h : Nat) :
    get (putAll t (n.map (fun e => (e.1, ({ idx := e.2.idx, refs := e.2.refs } : Row))))) h =
      match get n h with
      | some e => some { idx := e.idx, refs := e.refs }
      | none => get t h := by
  cases hg : get n h with
  | some e =>
    simp only
    have := get_putAll_mem t (n.map (fun e => (e.1, ({ idx := e.2.idx, refs := e.2.refs } : Row))))
      (by rw [List.map_map]; exact hu) (h, { idx := e.idx, refs := e.refs })
      (List.mem_map.2 ⟨(h, e), mem_of_get hg, rfl⟩)
    exact this
  | none =>
    simp only
    apply get_putAll_not
    intro x hx hk
    obtain ⟨y, hy, rfl⟩ := List.mem_map.1 hx
    have := get_of_mem hu hy
    simp only at hk
    rw [hk, hg] at this; cases this

theorem flush_inv (J : Inv w s roots rcI) (hb : s.batch = none) : Inv w (flush w s) roots rcI := by
  have hd : durable s = s.cells := by unfold durable; rw [hb]
  have hd' : durable (flush w s) = (flush w s).cells := by
    show (match s.batch with | none => _ | some b => _) = _
    rw [hb]
  have hgd : ∀ h, get (durable (flush w s)) h = match get s.nursery h with
      | some e => some { idx := e.idx, refs := e.refs }
      | none => get s.cells h := by
    intro h; rw [hd']; exact get_flush J.uNur h
  have hgn : ∀ h, get (flush w s).nursery h = none := fun h => rfl
  have hrow : ∀ h, rowIdx (flush w s) h = rowIdx s h := by
    intro h
    show (match get (flush w s).nursery h with
      | some e => some e.idx | none => (get (durable (flush w s)) h).map (fun r : Row => r.idx)) = _
    rw [hgn, hgd]
    unfold rowIdx
    rw [hd]
    cases get s.nursery h <;> rfl
  have hlive : live (flush w s) = live s := by
    ext h; rw [mem_live, mem_live, hrow]
  have hus : ∀ h, uses w (flush w s) roots h = uses w s roots h := by intro h; unfold uses; rw [hlive]
  refine ⟨uniq_nil, uniq_putAll _ _ J.uCells, ?_, ?_, ?_, ?_, ?_, ?_, J.repr, ?_, ?_, ?_, ?_, ?_⟩
  · intro h hh; cases hh
  · intro b hbb; have : s.batch = some b := hbb; rw [hb] at this; cases this
  · intro h e hh; cases hh
  · intro h r hr
    rw [hgd] at hr
    cases hg : get s.nursery h with
    | some e =>
      rw [hg] at hr
      obtain rfl := Option.some.inj hr
      exact J.nData h e hg
    | none => rw [hg] at hr; exact J.cData h r (by rw [hd]; exact hr)
  · intro h; rw [hlive, hus]; exact J.liveUses h
  · intro h h' i; rw [hrow, hrow]; exact J.inj h h' i
  · intro h i; rw [hrow, hus]; exact J.rc h i
  · intro i hi; obtain ⟨h, hh⟩ := J.own i hi; exact ⟨h, by rw [hrow]; exact hh⟩
  · intro f
    have hk : keys (durable (flush w s)) = keys s.cells ∪ (s.nursery.map (·.1)).toFinset := by
      ext h
      rw [mem_keys, Finset.mem_union, mem_keys, hgd]
      have : h ∈ (s.nursery.map (·.1)).toFinset ↔ (get s.nursery h).isSome := mem_keys s.nursery h
      rw [this]
      cases get s.nursery h <;> simp
    rw [hk, Finset.filter_union]
    have h1 := Finset.card_union_le ((keys s.cells).filter (fun h => w.fp h = f))
      ((s.nursery.map (·.1)).toFinset.filter (fun h => w.fp h = f))
    have h2 := card_fp_le w.fp f (s.nursery.map (·.1))
    have h3 := J.filt f
    rw [hd] at h3
    show _ ≤ (s.filter ++ (s.nursery.map (fun e => (e.1, ({ idx := e.2.idx, refs := e.2.refs } : Row)))).map
      (fun e => w.fp e.1)).count f
    rw [List.count_append, List.map_map]
    rw [List.map_map] at h2
    have h4 : (List.map (w.fp ∘ fun x => x.1) s.nursery) = s.nursery.map
      ((fun e : Nat × Row => w.fp e.1) ∘ fun e => (e.1, ({ idx := e.2.idx, refs := e.2.refs } : Row))) := rfl
    rw [h4] at h2
    omega
  · intro h r hr
    have hr' : get (putAll s.cache (s.nursery.map (fun e => (e.1, ({ idx := e.2.idx, refs := e.2.refs } : Row))))) h =
      some r := hr
    rw [get_flush J.uNur] at hr'
    rw [hgd]
    cases hg : get s.nursery h with
    | some e => rw [hg] at hr'; exact hr'
    | none =>
      rw [hg] at hr'
      have := J.cache h r hr'
      rwa [hd] at this
  · intro h e hh; cases hh
end

end Tycho.CellStore
