import Verif.CellStore.Import

namespace Tycho.CellStore
open Tycho.Table

section
variable {w : World} {s : Store} {roots : Nat → Nat} {rcI : Counters.Rc}

theorem empty_inv (w : World) : Inv w Store.empty (fun _ => 0) (fun _ => 0) := by
  have hl : live Store.empty = ∅ := rfl
  refine ⟨uniq_nil, uniq_nil, ?_, ?_, ?_, ?_, ?_, ?_, ?_, ?_, ?_, ?_, ?_, ?_⟩
  · intro h hh; cases hh
  · intro b hb; cases hb
  · intro h e hh; cases hh
  · intro h e hh; cases hh
  · intro h; unfold uses; rw [hl]; simp [inDeg_empty]
  · intro h h' i hh; cases hh
  · exact Counters.Repr.new 0
  · intro h i hh; cases hh
  · intro i hi; exact absurd hi (Nat.lt_irrefl 0)
  · intro f; simp [keys, durable, Store.empty]
  · intro h r hh; cases hh
  · intro h e hh; cases hh

/-- An allowed operation succeeds and keeps the invariant. -/
theorem step_inv (J : Inv w s roots rcI) (op : Op) (ha : Allowed w s roots op) :
    ∃ s' rcI', step w s op = some s' ∧ Inv w s' (specStep roots op) rcI' := by
  cases op with
  | store root split sched round => exact store_inv J ha root split sched round
  | remove root split sched => exact remove_inv J ha.1 root ha.2.1 split ha.2.2 sched
  | write => exact ⟨_, rcI, rfl, write_inv J⟩
  | load h => exact ⟨_, rcI, rfl, load_inv J h ha⟩
  | evict h => exact ⟨_, rcI, rfl, evict_inv J h⟩
  | flush => exact ⟨_, rcI, rfl, flush_inv J ha⟩
  | reopen stale => exact ⟨_, rcI, rfl, reopen_inv J ha stale⟩
  | importTree root temp limit => exact import_inv J ha.1 ha.2.1 root temp ha.2.2 limit

theorem run_inv (h : Run w s roots) : ∃ rcI, Inv w s roots rcI := by
  induction h with
  | init => exact ⟨_, empty_inv w⟩
  | step op _ ha hs ih =>
    obtain ⟨rcI, J⟩ := ih
    obtain ⟨s', rcI', h1, h2⟩ := step_inv J op ha
    rw [hs] at h1
    obtain rfl := Option.some.inj h1
    exact ⟨rcI', h2⟩
end

end Tycho.CellStore
