import Verif.PersistentSave.Props

namespace Tycho.PersistentSave

/-- Key blocks 0 and 1 in the first interval, 2 and later ones in the second. -/
def times (k : Nat) : Nat := if k ≤ 1 then 1000 * k else 140000 + k

example : Wanted times 2 ∧ ¬ Wanted times 1 ∧ ¬ Wanted times 3 := by
  refine ⟨?_, ?_, ?_⟩ <;> simp [Wanted, times]

/-- the first key block is saved -/
def e1 (u : Nat → Nat) (d : Disk) : St := save (resume (fresh u d))

theorem run_e1 {u d} : Run u (fresh u d) (e1 u d) := by
  have f := resume_fields (fresh u d)
  refine .step (.step (.refl _) (.resume _ rfl rfl)) (.save _ ?_ (by rw [f.2.2.2.1]; rfl))
  unfold resume; split <;> rfl

theorem run_e2 {u d} : Run u (fresh u d) (swap u (e1 u d)) := by
  refine .step run_e1 (.swap _ rfl ?_)
  intro k
  simp only [e1, save, resume]
  split <;> simp [fresh]

/-- A run without a crash: the key block is found persistent, its state begun, made and forgotten. -/
def made : St :=
  taskReset (taskStore (commit (spawn (start (join (swap times (e1 times (diskAt 2))))))) 2) 2

theorem run_made : Run times (fresh times (diskAt 2)) made := by
  unfold made
  refine .step (.step (.step (.step (.step (.step run_e2 (.join _ ?_ ?_)) (.start _ ?_)) (.spawn _ ?_))
    (.commit _ ?_)) (.taskStore _ _ ?_)) (.taskReset _ _ ?_) <;> decide +kernel

example : made.disk.stored = [2] ∧ made.disk.pending = none ∧ made.disk.committed = 3 ∧
    made.started = [2] := by decide +kernel

/-- The hypotheses of `made_iff` are met by a run with a crash while the task is writing: the state
is resumed and completed. -/
def crashed : St := commit (spawn (start (join (swap times (e1 times (diskAt 2))))))

theorem reach_crashed : Reach times (Harmless times) (diskAt 2)
    (taskReset (taskStore (resume (fresh times crashed.disk)) 2) 2) := by
  have r : Run times (fresh times (diskAt 2)) crashed := by
    refine .step (.step (.step (.step run_e2 (.join _ ?_ ?_)) (.start _ ?_)) (.spawn _ ?_))
      (.commit _ ?_) <;> decide +kernel
  have h : Harmless times crashed := by
    intro x; exfalso; revert x; decide +kernel
  refine .step (.step (.step (.crash (reach_run .init r) h) (.resume _ rfl rfl)) (.taskStore _ _ ?_))
    (.taskReset _ _ ?_) <;> decide +kernel

example : (taskReset (taskStore (resume (fresh times crashed.disk)) 2) 2).disk.stored = [2] := by
  decide +kernel

/-- **Finding.** A crash after a key block was saved and before its persistent state was begun
(`prepare_block` stores it among the key blocks, `handle_block` compares with the last stored one):
the restarted node compares the block with itself, so its persistent state is never made. This
holds for every chain and every key block that has to have one. -/
theorem crash_after_save_loses_state (u : Nat → Nat) (k : Nat) (_h : Wanted u k) :
    ∃ s, Reach u (fun _ => True) (diskAt k) s ∧ s.disk.committed = k + 1 ∧
      k ∉ s.disk.stored ∧ s.disk.pending = none := by
  have r1 : Reach u (fun _ => True) (diskAt k) (e1 u (diskAt k)) := reach_run .init run_e1
  have r2 := Reach.crash r1 trivial
  have e : (e1 u (diskAt k)).disk = { diskAt k with saved := k + 1 } := by
    simp [e1, save, resume, fresh, diskAt]
  rw [e] at r2
  have r3 := reach_run r2 run_e2
  refine ⟨_, .step r3 (.commit _ ?_), ?_, ?_, ?_⟩
  · simp [swap, e1, save, resume, fresh, diskAt, lastSeen, computeIsPersistent]
  all_goals simp [commit, swap, e1, save, resume, fresh, diskAt, lastSeen, computeIsPersistent]

example : Wanted times 2 := by simp [Wanted, times]

/-- **Finding.** After a cold boot the key blocks newer than the one booted from are already stored.
The first key block processed is compared with the newest of them: here it is not wanted, and a
persistent state of it is made nevertheless. -/
theorem cold_boot_makes_unwanted :
    ∃ s, Reach times (fun _ => True) { diskAt 1 with saved := 3 } s ∧ 1 ∈ s.disk.begun ∧
      ¬ Wanted times 1 := by
  refine ⟨start (join (swap times (e1 times { diskAt 1 with saved := 3 }))),
    .step (.step (reach_run .init run_e2) (.join _ ?_ ?_)) (.start _ ?_), ?_, ?_⟩
  · decide +kernel
  · decide +kernel
  · decide +kernel
  · decide +kernel
  · simp [Wanted, times]

/-- **Finding.** And the other way round: the first key block processed after a cold boot has to have
a persistent state, a newer key block of the same interval is already stored, none is made. -/
theorem cold_boot_misses_wanted :
    ∃ s, Reach times (fun _ => True) { diskAt 2 with saved := 4 } s ∧ s.disk.committed = 3 ∧
      s.disk.pending = none ∧ 2 ∉ s.disk.stored ∧ Wanted times 2 := by
  refine ⟨commit (swap times (e1 times { diskAt 2 with saved := 4 })),
    .step (reach_run .init run_e2) (.commit _ ?_), ?_, ?_, ?_, ?_⟩
  · decide +kernel
  · decide +kernel
  · decide +kernel
  · decide +kernel
  · simp [Wanted, times]

end Tycho.PersistentSave
