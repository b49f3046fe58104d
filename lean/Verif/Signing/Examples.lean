import Verif.Signing.Props

/-! Concrete runs, and the run in which a node signs two versions. -/
namespace Tycho.Signing.Ex

/-- At round 5, with a key, the clock at 100 and a skew of 10. -/
def ask : Ask := ⟨5, true, 100, 10⟩

/-- Two valid versions and an invalid one race; version 2 is first; version 1 is stored too. -/
def race : List Op :=
  [.start 1 true 100, .start 2 true 100, .start 3 false 100, .acquire1 2, .acquire1 1, .acquire1 3, .acquire2 1, .acquire2 3,
   .store 1, .store 1, .acquire2 2, .sign ask, .store 2, .resolve 1, .resolve 2, .sign ask, .store 3, .resolve 3]

def rec1 : Rec := ⟨1, true, 100, false⟩
def rec2 : Rec := ⟨2, true, 100, true⟩
def rec3 : Rec := ⟨3, false, 100, false⟩

/-- One restart, the records in an admissible order; then more requests, also from the next round. -/
def crash : List Op := race ++ .restart false [rec2, rec1, rec3] :: [.sign ask, .sign ⟨6, true, 101, 10⟩, .reject]

/-- Without a restart: one signature, of version 2, which acquired the location first. -/
example : (run 5 .new race).map Sys.signed = some [(2, 5)] := by decide +kernel
/-- The run after the restart signs the same version again. -/
example : (run 5 .new crash).map Sys.signed = some [(2, 5), (2, 5)] := by decide +kernel
/-- The hypotheses of `signs_one_version_one_restart` hold for it. -/
example : ∀ s, run 5 .new crash = some s → ∀ x ∈ s.signed, ∀ y ∈ s.signed, x.1 = y.1 :=
  fun s => signs_one_version_one_restart 5 race [.sign ask, .sign ⟨6, true, 101, 10⟩, .reject] false _ s
    (by decide) (by decide)
/-- A clean run with two restarts, one of which resets the statuses. -/
def twice : List Op := race ++ [.restart true [rec2], .sign ask, .start 1 true 100, .acquire1 1, .acquire2 1, .store 1,
  .restart true [rec2], .sign ask]
example : (run 5 .new twice).map Sys.signed = some [(2, 5), (2, 5), (2, 5)] := by decide +kernel
example : ∀ fix order, Op.restart fix order ∈ twice → fix = true := by
  intro f o h
  simp [twice, race] at h
  tauto

/-- A late request, two rounds after the point, is refused and stays so. -/
example : ((run 5 .new (race.take 15)).map fun s => (sign 5 s.loc ⟨7, true, 200, 10⟩).1) = some (some false) := by decide +kernel
/-- A request before the round comes, or for a time too far ahead, waits. -/
example : ((run 5 .new (race.take 15)).map fun s => (sign 5 s.loc ⟨4, true, 200, 10⟩).1) = some none := by decide +kernel
example : ((run 5 .new (race.take 15)).map fun s => (sign 5 s.loc ⟨5, true, 90, 10⟩).1) = some none := by decide +kernel
/-- The handler signs for the current round and for the previous one. -/
example : ((run 5 .new (race.take 15)).map fun s => (respond ⟨5, false, true, true, true, true, 100, 10⟩ 5 s.loc).1) =
    some .signature := by decide +kernel
example : ((run 5 .new (race.take 15)).map fun s => (respond ⟨6, false, true, true, true, true, 100, 10⟩ 5 s.loc).1) =
    some .signature := by decide +kernel
example : ((run 5 .new (race.take 15)).map fun s => (respond ⟨7, false, true, true, true, true, 100, 10⟩ 5 s.loc).1) =
    some .rejected := by decide +kernel

/-- Two crashes: version 1 acquires the location but is not stored when the node stops, version 2 is stored as valid without
the mark; the next life restores and signs version 2, does not write the mark, and stores version 1 as valid; the third life
restores version 1 before version 2. -/
def fork : List Op :=
  [.start 1 true 100, .start 2 true 100, .acquire1 1, .acquire1 2, .acquire2 2, .store 2,
   .restart false [⟨2, true, 100, false⟩], .sign ask,
   .start 1 true 100, .acquire1 1, .acquire2 1, .store 1,
   .restart false [⟨1, true, 100, false⟩, ⟨2, true, 100, false⟩], .sign ask]

end Tycho.Signing.Ex

namespace Tycho.Signing

/-- C20, the limit of the guarantee: with two restarts a node can sign two versions of one author and round, because a version
restored as the first valid one is not marked so in storage. So the hypothesis on restarts of `signs_one_version` is needed. -/
theorem two_restarts_sign_two_versions :
    ∃ ops s, run 5 .new ops = some s ∧ (∃ x ∈ s.signed, ∃ y ∈ s.signed, x.1 ≠ y.1) ∧
      (ops.filter isRestart).length = 2 := by
  have h : ((run 5 .new Ex.fork).map Sys.signed) = some [(1, 5), (2, 5)] := by decide +kernel
  cases hr : run 5 .new Ex.fork with
  | none => rw [hr] at h; simp at h
  | some s =>
    rw [hr] at h
    simp at h
    exact ⟨Ex.fork, s, hr, ⟨(1, 5), by simp [h], (2, 5), by simp [h], by decide⟩, by decide⟩

end Tycho.Signing
