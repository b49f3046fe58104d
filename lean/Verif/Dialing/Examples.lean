import Verif.Dialing.Check
/-! Cases that meet the hypotheses of the theorems about the connection manager. -/
namespace Tycho.Dialing
open Tycho.Table Tycho.ActivePeers
open Tycho.Table (get)

def demoCfg : Cfg := ⟨5, 3, 10, 25, 2, some 2⟩

/-- A dial of peer 9 abandoned for its own dial, which the remote closes; another one of peer 3 that succeeds; the delayed
callback is resolved by a second connection of peer 9. -/
def demoOps : List Op :=
  [.connect 90 9 0, .incoming 90 9 100 (some .high), .connect 90 9 1, .connect 30 3 2, .cancelled 0, .finish 1 .closed,
   .finish 2 (.ok 101), .time 1, .incoming 90 9 102 none, .finish 3 (.ok 102), .connect 30 3 3]

example : ((St.run demoCfg demoOps).asked.map (·.1)).Nodup := by decide +kernel
example : (St.run demoCfg demoOps).answered =
    [(2, .ok ⟨101, 3, .out⟩), (0, .ok ⟨102, 9, .inb⟩), (1, .ok ⟨102, 9, .inb⟩), (3, .ok ⟨101, 3, .out⟩)] := by
  decide +kernel
example : (St.run demoCfg demoOps).tasks = [] ∧ (St.run demoCfg demoOps).exps = [] := by decide +kernel
/-- The delayed callbacks before they were resolved. -/
example : (St.run demoCfg (demoOps.take 6)).waiting = [2, 0, 1] ∧
    (St.run demoCfg (demoOps.take 6)).delayed = [⟨0, 9, 3, [0, 1]⟩] := by decide +kernel
example : (⟨0, 9, 3, [0, 1]⟩ : Delayed) ∈ (St.run demoCfg (demoOps.take 6 ++ [.time 3])).delayed ∧
    3 ≤ (St.run demoCfg (demoOps.take 6 ++ [.time 3])).now := by decide +kernel
/-- A task whose result ends an entry. -/
example : (⟨1, 90, 9, 1, .inb, false⟩ : Task) ∈ (St.run demoCfg (demoOps.take 5)).tasks ∧
    get (St.run demoCfg (demoOps.take 5)).pending 90 = some ⟨1, .inb, [0, 1], 1⟩ := by decide +kernel
/-- Addresses that belong to one peer. -/
example : ∀ o ∈ demoOps, Consistent (fun a => a / 10) o := by
  simp [demoOps, Consistent]

/-- Results in order: the abandoned task is cancelled before the next result of its address. -/
example : Fifo demoCfg (demoOps.take 6) := by
  intro l1 u o l2 e t ht hu t' ht' _
  have hl : l1.length = 5 := by
    have h1 : ∀ n (h : n < (demoOps.take 6).length), (∃ u o, (demoOps.take 6)[n] = Op.finish u o) → n = 5 := by
      intro n h ⟨u, o, he⟩
      have h2 : n < 6 := by simpa [demoOps] using h
      rcases n with _ | _ | _ | _ | _ | _ | n
      all_goals first | rfl | (simp [demoOps] at he; done) | omega
    have h3 : l1.length < (demoOps.take 6).length := by rw [e]; simp
    refine h1 l1.length h3 ⟨u, o, ?_⟩
    simp only [e]
    simp
  have h4 : l1 = demoOps.take 5 := by
    have := congrArg (List.take 5) e
    rw [List.take_append_of_le_length (by omega), ← hl, List.take_length, hl, List.take_take] at this
    exact this.symm
  subst h4
  have h5 : (St.run demoCfg (demoOps.take 5)).tasks =
      [⟨1, 90, 9, 1, .inb, false⟩, ⟨2, 30, 3, 0, .out, false⟩] := by decide +kernel
  have h6 : u = 1 := by
    have := congrArg (fun l => l[5]?) e
    simp [demoOps, List.getElem?_append_right] at this
    exact this.1.symm
  rw [h5] at ht ht'
  simp at ht ht'
  rcases ht with ht | ht <;> rcases ht' with ht' | ht' <;> subst ht <;> subst ht' <;> simp_all

/-- Two failures in a row of the dials of the check to peer 7, and the third dial not before its time. -/
def demoChecks : List Op :=
  [.check [⟨7, 70⟩, ⟨8, 80⟩, ⟨4, 40⟩] [0, 1, 2], .finish 0 .failed, .finish 1 (.ok 200), .time 5,
   .check [⟨7, 70⟩] [3], .time 11, .check [⟨7, 70⟩] [4], .finish 2 .failed, .time 1, .check [] []]

example : (failTimes demoCfg 7 demoChecks).2 = [17, 5] := by decide +kernel
example : get (St.run demoCfg demoChecks).backoff 7 = some ⟨37, 2⟩ ∧ get (St.run demoCfg demoChecks).backoff 8 = none := by
  decide +kernel
example : (St.run demoCfg demoChecks).asked = [(0, 7), (1, 8), (4, 7)] := by decide +kernel

end Tycho.Dialing
