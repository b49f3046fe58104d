import Verif.Bans.Props
/-!
Cases that meet the hypotheses.
-/
namespace Tycho.Bans
open Tycho.Table (get)

/-- Events of kind 0 are tolerated once in 5; others never. -/
def exCfg : Config := ⟨fun tag => if tag = 0 then ⟨10, some (5, 1)⟩ else ⟨20, none⟩, 60, 30⟩

theorem exCfg_valid : Valid exCfg := by
  refine ⟨?_, ?_, ?_, by decide⟩
  · intro tag; simp only [exCfg]; split <;> decide
  · intro tag; simp only [exCfg]; split <;> decide
  · intro tag w n h
    simp only [exCfg] at h ⊢
    split at h
    · simp only [Option.some.injEq, Prod.mk.injEq] at h; simp_all; omega
    · cases h

/-- Two events of peer 7 within the window, the second one waits for the lock while the user bans peer 8. -/
def exOps : List Op := [.setSchedule, .report 7 0, .recv, .handle, .flush, .restart 2, .setSchedule, .report 7 0, .recv, .tick 1,
  .manualBan 8 40]

example : (run exCfg 100 exOps).pend = some (7, 0, 103) := by decide +kernel
example : eventsOf (jour (run exCfg 100 exOps)) 7 0 = [(100, 1)] := by decide +kernel
example : tooMany (exCfg.of 0) ([(100, 1)] ++ [(103, 2)]) 103 := by
  intro w n h; simp only [exCfg] at h; simp only [if_true, Option.some.injEq, Prod.mk.injEq] at h; obtain ⟨rfl, rfl⟩ := h; decide
/-- The event before the restart counts. -/
example : get (run exCfg 100 (exOps ++ [.handle])).bans 7 = some 113 := by decide +kernel
example : get (run exCfg 100 (exOps ++ [.handle])).bans 8 = some 144 := by decide +kernel
/-- The record of the event is before that of the ban by hand, the ban for it after. -/
example : (jour (run exCfg 100 (exOps ++ [.handle]))).map (·.key) = [(100, 1), (103, 2), (104, 1), (104, 3)] := by decide +kernel
/-- Six after the first the window is over: no ban. -/
example : get (run exCfg 100 [.report 7 0, .recv, .handle, .tick 6, .report 7 0, .recv, .handle]).bans 7 = none := by decide +kernel

/-- A ban is lifted by its timer, not before it is over. -/
example : get (run exCfg 100 [.manualBan 8 5, .recv, .tick 4, .expire 8]).bans 8 = some 105 := by decide +kernel
example : get (run exCfg 100 [.manualBan 8 5, .recv, .tick 5, .expire 8]).bans 8 = none := by decide +kernel
example : (run exCfg 100 [.manualBan 8 5, .recv, .tick 5]).pend = none ∧ (run exCfg 100 [.manualBan 8 5, .recv, .tick 5]).chan = [] ∧
    get (run exCfg 100 [.manualBan 8 5, .recv, .tick 5]).bans 8 = some 105 := by decide +kernel
/-- A longer ban that comes on the way stays when the timer of the shorter one fires. -/
example : get (run exCfg 100 [.manualBan 8 5, .recv, .tick 5, .manualBan 8 9, .expire 8]).bans 8 = some 114 := by decide +kernel
example : get (run exCfg 100 [.manualBan 8 5, .recv, .tick 5, .manualBan 8 9, .expire 8, .recv, .tick 9, .expire 8]).bans 8 = none := by decide +kernel
/-- The user's turn. -/
example : get (run exCfg 100 [.manualBan 8 5, .askUnban 8, .recv, .recv]).bans 8 = none := by decide +kernel
example : (run exCfg 100 [.setSchedule, .manualBan 8 5]).net = some [(8, ())] := by decide +kernel

/-- A user who asks for an unban and sees a longer ban set before its turn still has a banned peer. -/
theorem unban_keeps_later_ban :
    get (run exCfg 100 [.manualBan 8 5, .recv, .askUnban 8, .manualBan 8 9, .recv, .recv]).bans 8 = some 109 := by decide +kernel

/-- A crash loses a ban that was not written; a written one is kept while it lasts. -/
theorem crash_loses_unwritten : get (run exCfg 100 [.manualBan 8 50, .restart 0]).bans 8 = none ∧
    get (run exCfg 100 [.manualBan 8 50, .flush, .restart 0]).bans 8 = some 150 ∧
    get (run exCfg 100 [.manualBan 8 50, .flush, .restart 49]).bans 8 = none := by decide +kernel

/-- A ban is not stored twice at a restart: the ban for an event is in the same message as the event. -/
example : (jour (run exCfg 100 [.report 7 1, .recv, .handle, .flush, .restart 0])).length = 2 := by decide +kernel

/-- If the event could be stored without its ban, a restart would ban again and write a second record: why both are one message. -/
example : (restoreLoop exCfg 101 [⟨(100, 1), 7, .event 1⟩]).temp = [(7, .new 120)] := by decide +kernel

/-- The order matters: a record that lifts a ban, put before the ban for an event, would lose it at a restart. -/
example : (restoreLoop exCfg 101 [⟨(100, 1), 7, .event 1⟩, ⟨(100, 2), 7, .banned 120⟩, ⟨(100, 3), 7, .unbanned⟩]).temp = [] := by decide +kernel

end Tycho.Bans
