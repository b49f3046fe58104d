import Verif.McTracker.Props

namespace Tycho.McTracker
open Tycho.Table

/-- a handle at 10, one at 15; the drop of the first is half done -/
def exT : St := ((((St.init.insertRead 10).insertWrite 10).insertRead 15).insertWrite 15).removeRead 10

theorem exT_run : Run exT :=
  .step _ _ (.step _ _ (.step _ _ (.step _ _ (.step _ _ .init (.insertRead _ 10)) (.insertWrite _ 10 (by decide))) (.insertRead _ 15))
    (.insertWrite _ 15 (by decide))) (.removeRead _ 10 (by decide))

example : exT.seqno = some 10 ∧ exT.handles = [15] ∧ exT.removing = [10] := by decide

/-- a new handle at 10 in between: the drop leaves the entry -/
example : ((exT.insertRead 10).removeWrite 10).seqno = some 10 ∧ ((exT.insertRead 10).removeWrite 10).handles = [10, 15] ∧
    ((exT.insertRead 10).removeWrite 10).removing = [] := by decide

example : (exT.removeWrite 10).seqno = some 15 := by decide

example : ∃ a, exT.seqno = some a ∧ a ≤ 15 := seqno_le exT_run 15 (by decide)

example : Least (· ∈ (exT.removeWrite 10).handles) (exT.removeWrite 10).seqno :=
  seqno_exact (.step _ _ exT_run (.removeWrite _ 10 (by decide))) (by decide)

example : minSafe (some 7) (some 5) = some 5 ∧ minSafe none (some 5) = some 5 ∧ minSafe (some 5) none = some 5 := by decide

end Tycho.McTracker
