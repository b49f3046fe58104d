import Verif.PersistentSave.Model

namespace Tycho.PersistentSave

/-- A key block has to have a persistent state: its time is in another 131072-second interval than
the time of the key block before it. -/
def Wanted (u : Nat → Nat) (k : Nat) : Prop :=
  u k / 131072 ≠ (if k = 0 then 0 else u (k - 1)) / 131072

/-- A node which has `c` key blocks behind it and nothing else on disk. -/
def diskAt (c : Nat) : Disk := { saved := c, committed := c, pending := none, stored := [], begun := [] }

/-- A crash here does no harm: not between saving a key block which has to have a persistent state
and remembering that block as pending. -/
def Harmless (u : Nat → Nat) (s : St) : Prop :=
  (s.phase = .saved ∨ s.phase = .waiting ∨ s.phase = .joined) → Wanted u s.disk.committed →
    s.disk.committed ∈ s.disk.begun

end Tycho.PersistentSave
