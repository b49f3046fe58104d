import Verif.ActivePeers.Duo
/-! Cases that meet the hypotheses of the theorems about active connections. -/
namespace Tycho.ActivePeers
open Tycho.Table
open Tycho.Table (get)

/-- Node 5: a simultaneous dial with the smaller peer 3 (our own dial wins), one with the larger peer 9 (its dial wins),
a disconnect, and the ends of the handlers. -/
def demoOps : List Op :=
  [.add ⟨1, 3, .inb⟩, .tick 0, .add ⟨2, 3, .out⟩, .tick 0, .add ⟨3, 9, .inb⟩, .add ⟨4, 9, .out⟩, .tick 0, .ended ⟨1, 3, .inb⟩,
   .remove 3, .tick 0, .tick 0]

example : ((offered demoOps).map (·.id)).Nodup := by decide
example : (Peers.run 5 demoOps).conns = [(9, ⟨3, 9, .inb⟩)] ∧ (Peers.run 5 demoOps).closed = [1, 4, 2] ∧
    (Peers.run 5 demoOps).pend = [] ∧ (Peers.run 5 demoOps).len = 1 ∧
    (Peers.run 5 demoOps).events = [.new 3, .lost 3, .new 3, .new 9, .lost 3] ∧
    (Peers.run 5 demoOps).handlers = [⟨2, 3, .out⟩, ⟨3, 9, .inb⟩] := by decide
example : (⟨3, 9, .inb⟩ : Conn) ∈ (Peers.run 5 demoOps).handlers ∧ (⟨3, 9, .inb⟩ : Conn) ∈ offered demoOps := by decide
example : (Peers.run 5 (demoOps ++ [.ended ⟨2, 3, .out⟩, .ended ⟨3, 9, .inb⟩])).handlers = [] := by decide
/-- A subtraction still to be made. -/
example : (Peers.run 5 [.add ⟨1, 3, .inb⟩, .remove 3]).pend[1]? = some (.sub 3) := by decide

/-- Calls that do not overlap. -/
example : ∀ o ∈ [Op.add ⟨1, 3, .inb⟩, .add ⟨2, 3, .out⟩, .ended ⟨1, 3, .inb⟩, .remove 3], IsCall o := by
  simp [IsCall]
example : (Peers.run 5 (oneByOne [.add ⟨1, 3, .inb⟩, .add ⟨2, 3, .out⟩, .ended ⟨1, 3, .inb⟩, .remove 3])).events =
    [.new 3, .lost 3, .new 3, .lost 3] := by decide

/-- Nodes 2 and 1: node 1 dials twice, node 2 once. -/
def demoDuo : List DOp :=
  [.add true ⟨10, 1⟩, .add false ⟨10, 1⟩, .add true ⟨20, 2⟩, .ended false ⟨10, 1⟩, .add false ⟨11, 1⟩, .add true ⟨11, 1⟩,
   .add false ⟨20, 2⟩, .ended false ⟨11, 1⟩, .tick true 0]

example : ∀ b k, DOp.add b k ∈ demoDuo →
    (k.id = (⟨20, 2⟩ : Link).id → k = ⟨20, 2⟩) ∧ (k = ⟨20, 2⟩ ∨ k.dialer = min 2 1) := by
  intro b k h
  simp [demoDuo] at h
  rcases h with ⟨_, h⟩ | ⟨_, h⟩ | ⟨_, h⟩ | ⟨_, h⟩ | ⟨_, h⟩ | ⟨_, h⟩ <;> subst h <;> simp
example : (⟨20, 2⟩ : Link) ∈ (Duo.run (fun b => if b then 2 else 1) demoDuo true).added ∧
    (⟨20, 2⟩ : Link) ∈ (Duo.run (fun b => if b then 2 else 1) demoDuo false).added := by decide
example : (Duo.run (fun b => if b then 2 else 1) demoDuo false).peers.closed = [10, 11] := by decide

end Tycho.ActivePeers
