import Verif.PeerSchedule.Local
import Verif.PeerSchedule.Stats
/-!
Concrete histories that meet the hypotheses of the theorems, and histories that show what the code does not promise.
-/
namespace Tycho.PeerSchedule

/-- Epochs of a small network: epoch `k` starts at `20 * (k + 1)`, with a rotating subset. -/
def exE (k : Nat) : Epoch := ⟨20 * (k + 1), [(k + 3, 2), (k + 1, 0), (k + 2, 1)]⟩

/-- What a node is given about the epochs `k` and `k + 1`. -/
def exGive (k : Nat) (next : List Peer) : InitPeers :=
  ⟨(exE k).start, [k + 1, k + 2, k + 3, 100], (exE k).sub, (exE (k + 1)).start, [k + 2, k + 3, k + 4, 100],
    (exE (k + 1)).sub, next⟩

theorem exE_chain : Chain exE := by
  refine ⟨fun k => ?_, fun k => ?_⟩
  · show 20 * (k + 1) < 20 * (k + 1 + 1); omega
  · simp [exE]

/-- A node starts at the epochs 0 and 1 (the genesis round is 10, its author 200) and knows the next validator set. -/
def exStart : List Act := [.init 10 200 (exGive 0 [3, 4, 5, 101])]

/-- Then peer 3 is found, epochs 1 and 2 are given, the round 65 is reached, and peer 4 is banned. -/
def exRest : List Act :=
  [.resolve 3 true, .pop 3, .applyResolved 3, .setPeers (exGive 1 []), .apply 45, .resolve 4 true, .pop 4,
    .applyResolved 4, .apply 65, .ban [4], .takeForget]

set_option maxRecDepth 20000 in
/-- The answers after the start. -/
example : ((Sched.new 2).run exStart).map (fun s => [s.atomic.peersOrderedFor 9, s.atomic.peersOrderedFor 25,
    s.atomic.peersOrderedFor 45, s.waiters, s.data.receivers]) =
      some [[200], [3, 1, 2], [4, 2, 3], [101, 5, 4, 100, 3, 1], []] := by decide +kernel

set_option maxRecDepth 20000 in
/-- The answers in the end: four epochs are known, the genesis is forgotten, keys are used in rounds of the subset. -/
example : ((Sched.new 2).run (exStart ++ exRest)).map (fun s => ([s.atomic.peersOrderedFor 9, s.atomic.peersOrderedFor 25,
    s.atomic.peersOrderedFor 59, s.atomic.peersOrderedFor 65, s.data.receivers, s.banned], s.atomic.isInActive 4)) =
      some ([[], [3, 1, 2], [4, 2, 3], [5, 3, 4], [3, 3], [4]], false) := by decide +kernel

set_option maxRecDepth 20000 in
/-- Use of the key around a switch: peer 2 is in the epoch 1 (up to the round 59) and not in the epoch 2. -/
example : ((Sched.new 2).run (exStart ++ exRest)).map (fun s => (s.atomic.keyGroup 58, s.atomic.keyGroup 59,
    s.atomic.keyGroup 60)) =
      some (⟨true, true, true⟩, ⟨true, false, false⟩, ⟨false, false, false⟩) := by decide +kernel

/-- `nodes_agree_on_peers` is about this history. -/
example : Gives exE 0 (exGive 0 [3, 4, 5, 101]) ∧ 10 + 1 < (exE 0).start ∧ Follows exE (0 + 1) exRest 2 := by
  refine ⟨⟨rfl, rfl, rfl, rfl⟩, by decide, ?_⟩
  have hend : Follows exE (max (0 + 1) (1 + 1)) [.apply 45, .resolve 4 true, .pop 4, .applyResolved 4, .apply 65,
      .ban [4], .takeForget] 2 := by
    refine .other _ _ _ _ (by simp) (by simp) (.other _ _ _ _ (by simp) (by simp) (.other _ _ _ _ (by simp) (by simp)
      (.other _ _ _ _ (by simp) (by simp) (.other _ _ _ _ (by simp) (by simp) (.other _ _ _ _ (by simp) (by simp)
      (.other _ _ _ _ (by simp) (by simp) (.nil _)))))))
  exact .other _ _ _ _ (by simp) (by simp) (.other _ _ _ _ (by simp) (by simp) (.other _ _ _ _ (by simp) (by simp)
    (.peers _ 1 _ _ _ ⟨rfl, rfl, rfl, rfl⟩ (by decide) hend)))

set_option maxRecDepth 20000 in
/-- `peers_of_round_stable` is about this history and the round 45: nothing is scheduled after the start; later epochs
start after it or are not newer than the current one. -/
example : ((Sched.new 2).run exStart).map (fun s => (s.atomic.starts.next, s.atomic.starts.curr)) = some (none, 40) ∧
    ∀ a ∈ exRest, ∀ n ∈ a.starts, n ≤ 40 ∨ 45 < n := by decide +kernel

set_option maxRecDepth 20000 in
/-- Statistics of an anchor are counted since the start of its epoch, and not near the end of the epoch. -/
example : ((Sched.new 2).run (exStart ++ exRest)).map (fun s => (s.atomic.statsSince 45 10, s.atomic.statsSince 50 10,
    s.atomic.slotMap 45)) = some (some 40, none, some [(2, 0), (3, 1), (4, 2)]) := by decide +kernel

set_option maxRecDepth 20000 in
/-- `banned_peer_not_used`, `banned_peer_gets_no_broadcasts`: peer 4 is a validator, reachable in the current subset,
and gets broadcasts, then it is banned and tries to come back. -/
example : ((Sched.new 2).run (exStart ++ exRest.take 8)).map (fun s => (s.data.receivers,
    Table.get s.data.active.curr 4, s.data.inAnyVset 4)) = some ([4, 3, 3], some true, true) ∧
    ((Sched.new 2).run (exStart ++ exRest.take 8 ++ [.ban [4], .apply 65, .resolve 4 true, .pop 4, .applyResolved 4])).map
      (fun s => (s.data.receivers, Table.get s.data.active.curr 4, s.atomic.isInActive 4, s.data.inAnyVset 4)) =
        some ([3, 3], some false, false, true) := by decide +kernel

set_option maxRecDepth 20000 in
/-- The ban is lifted: the peer is reachable at once. -/
example : ((Sched.new 2).run (exStart ++ exRest ++ [.unban [4]])).map (fun s => (s.data.receivers,
    Table.get s.data.active.curr 4, s.atomic.isInActive 4)) = some ([4, 3, 3], some true, true) := by decide +kernel

set_option maxRecDepth 20000 in
/-- `unresolved_validator_waited`: peer 4 after the start. -/
example : ((Sched.new 2).run exStart).map (fun s => (s.waiters.contains 4, s.resolved.contains 4, s.banned.contains 4,
    Table.get s.data.active.curr 4)) = some (true, false, false, some false) ∧
    ((Sched.new 2).run (exStart ++ [.resolve 4 true, .pop 4, .applyResolved 4])).map
      (fun s => (s.data.receivers, Table.get s.data.active.curr 4, s.sent)) =
        some ([4], some true, [(4, true)]) := by decide +kernel

set_option maxRecDepth 20000 in
/-- `gone_peers_reported`: peer 1 is a validator of the epoch 0, which is forgotten with the epoch 3. -/
example : ((Sched.new 2).run (exStart ++ exRest)).map (fun s => (s.data.inAnyVset 1, s.data.toForget)) =
      some (true, []) ∧
    ((Sched.new 2).run (exStart ++ exRest ++ [.setPeers (exGive 2 []), .apply 90])).map
      (fun s => (s.data.inAnyVset 1, s.data.toForget.contains 1)) = some (false, true) := by decide +kernel

/-! ### What is not promised -/

set_option maxRecDepth 20000 in
/-- **A banned peer may get broadcasts.** Peer 1 is in the previous subset only when it is banned: its entry is removed
from the overlay, but it remains among the receivers of broadcasts, because only the current and the scheduled subsets
are looked at (stateful.rs:66-90) and a rotation does not recompute the receivers (stateful.rs:157-191). -/
theorem banned_peer_may_get_broadcasts :
    ∃ (as : List Act) (s : Sched), (Sched.new 2).run as = some s ∧ 2 ∈ s.banned ∧ 2 ∉ s.entries ∧
      2 ∈ bannedAfter [] as ∧ 1 ∈ s.banned ∧ 1 ∉ s.entries ∧ 1 ∈ s.data.receivers := by
  refine ⟨[.init 10 200 ⟨5, [], [], 20, [1, 2, 3, 100], [(3, 2), (1, 0), (2, 1)], []⟩, .apply 20, .resolve 1 true,
    .pop 1, .applyResolved 1, .setPeers (exGive 0 []), .apply 45, .ban [1, 2]], ?_⟩
  exact ⟨_, rfl, by decide +kernel, by decide +kernel, by decide +kernel, by decide +kernel, by decide +kernel,
    by decide +kernel⟩

set_option maxRecDepth 20000 in
/-- **A found peer may stay unknown.** Peer 4 is found, but before the resolve task gets to it the task is restarted,
because another peer is banned; the new task does not wait for peers that are resolved already (impl_.rs:302-313).
Peer 4 is a peer of the current subset, is not banned, its address is known, and nobody waits for it; yet its state is
unknown and it gets no broadcasts. -/
theorem found_peer_may_stay_unknown :
    ∃ (as : List Act) (s : Sched), (Sched.new 2).run as = some s ∧ 4 ∈ s.entries ∧ 4 ∉ s.banned ∧ 4 ∈ s.resolved ∧
      Table.get s.data.active.curr 4 = some false ∧ 4 ∉ s.data.receivers ∧ 4 ∉ s.waiters ∧ 4 ∉ s.popped := by
  refine ⟨exStart ++ [.resolve 3 true, .pop 3, .applyResolved 3, .resolve 4 true, .ban [3]], ?_⟩
  exact ⟨_, rfl, by decide +kernel, by decide +kernel, by decide +kernel, by decide +kernel, by decide +kernel,
    by decide +kernel, by decide +kernel⟩

set_option maxRecDepth 20000 in
/-- **A peer may be reported although it has come back**: the next validator set is replaced twice in one call. -/
theorem reported_peer_may_be_known :
    ∃ (as : List Act) (s : Sched), (Sched.new 2).run as = some s ∧ 101 ∈ s.data.toForget ∧
      s.data.inAnyVset 101 = true ∧ 101 ∈ s.entries := by
  refine ⟨exStart ++ [.setPeers ⟨60, [5, 6], [(5, 0)], 80, [101], [(101, 0)], []⟩], ?_⟩
  exact ⟨_, rfl, by decide +kernel, by decide +kernel, by decide +kernel⟩

end Tycho.PeerSchedule
