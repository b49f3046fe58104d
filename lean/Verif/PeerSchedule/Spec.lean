import Verif.PeerSchedule.Model
/-!
What the schedule of peers has to answer, said without arrays and rotations: a list of epochs.
-/
namespace Tycho.PeerSchedule

/-- An epoch: the round it starts at, and its validator subset in the order of the shuffle, with validator indices. -/
structure Epoch where
  start : Round
  sub : List (Peer × Nat)
  deriving Repr, DecidableEq

/-- Peers of an epoch in order. -/
def Epoch.peers (e : Epoch) : List Peer := e.sub.map (·.1)

/-- The plan: epochs that were switched to, the newest first, and the epoch that is scheduled next. -/
structure Plan where
  applied : List Epoch
  next : Option Epoch
  deriving Repr, DecidableEq

/-- Start of the newest epoch that was switched to; 0 if there is none. -/
def Plan.currStart (p : Plan) : Round :=
  match p.applied with
  | [] => 0
  | e :: _ => e.start

/-- An epoch is scheduled: it replaces the one scheduled before. One that is not in the future of the current epoch, or
has no peers, is ignored. -/
def Plan.schedule (p : Plan) (e : Epoch) : Plan :=
  if e.start ≤ p.currStart ∨ e.sub.isEmpty then p else { p with next := some e }

/-- The node has reached a round: the scheduled epoch becomes current if it starts not later. -/
def Plan.reach (p : Plan) (round : Round) : Plan :=
  match p.next with
  | none => p
  | some e => if e.start ≤ round then ⟨e :: p.applied, none⟩ else p

/-- The epoch of a round: the newest one that starts not later, among the scheduled one and the last three. -/
def Plan.epochOf (p : Plan) (round : Round) : Option Epoch :=
  (p.next.toList ++ p.applied.take 3).find? (fun e => decide (e.start ≤ round))

/-- Peers in charge of a round. -/
def Plan.peersOf (p : Plan) (round : Round) : List Peer :=
  match p.epochOf round with
  | none => []
  | some e => e.peers

/-- What a call means to the plan. `init` takes the genesis pseudo epoch, the previous epoch unless the current one
starts right after genesis, and the current one; none of the latter starts before genesis is over. -/
def Plan.act (p : Plan) : Act → Plan
  | .init g a i =>
    let p1 := (p.schedule ⟨g - 1, [(a, 0)]⟩).reach (g - 1)
    let p2 := if g + 1 < i.currStart then
      (p1.schedule ⟨max i.prevStart (g + 1), i.prevSub⟩).reach (max i.prevStart (g + 1)) else p1
    let p3 := p2.schedule ⟨max i.currStart (g + 1), i.currSub⟩
    if i.nextVset.isEmpty then p3 else p3.reach (max i.currStart (g + 1))
  | .setPeers i =>
    let p1 := (p.schedule ⟨i.prevStart, i.prevSub⟩).reach i.prevStart
    let p2 := p1.schedule ⟨i.currStart, i.currSub⟩
    if i.nextVset.isEmpty then p2 else p2.reach i.currStart
  | .apply c => p.reach c
  | .applyLate c => p.reach c
  | _ => p

/-- A history of calls. -/
def Plan.run (p : Plan) (as : List Act) : Plan := as.foldl Plan.act p

/-- Nothing is known. -/
def Plan.empty : Plan := ⟨[], none⟩

/-- The plan with whole validator sets: those of the epochs that were switched to, the newest first, and the one that
is known to be next (possibly before its epoch is scheduled). -/
structure VPlan where
  plan : Plan
  vsets : List (List Peer)
  nextVset : List Peer
  deriving Repr, DecidableEq

/-- An epoch is scheduled together with its whole validator set. -/
def VPlan.schedule (p : VPlan) (v : List Peer) (e : Epoch) : VPlan :=
  if e.start ≤ p.plan.currStart ∨ e.sub.isEmpty then p else ⟨p.plan.schedule e, p.vsets, v⟩

/-- The node has reached a round. -/
def VPlan.reach (p : VPlan) (round : Round) : VPlan :=
  match p.plan.next with
  | none => p
  | some e => if e.start ≤ round then ⟨p.plan.reach round, p.nextVset :: p.vsets, []⟩ else p

/-- The current epoch, and the next validator set if it is known. -/
def VPlan.setCurr (p : VPlan) (start : Round) (i : InitPeers) : VPlan :=
  if i.nextVset.isEmpty then p.schedule i.currVset ⟨start, i.currSub⟩
  else { (p.schedule i.currVset ⟨start, i.currSub⟩).reach start with nextVset := i.nextVset }

/-- What a call means to the plan with validator sets. -/
def VPlan.act (p : VPlan) : Act → VPlan
  | .init g a i =>
    let p1 := (p.schedule [] ⟨g - 1, [(a, 0)]⟩).reach (g - 1)
    let p2 := if g + 1 < i.currStart then
      (p1.schedule i.prevVset ⟨max i.prevStart (g + 1), i.prevSub⟩).reach (max i.prevStart (g + 1)) else p1
    p2.setCurr (max i.currStart (g + 1)) i
  | .setPeers i => ((p.schedule i.prevVset ⟨i.prevStart, i.prevSub⟩).reach i.prevStart).setCurr i.currStart i
  | .apply c => p.reach c
  | .applyLate c => p.reach c
  | _ => p

/-- A history of calls. -/
def VPlan.run (p : VPlan) (as : List Act) : VPlan := as.foldl VPlan.act p

/-- Nothing is known. -/
def VPlan.empty : VPlan := ⟨.empty, [], []⟩

/-- Validators of the last three epochs and of the next set. -/
def VPlan.member (p : VPlan) (x : Peer) : Prop := x ∈ p.nextVset ∨ ∃ v ∈ p.vsets.take 3, x ∈ v

/-- Peers that are banned after a history. -/
def bannedAfter (b : List Peer) : List Act → List Peer
  | [] => b
  | .ban ps :: as => bannedAfter (ps ++ b) as
  | .unban ps :: as => bannedAfter (b.filter (fun p => !ps.contains p)) as
  | _ :: as => bannedAfter b as

end Tycho.PeerSchedule
