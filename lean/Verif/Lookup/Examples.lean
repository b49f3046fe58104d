import Verif.Lookup.Props
import Verif.Lookup.Peers
import Verif.Dht.Examples

/-! Concrete lookups, and what a limit of steps depends on. -/
namespace Tycho.Lookup

open Tycho.Dht

def FV.run (localId : Id) (maxK : Nat) (s : FV) : List (Id × VResp) → Option FV
  | [] => some s
  | (p, r) :: rs => (FV.step localId maxK s p r).bind fun t => FV.run localId maxK t rs

def FP.run (localId : Id) (maxK : Nat) (maxDepth : Option Nat) (s : FP) : Resps → Option FP
  | [] => some s
  | (p, r) :: rs => (FP.step localId maxK maxDepth s p r).bind fun t => FP.run localId maxK maxDepth t rs

theorem FV.reach_run {localId target : Id} {maxK : Nat} {init : List Id} {s : FV} {h : List (Id × VResp)}
    (hr : FV.Reach localId target maxK init s h) (rs : List (Id × VResp))
    (hi : ∀ p nodes, (p, VResp.notFound nodes) ∈ rs → ∀ n ∈ nodes, IsId n.id) {t : FV} (ht : FV.run localId maxK s rs = some t) :
    FV.Reach localId target maxK init t (rs.reverse ++ h) := by
  induction rs generalizing s h with
  | nil => simp only [FV.run, Option.some.injEq] at ht; subst ht; exact hr
  | cons e rs ih =>
    obtain ⟨p, r⟩ := e
    unfold FV.run at ht
    cases hs : FV.step localId maxK s p r with
    | none => rw [hs] at ht; simp at ht
    | some u =>
      rw [hs, Option.bind_some] at ht
      have := ih (.step hr (fun nodes he => hi p nodes (by simp [he])) hs) (fun p nodes hm => hi p nodes (by simp [hm])) ht
      simpa using this

theorem FP.reach_run {localId target : Id} {maxK : Nat} {maxDepth : Option Nat} {init : List Id} {s : FP} {h : Resps}
    (hr : FP.Reach localId target maxK maxDepth init s h) (rs : Resps)
    (hi : ∀ p nodes, (p, some nodes) ∈ rs → ∀ n ∈ nodes, IsId n.id) {t : FP} (ht : FP.run localId maxK maxDepth s rs = some t) :
    FP.Reach localId target maxK maxDepth init t (rs.reverse ++ h) := by
  induction rs generalizing s h with
  | nil => simp only [FP.run, Option.some.injEq] at ht; subst ht; exact hr
  | cons e rs ih =>
    obtain ⟨p, r⟩ := e
    unfold FP.run at ht
    cases hs : FP.step localId maxK maxDepth s p r with
    | none => rw [hs] at ht; simp at ht
    | some u =>
      rw [hs, Option.bind_some] at ht
      have := ih (.step hr (fun nodes he => hi p nodes (by simp [he])) hs) (fun p nodes hm => hi p nodes (by simp [hm])) ht
      simpa using this

def nodeOf (n : Nat) (createdAt : Nat := 0) : Info := ⟨idOf n, createdAt, true, true⟩

/-- The peer is 200, the key 0, the first candidates 1 and 2. -/
def init2 : List Id := [idOf 1, idOf 2]

theorem init2_ids : ∀ p ∈ init2, IsId p := by
  intro p hp
  simp only [init2, List.mem_cons, List.not_mem_nil, or_false] at hp
  rcases hp with rfl | rfl <;> exact isId_idOf (by decide)

/-! ### find_value -/

def fvStart : FV := FV.start (idOf 200) (idOf 0) 8 init2

/-- 1 sends an invalid value, 2 names 3, the peer itself, the target, and a banned 4; 3 has the value. -/
def fvRun : List (Id × VResp) :=
  [(idOf 1, .found 7 false), (idOf 2, .notFound [nodeOf 3, nodeOf 200, nodeOf 0, ⟨idOf 4, 0, true, false⟩]), (idOf 3, .found 9 true)]

theorem fvRun_ids : ∀ p nodes, (p, VResp.notFound nodes) ∈ fvRun → ∀ n ∈ nodes, IsId n.id := by
  intro p nodes hm n hn
  simp only [fvRun, List.mem_cons, Prod.mk.injEq, reduceCtorEq, and_false, List.not_mem_nil, or_false, false_or,
    VResp.notFound.injEq] at hm
  obtain ⟨_, rfl⟩ := hm
  simp only [nodeOf, List.mem_cons, List.not_mem_nil, or_false] at hn
  rcases hn with rfl | rfl | rfl | rfl <;> exact isId_idOf (by decide)

example : fvStart.look.pending = [idOf 1, idOf 2] := by decide +kernel
example : (FV.run (idOf 200) 8 fvStart fvRun).bind FV.result = some (some 9) := by decide +kernel
example : (FV.run (idOf 200) 8 fvStart (fvRun.take 2)).map (·.look.pending) = some [idOf 3] := by decide +kernel
example : (FV.run (idOf 200) 8 fvStart (fvRun.take 2 ++ [(idOf 3, .failed)])).bind FV.result = some none := by decide +kernel
/-- The hypotheses of C178 hold of that run. -/
example : ∃ s, FV.Reach (idOf 200) (idOf 0) 8 init2 s fvRun.reverse ∧ s.result = some (some 9) := by
  have h1 : ((FV.run (idOf 200) 8 fvStart fvRun).bind FV.result) = some (some 9) := by decide +kernel
  cases hs : FV.run (idOf 200) 8 fvStart fvRun with
  | none => rw [hs] at h1; simp at h1
  | some s =>
    rw [hs, Option.bind_some] at h1
    exact ⟨s, by simpa using FV.reach_run (.start init2_ids) fvRun fvRun_ids hs, h1⟩

/-! ### find_peers -/

def fpStart : FP := FP.start (idOf 200) (idOf 0) 8 init2

/-- What each peer answers: 1 names 3, 3 names 4, 4 names 5, and 2 names 4 with a newer info. -/
def answerOf (p : Id) : Option (List Info) :=
  if p = idOf 1 then some [nodeOf 3]
  else if p = idOf 3 then some [nodeOf 4]
  else if p = idOf 4 then some [nodeOf 5]
  else if p = idOf 2 then some [nodeOf 4 1]
  else some []

def runOf (ps : List Nat) : Resps := ps.map fun n => (idOf n, answerOf (idOf n))

theorem runOf_ids (ps : List Nat) : ∀ p nodes, (p, some nodes) ∈ runOf ps → ∀ n ∈ nodes, IsId n.id := by
  intro p nodes hm n hn
  unfold runOf at hm
  obtain ⟨k, _, hk⟩ := List.mem_map.mp hm
  simp only [Prod.mk.injEq] at hk
  obtain ⟨_, hk⟩ := hk
  unfold answerOf at hk
  repeat' split at hk
  all_goals
    simp only [Option.some.injEq] at hk
    subst hk
    simp only [nodeOf, List.mem_cons, List.not_mem_nil, or_false] at hn
    try subst hn
  all_goals first | exact isId_idOf (by decide) | exact absurd hn id

/-- All are found without a limit, and the newer of two infos is in the result. -/
example : (FP.run (idOf 200) 8 none fpStart (runOf [1, 3, 4, 2, 5])).map (fun s => (s.look.pending, (s.result (idOf 4)).map (·.createdAt),
    (s.result (idOf 1)).isSome)) = some ([], some 1, false) := by decide +kernel

/-- With a limit of no step the first candidates are asked alone. -/
example : (FP.run (idOf 200) 8 (some 0) fpStart (runOf [1, 2])).map (·.look.pending) = some [] := by decide +kernel

/-- **A limit of steps depends on the order of the responses**: with the same answers of all peers and a limit of two steps,
the peer 5, two steps from the first candidates (2 names 4, 4 names 5), is asked or not asked: when 4 is found by the longer
way and answers before the shorter one is known, what it named stays at three steps. -/
theorem depth_limit_depends_on_order :
    (∃ s, FP.Reach (idOf 200) (idOf 0) 8 (some 2) init2 s (runOf [2, 4, 1, 3, 5]).reverse ∧ s.look.pending = [] ∧
      idOf 5 ∈ s.look.answered) ∧
    (∃ s, FP.Reach (idOf 200) (idOf 0) 8 (some 2) init2 s (runOf [1, 3, 4, 2]).reverse ∧ s.look.pending = [] ∧
      idOf 5 ∉ s.look.answered ∧ Hops init2 (runOf [1, 3, 4, 2]).reverse 2 (idOf 5)) := by
  constructor
  · have h1 : (FP.run (idOf 200) 8 (some 2) fpStart (runOf [2, 4, 1, 3, 5])).map
        (fun s => (decide (s.look.pending = []), decide (idOf 5 ∈ s.look.answered))) = some (true, true) := by decide +kernel
    cases hs : FP.run (idOf 200) 8 (some 2) fpStart (runOf [2, 4, 1, 3, 5]) with
    | none => rw [hs] at h1; simp at h1
    | some s =>
      rw [hs] at h1
      simp only [Option.map_some, Option.some.injEq, Prod.mk.injEq, decide_eq_true_eq] at h1
      exact ⟨s, by simpa using FP.reach_run (.start init2_ids) _ (runOf_ids _) hs, h1.1, h1.2⟩
  · have h1 : (FP.run (idOf 200) 8 (some 2) fpStart (runOf [1, 3, 4, 2])).map
        (fun s => (decide (s.look.pending = []), decide (idOf 5 ∈ s.look.answered))) = some (true, false) := by decide +kernel
    cases hs : FP.run (idOf 200) 8 (some 2) fpStart (runOf [1, 3, 4, 2]) with
    | none => rw [hs] at h1; simp at h1
    | some s =>
      rw [hs] at h1
      simp only [Option.map_some, Option.some.injEq, Prod.mk.injEq, decide_eq_true_eq, decide_eq_false_iff_not] at h1
      refine ⟨s, by simpa using FP.reach_run (.start init2_ids) _ (runOf_ids _) hs, h1.1, h1.2, ?_⟩
      have s1 : Hops init2 (runOf [1, 3, 4, 2]).reverse 1 (nodeOf 4 1).id :=
        .next (p := idOf 2) (nodes := [nodeOf 4 1]) (.first (by decide)) (by decide +kernel) (by decide +kernel) rfl
      exact .next (p := idOf 4) (nodes := [nodeOf 5]) (n := nodeOf 5) s1 (by decide +kernel) (by decide +kernel) rfl

/-- **The peer whose id is the key is never asked**, though it is named: it is in the result, but a value it has is not found
unless another peer has it. -/
theorem target_never_asked :
    ∃ s, FV.run (idOf 200) 8 fvStart [(idOf 1, .notFound [nodeOf 0]), (idOf 2, .notFound [nodeOf 0])] = some s ∧
      s.result = some none := by
  have h1 : (FV.run (idOf 200) 8 fvStart [(idOf 1, .notFound [nodeOf 0]), (idOf 2, .notFound [nodeOf 0])]).bind FV.result =
    some none := by decide +kernel
  cases hs : FV.run (idOf 200) 8 fvStart [(idOf 1, .notFound [nodeOf 0]), (idOf 2, .notFound [nodeOf 0])] with
  | none => rw [hs] at h1; simp at h1
  | some s => rw [hs, Option.bind_some] at h1; exact ⟨s, rfl, h1⟩

/-- **A banned peer is in the result** of `find_peers` once it is named, though it is not asked. -/
theorem banned_in_result :
    (FP.run (idOf 200) 8 none fpStart [(idOf 1, some [⟨idOf 4, 0, true, false⟩]), (idOf 2, some [])]).map
      (fun s => (s.look.pending, (s.result (idOf 4)).isSome)) = some ([], true) := by decide +kernel

end Tycho.Lookup
