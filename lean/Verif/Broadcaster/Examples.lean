import Verif.Broadcaster.Round

/-! Concrete runs: the hypotheses of the theorems are met; and findings. -/
namespace Tycho.Broadcaster
open Tycho.Table

/-- `enabled`, computed. -/
def enabledB (s : St) : Ev → Bool
  | .start => s.phase == .idle
  | .status _ => s.phase == .run
  | .closed => s.phase == .run
  | .cont => s.phase == .idle || s.phase == .done
  | .tick => match s.phase with | .cont _ => true | _ => false
  | .bcastDone p _ => live s && decide (p ∈ s.bcasts)
  | .sigDone p after _ => live s && decide ((p, after) ∈ s.sigReqs)
  | .resolved _ => live s
  | .lost _ => live s
  | .cancelled => live s
where live (s : St) : Bool := match s.phase with | .run => true | .cont _ => true | _ => false

theorem liveB {s : St} (h : enabledB.live s = true) : s.live := by
  unfold enabledB.live at h; unfold St.live
  split at h <;> simp_all

theorem enabledB_sound {s : St} {e : Ev} (h : enabledB s e = true) : enabled s e := by
  cases e <;> simp only [enabledB, enabled, Bool.and_eq_true, Bool.or_eq_true, beq_iff_eq, decide_eq_true_eq] at h ⊢
  case tick =>
    split at h
    · rename_i b hb; exact ⟨b, hb⟩
    · cases h
  case bcastDone => exact ⟨liveB h.1, h.2⟩
  case sigDone => exact ⟨liveB h.1, h.2⟩
  case resolved => exact liveB h
  case lost => exact liveB h
  case cancelled => exact liveB h
  all_goals exact h

/-- Run a history, checking that every event can happen. -/
def runEvs (c : Cfg) (s : St) : List Ev → Option St
  | [] => some s
  | e :: l => if enabledB s e then (step c s e).bind (runEvs c · l) else none

theorem reach_run {c : Cfg} : ∀ (l h : List Ev) (s t : St), Reach c h s → runEvs c s l = some t → Reach c (h ++ l) t
  | [], h, s, t, hr, ht => by cases ht; simpa using hr
  | e :: l, h, s, t, hr, ht => by
    unfold runEvs at ht
    split at ht
    · rename_i he
      obtain ⟨u, h1, h2⟩ := Option.bind_eq_some_iff.mp ht
      have := reach_run l (h ++ [e]) u t (.step hr (enabledB_sound he) h1) h2
      simpa using this
    · cases ht

/-- Four validators, the author is 0; peers 8 and 9 are connected but do not sign. -/
def cfg : Cfg :=
  { author := 0, signers := [0, 1, 2, 3], receivers := [1, 2, 3, 8, 9], count := ⟨1⟩, minAttempts := 2,
    valid := fun p x => decide (x = 10 * p) }

example : cfg.WF := by constructor <;> decide +kernel

/-- Two signers sign and the run succeeds; peer 3 has no point yet and is asked again. -/
def good : List Ev :=
  [.start, .bcastDone 1 .ok, .bcastDone 2 .ok, .bcastDone 3 .network, .sigDone 1 true (.signature 10),
   .sigDone 2 true .noPoint, .status 2, .sigDone 2 false (.signature 20), .sigDone 3 false .noPoint, .status 3,
   .lost 3, .resolved 9, .closed, .cont]

example : ∃ s, Reach cfg good s ∧ s.evidence = some [(2, 20), (1, 10)] ∧ s.signals = [.ok] ∧
    s.phase = .cont 1 ∧ s.pending 3 = 1 ∧ s.removed = [3, 0] := by
  have h : (runEvs cfg (new cfg) good).isSome = true := by decide +kernel
  obtain ⟨s, hs⟩ := Option.isSome_iff_exists.mp h
  refine ⟨s, by simpa using reach_run good [] _ s .init hs, ?_⟩
  have : (runEvs cfg (new cfg) good).map (fun s => (s.evidence, s.signals, s.phase, s.pending 3, s.removed)) =
      some (some [(2, 20), (1, 10)], [.ok], .cont 1, 1, [3, 0]) := by decide +kernel
  rw [hs] at this
  simp only [Option.map_some, Option.some.injEq, Prod.mk.injEq] at this
  exact this

/-- In one attempt a peer may be sent three queries. -/
example : ((runEvs cfg (new cfg) [.start, .bcastDone 3 .network, .status 2, .sigDone 3 false .noPoint, .bcastDone 3 .ok]).map
    fun s => s.sent.countP (fun m => m.peer == 3)) = some 4 := by decide +kernel

/-- The hypotheses of `missing_point_sent` are met. -/
example : (runEvs cfg (new cfg) [.start, .bcastDone 3 .network, .status 2, .sigDone 3 false .noPoint]).map
    (fun s => s.sent.drop 5) = some [.sig 3, .bcast 3] := by decide +kernel

/-- FINDING. Two connected peers that are no signers and answer with garbage make the run fail,
although all the other signers have signed: malformed answers are counted for all receivers
(broadcaster.rs:333, 368), unlike refusals (414) and wrong signatures (388). -/
theorem nonsigners_fail_run :
    let h : List Ev := [.start, .bcastDone 1 .ok, .bcastDone 2 .ok, .bcastDone 3 .ok, .sigDone 1 true (.signature 10),
      .sigDone 2 true (.signature 20), .sigDone 3 true (.signature 30), .bcastDone 8 .tlError, .bcastDone 9 .tlError,
      .status 2]
    (runEvs cfg (new cfg) h).map (fun s => (s.signals, s.evidence)) =
      some ([.err], some [(3, 30), (2, 20), (1, 10)]) ∧ 8 ∉ cfg.signers ∧ 9 ∉ cfg.signers := by decide +kernel

/-- FINDING. A peer that signed may also count as refusing, after the counter of attempts wrapped
(or after it was connected again): the states listed in broadcaster.rs:153-159 do not exclude each
other. -/
theorem signed_and_refused :
    (runEvs cfg (new cfg) [.start, .bcastDone 1 .ok, .sigDone 1 true (.signature 10), .status 0, .bcastDone 1 .ok,
      .sigDone 1 true .rejected]).map (fun s => (s.sigs, s.rejections)) = some ([(1, 10)], [1]) := by decide +kernel

/-- FINDING. A connected peer that is no signer and whose broadcast failed is not sent the point
again: it is put among those to be asked for a signature, and then not asked. -/
theorem nonsigner_not_retried :
    (runEvs cfg (new cfg) [.start, .bcastDone 9 .network, .status 2, .status 3, .status 0]).map
      (fun s => (s.pending 9, s.sigPeers, s.sent.count (.bcast 9))) = some (0, [], 1) := by decide +kernel

/-! ## A round -/

/-- `renabled`, computed. -/
def renabledB (r : Round) : REv → Bool
  | .includes => r.col.fin == none && r.col.includes == false
  | .tick => r.col.fin == none
  | .signal x => r.col.fin == none && (r.col.bcasterOk == false && decide (x ∈ r.bc.signals))
  | .rounds _ _ => r.col.fin == none
  | .status => r.col.fin == none && (r.col.seen == false && enabledB r.bc (.status r.col.attempt))
  | .closed => r.col.fin != none && enabledB r.bc .closed
  | .other .closed => false
  | .other (.status _) => false
  | .other e => enabledB r.bc e

theorem renabledB_sound {r : Round} {e : REv} (h : renabledB r e = true) : renabled r e := by
  cases e with
  | other e =>
    refine ⟨enabledB_sound ?_, ?_, ?_⟩
    · cases e <;> first | exact h | cases h
    · rintro rfl; cases h
    · rintro a rfl; cases h
  | _ =>
    simp only [renabledB, Bool.and_eq_true, beq_iff_eq, bne_iff_ne, ne_eq, decide_eq_true_eq] at h
    first
      | exact h
      | exact ⟨h.1, h.2.1, enabledB_sound h.2.2⟩
      | exact ⟨h.1, enabledB_sound h.2⟩

/-- Run a history of a round. -/
def runR (c : Cfg) (n : Nat) (r : Round) : List REv → Option Round
  | [] => some r
  | e :: l => if renabledB r e then (rstep c n r e).bind (runR c n · l) else none

theorem rreach_run {c : Cfg} {n : Nat} : ∀ (l h : List REv) (s t : Round), RReach c n h s → runR c n s l = some t →
    RReach c n (h ++ l) t
  | [], h, s, t, hr, ht => by cases ht; simpa using hr
  | e :: l, h, s, t, hr, ht => by
    unfold runR at ht
    split at ht
    · rename_i he
      obtain ⟨u, h1, h2⟩ := Option.bind_eq_some_iff.mp ht
      have := rreach_run l (h ++ [e]) u t (.step hr (renabledB_sound he) h1) h2
      simpa using this
    · cases ht

/-- A round that succeeds. -/
def goodRound : List REv :=
  [.other .start, .tick, .status, .other (.bcastDone 1 .ok), .other (.bcastDone 2 .ok), .rounds 6 3,
   .other (.sigDone 1 true (.signature 10)), .includes, .other (.sigDone 2 true (.signature 20)), .tick, .status,
   .signal .ok, .closed]

example : ∃ r, RReach cfg 5 goodRound r ∧ r.col.fin = some .ready ∧ r.bc.phase = .done := by
  have h : (runR cfg 5 ⟨{}, new cfg⟩ goodRound).isSome = true := by decide +kernel
  obtain ⟨s, hs⟩ := Option.isSome_iff_exists.mp h
  refine ⟨s, by simpa using rreach_run goodRound [] _ s .init hs, ?_⟩
  have : (runR cfg 5 ⟨{}, new cfg⟩ goodRound).map (fun s => (s.col.fin, s.bc.phase)) =
      some (some .ready, .done) := by decide +kernel
  rw [hs] at this
  simp only [Option.map_some, Option.some.injEq, Prod.mk.injEq] at this
  exact this

end Tycho.Broadcaster
