import Verif.Downloader.Props

/-! Concrete downloads, and findings. -/
namespace Tycho.Downloader.Examples
open Tycho.Table

instance : ∀ (s : St) (e : Ev), Decidable (enabled s e)
  | s, .broadcast => inferInstanceAs (Decidable (s.result = none))
  | s, .depender _ => inferInstanceAs (Decidable (s.result = none))
  | s, .peer _ _ => inferInstanceAs (Decidable (s.result = none))
  | s, .answer p _ => inferInstanceAs (Decidable (s.result = none ∧ p ∈ s.downloading))
  | s, .parsed p _ => inferInstanceAs (Decidable (s.result = none ∧ s.slot = some p))
  | s, .tick => inferInstanceAs (Decidable (s.result = none ∧ s.slot = none))

/-- Runs a history, if each event can happen. -/
def runFrom (c : Cfg) (s : St) : List Ev → Option St
  | [] => some s
  | e :: l => if enabled s e then (step c s e).bind fun t => runFrom c t l else none

theorem reach_from {c : Cfg} : ∀ (l : List Ev) {h s t}, Reach c h s → runFrom c s l = some t → Reach c (h ++ l) t := by
  intro l
  induction l with
  | nil => intro h s t hR ht; cases ht; simpa using hR
  | cons e l ih =>
    intro h s t hR ht
    unfold runFrom at ht
    by_cases he : enabled s e
    · rw [if_pos he] at ht
      cases hs : step c s e with
      | none => rw [hs] at ht; cases ht
      | some u =>
        rw [hs] at ht
        have := ih (.step hR he hs) ht
        simpa using this
    · rw [if_neg he] at ht; cases ht

/-- Four peers to download from, one of which may be faulty. The author is 4. -/
def cfg : Cfg :=
  { want := 7, author := 4, signers := [(1, (true, 30)), (2, (true, 20)), (3, (true, 10)), (4, (true, 40))],
    authorState := (true, 40), count := ⟨1⟩, downloadPeers := 2 }

theorem cfg_wf : cfg.WF := by unfold Cfg.WF; decide

/-- What a history gives: the queries, and the outcome. -/
def runOf (c : Cfg) (l : List Ev) : Option (List Nat × List Nat × Nat × Option Result) :=
  (runFrom c (new c) l).map fun s => (s.sent, s.downloading, s.attempt, s.result)

/-- A peer has no point, one fails, one sends the point. -/
def good : List Ev :=
  [.tick, .answer 3 .definedNone, .tick, .answer 2 .network, .answer 1 .bytes, .parsed 1 (.point 7 true)]

theorem good_run : runOf cfg good = some ([3, 2, 1, 4], [4], 2, some (.verified 7)) := by decide +kernel

/-- Two peers deny the point. -/
def bad : List Ev := [.tick, .answer 3 .definedNone, .answer 2 .bytes, .parsed 2 (.point 8 true)]

theorem bad_run : runOf cfg bad = some ([3, 2, 1], [1], 1, some .notFound) := by decide +kernel

theorem reach_of {c : Cfg} {l : List Ev} {s : St} (h : runFrom c (new c) l = some s) : Reach c l s := by
  simpa using reach_from l .init h

theorem run_isSome {c : Cfg} {l r} (h : runOf c l = some r) : ∃ s, runFrom c (new c) l = some s ∧
    (s.sent, s.downloading, s.attempt, s.result) = r := by
  unfold runOf at h
  cases hs : runFrom c (new c) l with
  | none => rw [hs] at h; cases h
  | some s => rw [hs] at h; cases h; exact ⟨s, rfl, rfl⟩

/-- The hypotheses of the theorems are met. -/
example : ∃ s, Reach cfg good s ∧ s.result = some (.verified cfg.want) := by
  obtain ⟨s, h1, h2⟩ := run_isSome good_run
  refine ⟨s, reach_of h1, ?_⟩
  simp only [Prod.mk.injEq] at h2; exact h2.2.2.2

example : ∃ l : List Nat, l.Nodup ∧ 2 ≤ l.length ∧
    ∀ p ∈ l, p ∈ cfg.signers.map (·.1) ∧ ∃ e ∈ bad, Unavailable cfg p e := by
  obtain ⟨s, h1, h2⟩ := run_isSome bad_run
  simp only [Prod.mk.injEq] at h2
  exact notFound_sound cfg_wf (reach_of h1) h2.2.2.2

/-- A tick, with one query pending and four peers. -/
example : ∃ s, Reach cfg [.tick] s ∧ enabled s .tick ∧ (step cfg s .tick).isSome := by
  obtain ⟨s, h1, h2⟩ := run_isSome (c := cfg) (l := [.tick]) (r := ([3], [3], 1, none)) (by decide +kernel)
  simp only [Prod.mk.injEq] at h2
  have hs : s.slot = none := by
    have : (runFrom cfg (new cfg) [.tick]).map (·.slot) = some none := by decide +kernel
    rw [h1] at this; simpa using this
  exact ⟨s, reach_of h1, ⟨h2.2.2.2, hs⟩, no_panic cfg_wf (reach_of h1) ⟨h2.2.2.2, hs⟩⟩

/-- Finding: the author is no priority, although the comment of downloader.rs:166 says "point's author is a
top priority" — nothing tells its status from another's, and it is asked last here. -/
theorem author_not_first : runOf cfg [.tick, .tick] = some ([3, 2], [2, 3], 2, none) := by decide +kernel

/-- Finding: that a peer depends on the point counts less than having been asked before or having failed: a
depender that said "try later" is asked after everyone who has not been asked. -/
theorem depender_late :
    runOf cfg [.tick, .depender 3, .answer 3 .tryLater, .tick] = some ([3, 2, 1], [1, 2], 2, none) := by decide +kernel

/-- Finding: a failed peer may be asked again at once after a tick, if everyone else is waited for or out. -/
theorem failed_again :
    runOf { cfg with signers := [(1, (true, 30)), (2, (false, 20)), (3, (false, 10)), (4, (false, 40))], authorState := (false, 40) }
      [.tick, .answer 1 .network, .tick, .answer 1 .network, .tick] = some ([1, 1, 1], [1], 3, none) := by decide +kernel

/-- An author outside the validators of the next round is asked too, but its denial does not count. -/
theorem author_out :
    runOf { cfg with author := 9 , signers := [(1, (false, 30)), (2, (false, 20)), (3, (false, 10))] }
      [.tick, .answer 9 .definedNone, .peer 1 true, .tick, .answer 1 .definedNone] = some ([9, 1], [], 2, none) := by
  decide +kernel

end Tycho.Downloader.Examples
