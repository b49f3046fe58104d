import Verif.RateLimit.Cooldown

/-! Cases meeting the hypotheses of the theorems, and what the code does that one might not expect. -/
namespace Tycho.RateLimit

/-- One request a second, two at once. -/
def lim1 : Unit → Limit := fun _ => ⟨1, 2⟩

theorem lim1_wf : ∀ c, (lim1 c).WF := fun _ => by unfold Limit.WF lim1; decide

/-- Checks at the given times, of the given peers; the newest last. -/
def run (cfg : Config) (lim : Unit → Limit) : List (Nat × Nat) → St Nat Unit × List (Rec Nat Unit)
  | [] => (⟨fun _ => none, 0⟩, [])
  | (k, t) :: l =>
    let r := run cfg lim l
    let x := check cfg.normalize r.1 k () (lim ()) t
    (x.1, ⟨k, (), t, x.2⟩ :: r.2)

theorem run_times (cfg : Config) (lim : Unit → Limit) (l : List (Nat × Nat)) :
    (run cfg lim l).2.map (·.time) = l.map (·.2) := by
  induction l with
  | nil => rfl
  | cons e l ih => simp [run, ih]

theorem run_reach (cfg : Config) (lim : Unit → Limit) (l : List (Nat × Nat))
    (hs : (l.map (·.2)).Pairwise (fun a b => b ≤ a)) (hb : ∀ t ∈ l.map (·.2), t < 2 ^ 62) :
    Reach cfg lim (run cfg lim l).1 (run cfg lim l).2 := by
  induction l with
  | nil => exact .new 0
  | cons e l ih =>
    obtain ⟨k, t⟩ := e
    simp only [List.map_cons, List.pairwise_cons, List.mem_cons, forall_eq_or_imp] at hs hb
    have := ih hs.2 hb.2
    refine this.check k () t (fun r hr => ?_) hb.1
    have hm : r.time ∈ (run cfg lim l).2.map (·.time) := List.mem_map_of_mem hr
    rw [run_times] at hm
    exact hs.1 _ hm

/-- Two rejections in a row lead to a cooldown of ten seconds; states are kept for a minute. -/
def cfg1 : Config := ⟨2, 10000, 30000, 60000⟩

def verdicts (cfg : Config) (lim : Unit → Limit) (l : List (Nat × Nat)) : List Verdict :=
  (run cfg lim l.reverse).2.reverse.map (·.verdict)

/-- Two at once are allowed, the third may be tried in a second, the fourth begins the cooldown. The other peer
is not concerned. -/
theorem normal : verdicts cfg1 lim1 [(7, 100000), (7, 100000), (7, 100000), (8, 100000), (7, 100500), (7, 101000), (7, 110500)] =
    [.allow, .allow, .reject 1000, .allow, .reject 10000, .reject 9500, .allow] := by decide

example : Reach cfg1 lim1 (run cfg1 lim1 [(7, 100500), (7, 100000), (7, 100000), (7, 100000)]).1
    (run cfg1 lim1 [(7, 100500), (7, 100000), (7, 100000), (7, 100000)]).2 := run_reach _ _ _ (by decide) (by decide)

example : (lim1 ()).burst * (lim1 ()).interval ≤ cfg1.normalize.ttl ∧ cfg1.cooldown ≤ cfg1.normalize.ttl ∧
    (lim1 ()).interval ≤ cfg1.cooldown := by decide

example : Within (lim1 ()) (times 7 () (run cfg1 lim1 [(7, 101000), (7, 100000), (7, 99000)]).2) := by
  have h : times 7 () (run cfg1 lim1 [(7, 101000), (7, 100000), (7, 99000)]).2 = [101000, 100000, 99000] := by decide
  rw [h]
  intro a b hab
  have hi : (lim1 ()).interval = 1000 := by decide
  have hb : (lim1 ()).burst = 2 := rfl
  rw [hi, hb]
  simp only [count_cons, show count a b [] = 0 from rfl]
  split <;> split <;> split <;> omega

/-! ### Claims at the same time -/

/-- Two claims load the same value: one is granted, the other loads again and is granted as well, as the burst allows; a
third is rejected. -/
theorem concurrent : ∃ s, Conc.Reach ⟨1, 2⟩ s ∧ s.granted = [5000, 5000] ∧ s.rejected = [5001] ∧ s.claims = [] := by
  refine ⟨⟨7000, [], [5000, 5000], [5001]⟩, ?_, rfl, rfl, rfl⟩
  have h0 : Conc.Reach ⟨1, 2⟩ {} := .new
  have h1 : Conc.Reach ⟨1, 2⟩ ⟨0, [⟨5000, 0⟩], [], []⟩ := h0.step (e := .load 5000) (fun _ h => by cases h; decide) (by decide)
  have h2 : Conc.Reach ⟨1, 2⟩ ⟨0, [⟨5000, 0⟩, ⟨5000, 0⟩], [], []⟩ :=
    h1.step (e := .load 5000) (fun _ h => by cases h; decide) (by decide)
  have h3 : Conc.Reach ⟨1, 2⟩ ⟨6000, [⟨5000, 0⟩], [5000], []⟩ :=
    h2.step (e := .round ⟨5000, 0⟩ false) (fun _ h => by cases h) (by decide)
  have h4 : Conc.Reach ⟨1, 2⟩ ⟨6000, [⟨5000, 6000⟩], [5000], []⟩ :=
    h3.step (e := .round ⟨5000, 0⟩ false) (fun _ h => by cases h) (by decide)
  have h5 : Conc.Reach ⟨1, 2⟩ ⟨7000, [], [5000, 5000], []⟩ :=
    h4.step (e := .round ⟨5000, 6000⟩ false) (fun _ h => by cases h) (by decide)
  have h6 : Conc.Reach ⟨1, 2⟩ ⟨7000, [⟨5001, 7000⟩], [5000, 5000], []⟩ :=
    h5.step (e := .load 5001) (fun _ h => by cases h; decide) (by decide)
  exact h6.step (e := .round ⟨5001, 7000⟩ false) (fun _ h => by cases h) (by decide)

/-! ### Findings -/

/-- A cooldown longer than the time states are kept is escaped by keeping silent: `peer` replaces an expired state even
in cooldown (`prune_expired` takes care to keep it). Here thirty seconds become one. -/
theorem cooldown_escaped : verdicts ⟨1, 30000, 30000, 1000⟩ lim1
    [(7, 100000), (7, 100000), (7, 100000), (7, 101000)] = [.allow, .allow, .reject 30000, .allow] := by decide

/-- While who keeps asking stays in it. -/
theorem cooldown_kept : verdicts ⟨1, 30000, 30000, 1000⟩ lim1
    [(7, 100000), (7, 100000), (7, 100000), (7, 100900), (7, 101800)] =
    [.allow, .allow, .reject 30000, .reject 29100, .reject 28200] := by decide

/-- States kept for less than the time of a burst let more through than the limit: here four within a second and a
half, where the limit is two at once and one a second. -/
theorem burst_again : verdicts ⟨5, 30000, 30000, 1000⟩ (fun _ => ⟨1, 2⟩)
    [(7, 100000), (7, 100500), (7, 101500), (7, 101500)] = [.allow, .allow, .allow, .allow] ∧
    ¬ Within ⟨1, 2⟩ [101500, 101500, 100500, 100000] := by
  refine ⟨by decide, fun h => ?_⟩
  have := h 100000 101500 (by decide)
  revert this
  decide

/-- Rates between 501 and 999 a second are served as 500: the interval is rounded up to whole milliseconds. -/
theorem rate_rounded (r b : Nat) (h1 : 500 < r) (h2 : r < 1000) : (Limit.mk r b).interval = (Limit.mk 500 b).interval := by
  unfold Limit.interval
  dsimp only
  rw [if_neg (by omega), if_neg (by omega)]
  have : (1000 + r - 1) / r = 2 := by
    rw [Nat.div_eq_iff (by omega)]
    omega
  rw [this]

/-- A cooldown shorter than the interval makes the time given too early. -/
theorem too_early : verdicts ⟨1, 10, 30000, 60000⟩ (fun _ => ⟨1, 1⟩)
    [(7, 100000), (7, 100000), (7, 100010)] = [.allow, .reject 10, .reject 10] := by decide

/-- A class keeps the limit it was first used with. -/
theorem first_limit (b : Bucket) (p : Peer Unit) (l l' : Limit) (h : p.buckets () = some b) :
    p.bucket () l = p.bucket () l' := by unfold Peer.bucket; rw [h]; rfl

end Tycho.RateLimit
