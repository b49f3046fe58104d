import Verif.Stats.Model

/-!
C09. Statistics are built from per-round counters by any mix of in-order additions and merges
(`Build`). `rounds` is the plain list of rounds that were put in.
-/
namespace Tycho.Stats

/-- The nine counters, by name. -/
inductive Field where
  | wasLeader | skippedRounds | validPoints | pointsProved | equivocated
  | transInvalidPoints | invalidPoints | illFormedPoints | referencesSkipped

def Counters.get (c : Counters) : Field → Nat
  | .wasLeader => c.wasLeader
  | .skippedRounds => c.skippedRounds
  | .validPoints => c.validPoints
  | .pointsProved => c.pointsProved
  | .equivocated => c.equivocated
  | .transInvalidPoints => c.transInvalidPoints
  | .invalidPoints => c.invalidPoints
  | .illFormedPoints => c.illFormedPoints
  | .referencesSkipped => c.referencesSkipped

/-- Any way to build an aggregate: start, add one round, note skipped references, merge two. -/
inductive Build where
  | new (round : Nat)
  | add (b : Build) (c : Counters)
  | skipped (b : Build) (value : Nat)
  | merge (a b : Build)

/-- The real result; `none` if some step is refused. -/
def Build.eval : Build → Option Stats
  | .new r => some (Stats.new r)
  | .add b c => b.eval.bind (fun s => s.addInOrder c)
  | .skipped b v => b.eval.map (fun s => s.addReferencesSkipped v)
  | .merge a b => a.eval.bind (fun s => b.eval.bind (fun o => s.mergeWith o))

/-- What was put in: rounds, and for each counter its total. -/
def Build.rounds : Build → List Nat
  | .new _ => []
  | .add b c => c.lastRound :: b.rounds
  | .skipped b _ => b.rounds
  | .merge a b => a.rounds ++ b.rounds

def Build.total (f : Field) : Build → Nat
  | .new _ => 0
  | .add b c => b.total f + c.get f
  | .skipped b v => match f with
    | .referencesSkipped => b.total f + v
    | _ => b.total f
  | .merge a b => a.total f + b.total f

theorem get_merge (a b : Counters) (f : Field) : (a.merge b).get f = satAdd (a.get f) (b.get f) := by
  cases f <;> rfl

theorem addInOrder_some {s : Stats} {c : Counters} {s' : Stats} (h : s.addInOrder c = some s') :
    s.firstRound ≤ c.lastRound ∧ s.cumulative.lastRound < c.lastRound ∧
    s' = { s with filledRounds := s.filledRounds + 1, cumulative := s.cumulative.merge c } := by
  unfold Stats.addInOrder Stats.rangeContains at h
  split at h
  · cases h
  · rename_i hc
    simp only [Bool.or_eq_true, decide_eq_true_eq, Bool.and_eq_true, not_or, not_and] at hc
    refine ⟨by omega, ?_, (Option.some.inj h).symm⟩
    have := hc.2 (by omega)
    omega

theorem mergeWith_some {s o r : Stats} (h : s.mergeWith o = some r) :
    (if s.firstRound < o.firstRound then s.cumulative.lastRound < o.firstRound
      else o.cumulative.lastRound < s.firstRound) ∧
    r = { firstRound := min s.firstRound o.firstRound
          filledRounds := s.filledRounds + o.filledRounds
          cumulative := s.cumulative.merge o.cumulative } := by
  unfold Stats.mergeWith Stats.rangeContains at h
  dsimp only at h
  by_cases hlt : s.firstRound < o.firstRound
  · rw [if_pos hlt] at h ⊢
    split at h
    · cases h
    · rename_i hc
      simp only [Bool.and_eq_true, decide_eq_true_eq, not_and] at hc
      have := hc (by omega)
      exact ⟨by omega, (Option.some.inj h).symm⟩
  · rw [if_neg hlt] at h ⊢
    split at h
    · cases h
    · rename_i hc
      simp only [Bool.and_eq_true, decide_eq_true_eq, not_and] at hc
      have := hc (by omega)
      exact ⟨by omega, (Option.some.inj h).symm⟩

/-- No round is counted twice, however the aggregate was built; the count is the number of rounds;
all rounds lie in the reported span, whose last round is the greatest one put in; every counter is
the saturated sum of what was put in. -/
theorem built_counts_each_round_once (b : Build) (s : Stats) (h : b.eval = some s) :
    b.rounds.Nodup ∧ s.filledRounds = b.rounds.length ∧
    (∀ r ∈ b.rounds, s.firstRound ≤ r ∧ r ≤ s.cumulative.lastRound) ∧
    (b.rounds ≠ [] → s.cumulative.lastRound ∈ b.rounds) ∧
    (b.rounds = [] → s.cumulative.lastRound = 0) ∧
    ∀ f, s.cumulative.get f = min (b.total f) 65535 := by
  induction b generalizing s with
  | new r =>
    cases h
    refine ⟨List.nodup_nil, rfl, by simp [Build.rounds], by simp [Build.rounds], fun _ => rfl, ?_⟩
    intro f
    cases f <;> rfl
  | add b c ih =>
    obtain ⟨s₀, h0, h1⟩ := Option.bind_eq_some_iff.1 h
    obtain ⟨i1, i2, i3, i4, i5, i6⟩ := ih s₀ h0
    obtain ⟨a1, a2, rfl⟩ := addInOrder_some h1
    refine ⟨?_, ?_, ?_, ?_, ?_, ?_⟩
    · simp only [Build.rounds, List.nodup_cons]
      refine ⟨?_, i1⟩
      intro hm
      have := i3 _ hm
      omega
    · simp [Build.rounds, i2]
    · intro r hr
      simp only [Build.rounds, List.mem_cons] at hr
      simp only [Counters.merge]
      rcases hr with rfl | hr
      · omega
      · have := i3 _ hr
        omega
    · intro _
      simp only [Build.rounds, Counters.merge]
      rw [Nat.max_eq_right (by omega)]
      exact List.mem_cons_self ..
    · intro hn; simp [Build.rounds] at hn
    · intro f
      simp only [get_merge, i6, satAdd, Build.total]
      omega
  | skipped b v ih =>
    obtain ⟨s₀, h0, h1⟩ := Option.map_eq_some_iff.1 h
    obtain ⟨i1, i2, i3, i4, i5, i6⟩ := ih s₀ h0
    subst h1
    refine ⟨i1, i2, i3, i4, i5, ?_⟩
    intro f
    have := i6 f
    cases f <;> simp only [Stats.addReferencesSkipped, Counters.get, Build.total, satAdd] at * <;>
      first | exact this | (split <;> omega)
  | merge a b iha ihb =>
    obtain ⟨s₁, h1, h2⟩ := Option.bind_eq_some_iff.1 h
    obtain ⟨s₂, h2, h3⟩ := Option.bind_eq_some_iff.1 h2
    obtain ⟨i1, i2, i3, i4, i5, i6⟩ := iha s₁ h1
    obtain ⟨j1, j2, j3, j4, j5, j6⟩ := ihb s₂ h2
    obtain ⟨m1, rfl⟩ := mergeWith_some h3
    have disj : ∀ r ∈ a.rounds, r ∉ b.rounds := by
      intro r hr hr'
      have h1 := i3 _ hr
      have h2 := j3 _ hr'
      split at m1 <;> omega
    refine ⟨?_, ?_, ?_, ?_, ?_, ?_⟩
    · simp only [Build.rounds]
      rw [List.nodup_append]
      refine ⟨i1, j1, ?_⟩
      intro x hx y hy hxy
      subst hxy
      exact disj x hx hy
    · simp [Build.rounds, i2, j2]
    · intro r hr
      simp only [Build.rounds, List.mem_append] at hr
      simp only [Counters.merge]
      rcases hr with hr | hr
      · have := i3 _ hr; omega
      · have := j3 _ hr; omega
    · intro hne
      simp only [Build.rounds, Counters.merge, List.mem_append]
      by_cases ha : a.rounds = []
      · have hb : b.rounds ≠ [] := by
          intro hb; apply hne; simp [Build.rounds, ha, hb]
        right
        rw [i5 ha, Nat.max_eq_right (Nat.zero_le _)]
        exact j4 hb
      · by_cases hb : b.rounds = []
        · left
          rw [j5 hb, Nat.max_eq_left (Nat.zero_le _)]
          exact i4 ha
        · rcases Nat.le_total s₁.cumulative.lastRound s₂.cumulative.lastRound with hle | hle
          · right; rw [Nat.max_eq_right hle]; exact j4 hb
          · left; rw [Nat.max_eq_left hle]; exact i4 ha
    · intro hn
      simp only [Build.rounds, List.append_eq_nil_iff] at hn
      simp only [Counters.merge, i5 hn.1, j5 hn.2]
      rfl
    · intro f
      simp only [get_merge, i6, j6, satAdd, Build.total]
      omega

/-- One more round is accepted exactly when it is not before the first round and after every round
already counted; a refused round changes nothing (no new state is produced). -/
theorem add_accepted_iff (b : Build) (s : Stats) (h : b.eval = some s) (c : Counters)
    (h0 : 0 < c.lastRound) :
    (s.addInOrder c).isSome ↔ s.firstRound ≤ c.lastRound ∧ ∀ r ∈ b.rounds, r < c.lastRound := by
  obtain ⟨_, _, i3, i4, i5, _⟩ := built_counts_each_round_once b s h
  constructor
  · intro hs
    obtain ⟨s', hs'⟩ := Option.isSome_iff_exists.1 hs
    obtain ⟨a1, a2, _⟩ := addInOrder_some hs'
    refine ⟨a1, ?_⟩
    intro r hr
    have := i3 r hr
    omega
  · rintro ⟨h1, h2⟩
    have hl : s.cumulative.lastRound < c.lastRound := by
      by_cases hb : b.rounds = []
      · rw [i5 hb]; exact h0
      · exact h2 _ (i4 hb)
    unfold Stats.addInOrder Stats.rangeContains
    rw [if_neg]
    · rfl
    · simp only [Bool.or_eq_true, decide_eq_true_eq, Bool.and_eq_true, not_or, not_and]
      omega

/-- Two non-empty aggregates merge exactly when their spans have no common round. -/
theorem merge_accepted_iff (s o : Stats) (hs : s.firstRound ≤ s.cumulative.lastRound)
    (ho : o.firstRound ≤ o.cumulative.lastRound) :
    (s.mergeWith o).isSome ↔
      ¬ ∃ r, (s.firstRound ≤ r ∧ r ≤ s.cumulative.lastRound) ∧
        (o.firstRound ≤ r ∧ r ≤ o.cumulative.lastRound) := by
  constructor
  · intro hm
    obtain ⟨r, hr⟩ := Option.isSome_iff_exists.1 hm
    obtain ⟨m1, _⟩ := mergeWith_some hr
    rintro ⟨x, hx⟩
    split at m1 <;> omega
  · intro hn
    unfold Stats.mergeWith Stats.rangeContains
    dsimp only
    rw [if_neg]
    · rfl
    · intro hc
      apply hn
      split at hc
      · simp only [Bool.and_eq_true, decide_eq_true_eq] at hc
        exact ⟨o.firstRound, by omega⟩
      · simp only [Bool.and_eq_true, decide_eq_true_eq] at hc
        exact ⟨s.firstRound, by omega⟩

theorem satAdd_comm (a b : Nat) : satAdd a b = satAdd b a := by unfold satAdd; omega
theorem satAdd_assoc (a b c : Nat) : satAdd (satAdd a b) c = satAdd a (satAdd b c) := by
  unfold satAdd; omega

theorem Counters.merge_comm (a b : Counters) : a.merge b = b.merge a := by
  unfold Counters.merge
  rw [Nat.max_comm]
  congr 1 <;> exact satAdd_comm _ _

theorem Counters.merge_assoc (a b c : Counters) : (a.merge b).merge c = a.merge (b.merge c) := by
  unfold Counters.merge
  dsimp only
  congr 1
  · omega
  all_goals exact satAdd_assoc _ _ _

/-- Merging two non-empty aggregates does not depend on the order. -/
theorem merge_comm (s o : Stats) (hs : s.firstRound ≤ s.cumulative.lastRound)
    (ho : o.firstRound ≤ o.cumulative.lastRound) : s.mergeWith o = o.mergeWith s := by
  have e : ∀ a b : Stats, (a.mergeWith b).isSome → a.mergeWith b = some
      { firstRound := min a.firstRound b.firstRound
        filledRounds := a.filledRounds + b.filledRounds
        cumulative := a.cumulative.merge b.cumulative } := by
    intro a b h
    obtain ⟨r, hr⟩ := Option.isSome_iff_exists.1 h
    rw [hr, (mergeWith_some hr).2]
  by_cases h : (s.mergeWith o).isSome
  · have h' : (o.mergeWith s).isSome := by
      rw [merge_accepted_iff o s ho hs]
      rw [merge_accepted_iff s o hs ho] at h
      rintro ⟨r, h1, h2⟩
      exact h ⟨r, h2, h1⟩
    rw [e _ _ h, e _ _ h', Nat.min_comm, Nat.add_comm, Counters.merge_comm]
  · have h' : ¬ (o.mergeWith s).isSome := by
      rw [merge_accepted_iff o s ho hs]
      rw [merge_accepted_iff s o hs ho] at h
      intro hn
      apply h
      rintro ⟨r, h1, h2⟩
      exact hn ⟨r, h2, h1⟩
    rw [Option.not_isSome_iff_eq_none] at h h'
    rw [h, h']

/-- Three aggregates give the same result whichever two are merged first, if both ways are accepted. -/
theorem merge_assoc (a b c ab bc r₁ r₂ : Stats) (h1 : a.mergeWith b = some ab)
    (h2 : ab.mergeWith c = some r₁) (h3 : b.mergeWith c = some bc) (h4 : a.mergeWith bc = some r₂) :
    r₁ = r₂ := by
  rw [(mergeWith_some h4).2, (mergeWith_some h3).2, (mergeWith_some h2).2, (mergeWith_some h1).2]
  simp only [Counters.merge_assoc, Nat.add_assoc]
  congr 1
  omega

/-- The empty case is not symmetric: an aggregate with no rounds is refused or accepted depending on
which side it is on (the code compares only first rounds). This is why `merge_comm` needs both
aggregates non-empty. -/
theorem merge_with_empty_not_symmetric :
    ∃ s o : Stats, (∃ b, Build.eval b = some s) ∧ (∃ b, Build.eval b = some o) ∧
      (s.mergeWith o).isSome ∧ o.mergeWith s = none := by
  refine ⟨⟨5, 1, { lastRound := 5 }⟩, Stats.new 5, ⟨.add (.new 5) { lastRound := 5 }, by decide⟩,
    ⟨.new 5, rfl⟩, by decide, by decide⟩

/-! Concrete case: rounds 3 and 5 merged with rounds 7 and 8. -/
def exBuild : Build := .merge
  (.skipped (.add (.add (.new 3) { lastRound := 3, validPoints := 2 }) { lastRound := 5, validPoints := 65534 }) 70000)
  (.add (.add (.new 6) { lastRound := 7, wasLeader := 1 }) { lastRound := 8, wasLeader := 1 })

def exCounters : Counters where
  lastRound := 8
  validPoints := 65535
  wasLeader := 2
  referencesSkipped := 65535

example : exBuild.eval = some ⟨3, 4, exCounters⟩ := by decide
example : exBuild.rounds = [5, 3, 8, 7] := rfl

end Tycho.Stats
