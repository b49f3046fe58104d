import Mathlib.Tactic.ByContra
import Mathlib.Data.List.Count
import Verif.RateLimit.Model

namespace Tycho.RateLimit

/-- How many of the times are from `a` to `b`. -/
def count (a b : Nat) (ts : List Nat) : Nat := ts.countP fun t => decide (a ≤ t) && decide (t ≤ b)

/-- The limit is kept: in any span of time no more than the burst and one for each interval. -/
def Within (l : Limit) (ts : List Nat) : Prop :=
  ∀ a b, a ≤ b → count a b ts ≤ l.burst + (b - a) / l.interval

theorem interval_pos (l : Limit) : 0 < l.interval := by unfold Limit.interval; dsimp only; omega

theorem interval_le {l : Limit} (h : l.WF) : l.interval ≤ 1000 := by
  unfold Limit.interval
  dsimp only
  have h0 := h.1
  have : (1000 + (if 1000 < l.rate then 1000 else l.rate) - 1) / (if 1000 < l.rate then 1000 else l.rate) ≤ 1000 := by
    split
    · decide
    · rw [Nat.div_le_iff_le_mul (by omega)]
      have := Nat.mul_le_mul_left 1000 h0
      omega
  omega

theorem tolerance_eq {l : Limit} (h : l.WF) : l.tolerance = l.interval * (l.burst - 1) := by
  unfold Limit.tolerance u64Max
  have h1 := Nat.mul_le_mul (interval_le h) (show l.burst - 1 ≤ 2 ^ 32 by have := h.2.2; omega)
  omega

theorem tolerance_lt {l : Limit} (h : l.WF) : l.tolerance ≤ 1000 * 2 ^ 32 := by
  rw [tolerance_eq h]
  exact Nat.mul_le_mul (interval_le h) (show l.burst - 1 ≤ 2 ^ 32 by have := h.2.2; omega)

theorem count_cons (a b t : Nat) (ts : List Nat) :
    count a b (t :: ts) = count a b ts + if a ≤ t ∧ t ≤ b then 1 else 0 := by
  unfold count
  rw [List.countP_cons]
  by_cases h : a ≤ t ∧ t ≤ b
  · simp [h]
  · rw [if_neg h, if_neg (by simpa using h)]

/-- Each granted in a span puts the arrival time later. -/
def Lower (l : Limit) (v : Nat) (ts : List Nat) : Prop :=
  ∀ a b, 0 < count a b ts → a + count a b ts * l.interval ≤ v

theorem Lower.mono {l : Limit} {v w : Nat} {ts : List Nat} (h : Lower l v ts) (hvw : v ≤ w) : Lower l w ts :=
  fun a b h0 => Nat.le_trans (h a b h0) hvw

theorem lower_claim {l : Limit} (hl : l.WF) {v now v' : Nat} {ts : List Nat} (h1 : Lower l v ts) (h2 : Within l ts)
    (hv : v ≤ now + l.tolerance) (hv' : max v now + l.interval ≤ v') :
    Lower l v' (now :: ts) ∧ Within l (now :: ts) := by
  rw [tolerance_eq hl] at hv
  have hb := hl.2.1
  constructor
  · intro a b h0
    rw [count_cons] at h0 ⊢
    by_cases hin : a ≤ now ∧ now ≤ b
    · rw [if_pos hin]
      rw [Nat.add_mul, Nat.one_mul]
      by_cases hz : count a b ts = 0
      · rw [hz]; omega
      · have := h1 a b (by omega); omega
    · rw [if_neg hin] at h0 ⊢
      rw [Nat.add_zero] at h0 ⊢
      have := h1 a b h0; omega
  · intro a b hab
    rw [count_cons]
    by_cases hin : a ≤ now ∧ now ≤ b
    · rw [if_pos hin]
      by_cases hz : count a b ts = 0
      · rw [hz]; exact Nat.le_trans (by omega) (Nat.le_add_right l.burst _)
      · have h3 := h1 a b (by omega)
        have h4 : (count a b ts - (l.burst - 1)) * l.interval ≤ b - a := by
          rw [Nat.sub_mul, Nat.mul_comm (l.burst - 1)]; omega
        have h5 := (Nat.le_div_iff_mul_le (interval_pos l)).mpr h4
        omega
    · rw [if_neg hin, Nat.add_zero]; exact h2 a b hab

theorem lower_nil (l : Limit) (v : Nat) : Lower l v [] := by intro a b h; simp [count] at h

theorem within_nil (l : Limit) : Within l [] := by intro a b _; simp [count]

/-- What is within the limit is within it without the newest. -/
theorem Within.tail {l : Limit} {t : Nat} {ts : List Nat} (h : Within l (t :: ts)) : Within l ts := by
  intro a b hab
  have := h a b hab
  rw [count_cons] at this
  omega

theorem nextTat_eq {l : Limit} (hl : l.WF) {tat now : Nat} (hn : now < 2 ^ 62) (ht : tat ≤ now + l.tolerance) :
    nextTat tat now l.interval = max tat now + l.interval := by
  unfold nextTat u64Max
  have := tolerance_lt hl
  have := interval_le hl
  omega

/-! ## A check -/

section
variable {K C : Type} [DecidableEq K] [DecidableEq C]

/-- What a check makes of a peer. -/
theorem check_cases (cfg : Config) (p : Peer C) (c : C) (l : Limit) (now : Nat) :
    (now < p.until_ ∧ p.check cfg c l now = ({ p with seen := now }, .reject (p.until_ - now))) ∨
    (p.until_ ≤ now ∧ ¬ now < (p.bucket c l).tat - (p.bucket c l).tolerance ∧
      (p.check cfg c l now).2 = .allow ∧ (p.check cfg c l now).1.seen = now ∧ (p.check cfg c l now).1.rejects = 0 ∧
      (p.check cfg c l now).1.until_ = p.until_ ∧
      (p.check cfg c l now).1.buckets = fun d => if d = c then
        some { p.bucket c l with tat := nextTat (p.bucket c l).tat now (p.bucket c l).interval } else p.buckets d) ∨
    (p.until_ ≤ now ∧ now < (p.bucket c l).tat - (p.bucket c l).tolerance ∧
      (p.check cfg c l now).1.seen = now ∧
      ((p.check cfg c l now).1.buckets = fun d => if d = c then some (p.bucket c l) else p.buckets d) ∧
      ((cfg.rejectsBefore ≤ min (p.rejects + 1) 255 ∧ (p.check cfg c l now).1.rejects = 0 ∧
        (p.check cfg c l now).1.until_ = max p.until_ (min (now + cfg.cooldown) u64Max) ∧
        (p.check cfg c l now).2 = .reject (if now < max p.until_ (min (now + cfg.cooldown) u64Max) then
          max p.until_ (min (now + cfg.cooldown) u64Max) - now else (p.bucket c l).tat - (p.bucket c l).tolerance - now)) ∨
       (¬ cfg.rejectsBefore ≤ min (p.rejects + 1) 255 ∧ (p.check cfg c l now).1.rejects = p.rejects + 1 ∧
        (p.check cfg c l now).1.until_ = p.until_ ∧
        (p.check cfg c l now).2 = .reject ((p.bucket c l).tat - (p.bucket c l).tolerance - now)))) := by
  by_cases h1 : now < p.until_
  · left
    refine ⟨h1, ?_⟩
    unfold Peer.check
    dsimp only
    rw [if_pos h1]
  · right
    have hb : ({ p with seen := now } : Peer C).bucket c l = p.bucket c l := rfl
    by_cases h2 : now < (p.bucket c l).tat - (p.bucket c l).tolerance
    · right
      unfold Peer.check
      dsimp only
      rw [if_neg h1, hb]
      have ht : (p.bucket c l).tryClaim now = (p.bucket c l, some ((p.bucket c l).tat - (p.bucket c l).tolerance)) := by
        unfold Bucket.tryClaim; rw [if_pos h2]
      rw [ht]
      dsimp only
      unfold Peer.registerRejection
      dsimp only
      by_cases h3 : cfg.rejectsBefore ≤ min (p.rejects + 1) 255
      · rw [if_pos h3]
        exact ⟨by omega, h2, rfl, rfl, .inl ⟨h3, rfl, rfl, rfl⟩⟩
      · rw [if_neg h3]
        refine ⟨by omega, h2, rfl, rfl, .inr ⟨h3, rfl, rfl, ?_⟩⟩
        dsimp only
        rw [if_neg h1]
    · left
      unfold Peer.check
      dsimp only
      rw [if_neg h1, hb]
      have ht : (p.bucket c l).tryClaim now =
          ({ p.bucket c l with tat := nextTat (p.bucket c l).tat now (p.bucket c l).interval }, none) := by
        unfold Bucket.tryClaim; rw [if_neg h2]
      rw [ht]
      exact ⟨by omega, h2, rfl, rfl, rfl, rfl, rfl⟩

/-- The limiter of a peer that a check uses: the one it had, or a new one. -/
theorem getPeer_cases (cfg : Config) (s : St K C) (k : K) (now : Nat) :
    (s.peers k = some (getPeer cfg (maybePrune cfg s now).peers k now) ∧
      now - (getPeer cfg (maybePrune cfg s now).peers k now).seen < cfg.ttl) ∨
    (getPeer cfg (maybePrune cfg s now).peers k now = Peer.new now ∧
      ∀ p, s.peers k = some p → cfg.ttl ≤ now - p.seen) := by
  have hg : ∀ m : K → Option (Peer C), (m k = s.peers k ∨ (m k = none ∧ ∀ p, s.peers k = some p → cfg.ttl ≤ now - p.seen)) →
      (s.peers k = some (getPeer cfg m k now) ∧ now - (getPeer cfg m k now).seen < cfg.ttl) ∨
      (getPeer cfg m k now = Peer.new now ∧ ∀ p, s.peers k = some p → cfg.ttl ≤ now - p.seen) := by
    intro m hm
    unfold getPeer
    rcases hm with hm | ⟨hm, hx⟩
    · rw [hm]
      cases hp : s.peers k with
      | none => right; exact ⟨rfl, fun p h => by cases h⟩
      | some p =>
        dsimp only
        unfold Peer.expired
        by_cases he : cfg.ttl ≤ now - p.seen
        · right
          simp only [he, decide_true, if_true]
          exact ⟨trivial, fun q hq => by cases hq; exact he⟩
        · left
          simp only [he, decide_false, Bool.false_eq_true, if_false]
          exact ⟨trivial, by omega⟩
    · rw [hm]; exact .inr ⟨rfl, hx⟩
  refine hg _ ?_
  unfold maybePrune
  split
  · exact .inl rfl
  · dsimp only
    unfold prune
    cases hp : s.peers k with
    | none => left; rfl
    | some p =>
      by_cases hk : (p.inCooldown now || !p.expired now cfg.ttl) = true
      · left; rw [Option.filter_some, if_pos hk]
      · right
        refine ⟨by rw [Option.filter_some, if_neg hk], fun q hq => ?_⟩
        cases hq
        simp only [Bool.not_eq_true, Bool.or_eq_false_iff, Bool.not_eq_false', Peer.expired, decide_eq_true_eq] at hk
        exact hk.2

/-- The limiters of the other peers stay, or are dropped when out of cooldown and expired. -/
theorem check_other (cfg : Config) (s : St K C) (k j : K) (c : C) (l : Limit) (now : Nat) (hj : j ≠ k) :
    (check cfg s k c l now).1.peers j = s.peers j ∨
    ((check cfg s k c l now).1.peers j = none ∧
      ∀ p, s.peers j = some p → cfg.ttl ≤ now - p.seen ∧ p.until_ ≤ now) := by
  unfold check
  dsimp only
  rw [if_neg hj]
  unfold maybePrune
  split
  · exact .inl rfl
  · dsimp only
    unfold prune
    cases hp : s.peers j with
    | none => left; rfl
    | some p =>
      by_cases hk : (p.inCooldown now || !p.expired now cfg.ttl) = true
      · left; rw [Option.filter_some, if_pos hk]
      · right
        refine ⟨by rw [Option.filter_some, if_neg hk], fun q hq => ?_⟩
        cases hq
        simp only [Bool.not_eq_true, Bool.or_eq_false_iff, Bool.not_eq_false', Peer.expired, Peer.inCooldown,
          decide_eq_true_eq, decide_eq_false_iff_not] at hk
        exact ⟨hk.2, by omega⟩

end

end Tycho.RateLimit
