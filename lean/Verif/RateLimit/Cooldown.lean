import Verif.RateLimit.More

namespace Tycho.RateLimit

variable {K C : Type} [DecidableEq K] [DecidableEq C]

/-! ## C175: the limit as it is configured -/

/-- The interval is the least number of milliseconds that keeps to the rate. -/
theorem interval_spec {l : Limit} (h : l.WF) (hr : l.rate ≤ 1000) :
    1000 ≤ l.rate * l.interval ∧ ∀ j, 1000 ≤ l.rate * j → l.interval ≤ j := by
  have h0 := h.1
  have he : l.interval = max ((1000 + l.rate - 1) / l.rate) 1 := by
    unfold Limit.interval; dsimp only; rw [if_neg (by omega)]
  have h1 : 1000 ≤ l.rate * ((1000 + l.rate - 1) / l.rate) := by
    have := Nat.div_add_mod (1000 + l.rate - 1) l.rate
    have := Nat.mod_lt (1000 + l.rate - 1) h0
    omega
  have h2 : 1 ≤ (1000 + l.rate - 1) / l.rate := (Nat.le_div_iff_mul_le h0).mpr (by omega)
  rw [he, Nat.max_eq_left h2]
  refine ⟨h1, fun j hj => ?_⟩
  rw [Nat.div_le_iff_le_mul h0]
  rw [Nat.mul_comm] at hj
  omega

/-- Within the limit: no more than the burst and what the rate gives in the time. -/
theorem within_rate {l : Limit} (h : l.WF) (hr : l.rate ≤ 1000) {ts : List Nat} (hw : Within l ts) (a b : Nat) (hab : a ≤ b) :
    count a b ts ≤ l.burst + (b - a) * l.rate / 1000 := by
  refine Nat.le_trans (hw a b hab) (Nat.add_le_add_left ?_ _)
  rw [Nat.le_div_iff_mul_le (by decide)]
  have h1 := (interval_spec h hr).1
  calc (b - a) / l.interval * 1000 ≤ (b - a) / l.interval * (l.rate * l.interval) := Nat.mul_le_mul_left _ h1
    _ = ((b - a) / l.interval * l.interval) * l.rate := by
      rw [Nat.mul_comm l.rate, Nat.mul_assoc]
    _ ≤ (b - a) * l.rate := Nat.mul_le_mul_right _ (Nat.div_mul_le_self _ _)

/-! ## C177: cooldown -/

/-- The requests of a peer, the newest first. -/
def mine (k : K) (h : List (Rec K C)) : List (Rec K C) := h.filter fun r => decide (r.key = k)

theorem mine_cons (k : K) (r : Rec K C) (h : List (Rec K C)) :
    mine k (r :: h) = if r.key = k then r :: mine k h else mine k h := by
  unfold mine
  by_cases hx : r.key = k
  · rw [if_pos hx, List.filter_cons_of_pos (by simpa using hx)]
  · rw [if_neg hx, List.filter_cons_of_neg (by simpa using hx)]

/-- The last `n` requests of the peer were rejected. -/
def LastRejected (n : Nat) (k : K) (h : List (Rec K C)) : Prop :=
  n ≤ (mine k h).length ∧ ∀ r ∈ (mine k h).take n, r.verdict ≠ .allow

theorem LastRejected.cons {n : Nat} {k : K} {h : List (Rec K C)} (hl : LastRejected n k h) {r : Rec K C}
    (hk : r.key = k) (hr : r.verdict ≠ .allow) : LastRejected (n + 1) k (r :: h) := by
  unfold LastRejected
  rw [mine_cons, if_pos hk, List.take_succ_cons, List.length_cons]
  refine ⟨Nat.succ_le_succ hl.1, fun x hx => ?_⟩
  rcases List.mem_cons.mp hx with rfl | hx
  · exact hr
  · exact hl.2 x hx

theorem LastRejected.mono {n m : Nat} {k : K} {h : List (Rec K C)} (hl : LastRejected n k h) (hm : m ≤ n) :
    LastRejected m k h :=
  ⟨Nat.le_trans hm hl.1, fun r hr => hl.2 r ((List.take_subset_take_left _ hm) hr)⟩

theorem lastRejected_zero (k : K) (h : List (Rec K C)) : LastRejected 0 k h := ⟨Nat.zero_le _, by simp⟩

theorem rejects_reach {cfg : Config} {lim : C → Limit} {s : St K C} {h : List (Rec K C)}
    (hr : Reach cfg lim s h) (k : K) (p : Peer C) (hp : s.peers k = some p) : LastRejected p.rejects k h := by
  induction hr generalizing k p with
  | new now => cases hp
  | @check s h k' c now h0 hc hn ih =>
    by_cases hk : k = k'
    · subst hk
      generalize hq : getPeer cfg.normalize (maybePrune cfg.normalize s now).peers k now = q
      have hqr : LastRejected q.rejects k h := by
        rcases getPeer_cases cfg.normalize s k now with ⟨g1, _⟩ | ⟨g1, _⟩
        · rw [hq] at g1; exact ih k q g1
        · rw [← hq, g1]; exact lastRejected_zero k h
      obtain ⟨e1, e2⟩ := check_eq cfg.normalize s k c (lim c) now hq
      rw [e1] at hp
      cases hp
      rcases check_cases cfg.normalize q c (lim c) now with ⟨g1, g2⟩ | ⟨g1, g2, g3, g4, g5, g6, g7⟩ | ⟨g1, g2, g3, g4, g5⟩
      · rw [e2, g2]
        exact (hqr.cons (r := ⟨k, c, now, _⟩) rfl (by simp)).mono (Nat.le_succ _)
      · rw [g5]; exact lastRejected_zero _ _
      · rcases g5 with ⟨_, j1, _, _⟩ | ⟨_, j1, _, j2⟩
        · rw [j1]; exact lastRejected_zero _ _
        · rw [j1, e2, j2]
          exact hqr.cons (r := ⟨k, c, now, _⟩) rfl (by simp)
    · have hm : ∀ n, LastRejected n k h → LastRejected n k
          (⟨k', c, now, (check cfg.normalize s k' c (lim c) now).2⟩ :: h) := by
        intro n hn'
        unfold LastRejected
        rw [mine_cons, if_neg (fun h => hk h.symm)]
        exact hn'
      rcases check_other cfg.normalize s k' k c (lim c) now hk with g | ⟨g, _⟩
      · rw [g] at hp; exact hm _ (ih k p hp)
      · rw [g] at hp; cases hp

/-- A peer is put into cooldown only when its last requests, as many as configured, were all rejected; then for
the cooldown from now. -/
theorem cooldown_begins {cfg : Config} {lim : C → Limit} (hl : ∀ c, (lim c).WF) (hcd : cfg.cooldown < 2 ^ 62) {s : St K C}
    {h : List (Rec K C)} (hr : Reach cfg lim s h) (k : K) (c : C) (now : Nat) (hc : ∀ r ∈ h, r.time ≤ now) (hn : now < 2 ^ 62)
    (hb : ∀ p, s.peers k = some p → p.until_ ≤ now) {p : Peer C}
    (hp : (check cfg.normalize s k c (lim c) now).1.peers k = some p) (hin : p.inCooldown now = true) :
    LastRejected cfg.normalize.rejectsBefore k (⟨k, c, now, (check cfg.normalize s k c (lim c) now).2⟩ :: h) ∧
    p.until_ = now + cfg.cooldown ∧ (check cfg.normalize s k c (lim c) now).2 = .reject cfg.cooldown := by
  generalize hq : getPeer cfg.normalize (maybePrune cfg.normalize s now).peers k now = q
  obtain ⟨n1, n2, n3, n4⟩ := normalize_facts cfg
  have hqf : LastRejected q.rejects k h ∧ q.until_ ≤ now ∧ q.rejects < cfg.normalize.rejectsBefore := by
    rcases getPeer_cases cfg.normalize s k now with ⟨g1, _⟩ | ⟨g1, _⟩
    · rw [hq] at g1
      exact ⟨rejects_reach hr k q g1, hb q g1, (pinv_reach hl hr hc k q g1).rejects⟩
    · rw [← hq, g1]; exact ⟨lastRejected_zero k h, Nat.zero_le _, n1⟩
  obtain ⟨hq1, hq2, hq3⟩ := hqf
  obtain ⟨e1, e2⟩ := check_eq cfg.normalize s k c (lim c) now hq
  rw [e1] at hp
  cases hp
  unfold Peer.inCooldown at hin
  rw [decide_eq_true_eq] at hin
  rcases check_cases cfg.normalize q c (lim c) now with ⟨g1, g2⟩ | ⟨g1, g2, g3, g4, g5, g6, g7⟩ | ⟨g1, g2, g3, g4, g5⟩
  · omega
  · rw [g6] at hin; omega
  · rcases g5 with ⟨j0, j1, j2, j3⟩ | ⟨_, _, j2, _⟩
    · rw [n4] at j2 j3
      have hu : max q.until_ (min (now + cfg.cooldown) u64Max) = now + cfg.cooldown := by unfold u64Max; omega
      rw [hu] at j2 j3
      rw [j2] at hin
      rw [if_pos hin, show now + cfg.cooldown - now = cfg.cooldown by omega] at j3
      rw [e2, j3]
      refine ⟨?_, j2, rfl⟩
      have : cfg.normalize.rejectsBefore = q.rejects + 1 := by omega
      rw [this]
      exact hq1.cons (r := ⟨k, c, now, _⟩) rfl (by simp)
    · rw [j2] at hin; omega

/-- In cooldown every request, of whatever class, is rejected till its end; that neither prolongs it nor counts. -/
theorem in_cooldown {cfg : Config} {lim : C → Limit} {s : St K C} {k : K} {p : Peer C} (hp : s.peers k = some p)
    {now : Nat} (hin : now < p.until_) (hx : now - p.seen < cfg.normalize.ttl) (c : C) :
    (check cfg.normalize s k c (lim c) now).2 = .reject (p.until_ - now) ∧
    (check cfg.normalize s k c (lim c) now).1.peers k = some { p with seen := now } := by
  have hq : getPeer cfg.normalize (maybePrune cfg.normalize s now).peers k now = p := by
    rcases getPeer_cases cfg.normalize s k now with ⟨g1, _⟩ | ⟨_, g2⟩
    · rw [hp] at g1; cases g1; rfl
    · have := g2 p hp; omega
  obtain ⟨e1, e2⟩ := check_eq cfg.normalize s k c (lim c) now hq
  rw [e1, e2]
  rcases check_cases cfg.normalize p c (lim c) now with ⟨g1, g2⟩ | ⟨g1, _⟩ | ⟨g1, _⟩
  · rw [g2]; exact ⟨rfl, rfl⟩
  · omega
  · omega

/-- Out of cooldown, a rejection counts one, or begins the cooldown if that makes as many as configured; a request that is allowed
clears the count. -/
theorem counting {cfg : Config} {lim : C → Limit} (hl : ∀ c, (lim c).WF) {s : St K C} {h : List (Rec K C)}
    (hr : Reach cfg lim s h) (hcd : cfg.cooldown < 2 ^ 62) {k : K} {p : Peer C} (hp : s.peers k = some p)
    {now : Nat} (hc : ∀ r ∈ h, r.time ≤ now) (hn : now < 2 ^ 62) (hin : p.until_ ≤ now) (hx : now - p.seen < cfg.normalize.ttl) (c : C) :
    ∃ q, (check cfg.normalize s k c (lim c) now).1.peers k = some q ∧
    ((check cfg.normalize s k c (lim c) now).2 = .allow → q.rejects = 0 ∧ q.until_ = p.until_) ∧
    ((check cfg.normalize s k c (lim c) now).2 ≠ .allow → p.rejects + 1 < cfg.normalize.rejectsBefore →
      q.rejects = p.rejects + 1 ∧ q.until_ = p.until_) ∧
    ((check cfg.normalize s k c (lim c) now).2 ≠ .allow → p.rejects + 1 = cfg.normalize.rejectsBefore →
      q.rejects = 0 ∧ q.until_ = now + cfg.cooldown) ∧ p.rejects + 1 ≤ cfg.normalize.rejectsBefore := by
  have hpr := (pinv_reach hl hr hc k p hp).rejects
  obtain ⟨n1, n2, n3, n4⟩ := normalize_facts cfg
  have hq : getPeer cfg.normalize (maybePrune cfg.normalize s now).peers k now = p := by
    rcases getPeer_cases cfg.normalize s k now with ⟨g1, _⟩ | ⟨_, g2⟩
    · rw [hp] at g1; cases g1; rfl
    · have := g2 p hp; omega
  obtain ⟨e1, e2⟩ := check_eq cfg.normalize s k c (lim c) now hq
  refine ⟨_, e1, ?_⟩
  rw [e2]
  rcases check_cases cfg.normalize p c (lim c) now with ⟨g1, _⟩ | ⟨g1, g2, g3, g4, g5, g6, g7⟩ | ⟨g1, g2, g3, g4, g5⟩
  · omega
  · exact ⟨fun _ => ⟨g5, g6⟩, fun h => absurd g3 h, fun h => absurd g3 h, by omega⟩
  · rcases g5 with ⟨j0, j1, j2, j3⟩ | ⟨j0, j1, j2, j3⟩
    · refine ⟨fun h => (by rw [j3] at h; cases h), fun _ _ => (by omega), fun _ _ => ⟨j1, ?_⟩, by omega⟩
      rw [j2, n4]; unfold u64Max; omega
    · exact ⟨fun h => (by rw [j3] at h; cases h), fun _ _ => ⟨j1, j2⟩, fun _ _ => (by omega), by omega⟩

end Tycho.RateLimit
