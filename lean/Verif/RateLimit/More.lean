import Verif.RateLimit.Seq

namespace Tycho.RateLimit

variable {K C : Type} [DecidableEq K] [DecidableEq C]

/-- A check of a peer whose limiter is `q`. -/
theorem check_eq (cfg : Config) (s : St K C) (k : K) (c : C) (l : Limit) (now : Nat) {q : Peer C}
    (hq : getPeer cfg (maybePrune cfg s now).peers k now = q) :
    (check cfg s k c l now).1.peers k = some (q.check cfg c l now).1 ∧
    (check cfg s k c l now).2 = (q.check cfg c l now).2 := by
  unfold Tycho.RateLimit.check
  dsimp only
  rw [hq, if_pos rfl]
  exact ⟨rfl, rfl⟩

/-! ## C175: who keeps to the limit is not rejected -/

/-- How many are at `a` or later. -/
def since (a : Nat) (ts : List Nat) : Nat := ts.countP fun t => decide (a ≤ t)

theorem since_cons (a t : Nat) (ts : List Nat) : since a (t :: ts) = since a ts + if a ≤ t then 1 else 0 := by
  unfold since; rw [List.countP_cons]
  by_cases h : a ≤ t <;> simp [h]

/-- The arrival time is that of some request and one interval for each since. -/
def Upper (l : Limit) (tat : Nat) (ts : List Nat) : Prop :=
  tat = 0 ∨ ∃ t ∈ ts, tat ≤ t + since t ts * l.interval

theorem upper_claim {l : Limit} {tat now : Nat} {ts : List Nat} (h : Upper l tat ts) (hts : ∀ t ∈ ts, t ≤ now) :
    Upper l (max tat now + l.interval) (now :: ts) := by
  right
  by_cases hm : tat ≤ now
  · refine ⟨now, List.mem_cons_self, ?_⟩
    rw [since_cons, if_pos (Nat.le_refl _), Nat.add_mul, Nat.one_mul]
    have : max tat now = now := by omega
    rw [this]
    have := Nat.zero_le (since now ts * l.interval)
    omega
  · rcases h with h | ⟨t, ht, h⟩
    · omega
    · refine ⟨t, List.mem_cons_of_mem _ ht, ?_⟩
      rw [since_cons, if_pos (hts t ht), Nat.add_mul, Nat.one_mul]
      omega

theorem count_since {a now : Nat} {ts : List Nat} (hts : ∀ t ∈ ts, t ≤ now) : count a now ts = since a ts := by
  unfold count since
  refine List.countP_congr (fun t ht => ?_)
  simp [hts t ht]

theorem upper_granted {l : Limit} (hl : l.WF) {tat now : Nat} {ts : List Nat} (h : Upper l tat ts)
    (hts : ∀ t ∈ ts, t ≤ now) (hw : Within l (now :: ts)) : tat ≤ now + l.tolerance := by
  rcases h with h | ⟨t, ht, h⟩
  · omega
  · rw [tolerance_eq hl]
    have h1 := hw t now (hts t ht)
    rw [count_cons, if_pos ⟨hts t ht, Nat.le_refl _⟩, count_since hts] at h1
    have h2 : (since t ts - (l.burst - 1)) ≤ (now - t) / l.interval := by
      have := hl.2.1
      generalize (now - t) / l.interval = x at h1 ⊢
      omega
    have h3 := (Nat.le_div_iff_mul_le (interval_pos l)).mp h2
    rw [Nat.sub_mul, Nat.mul_comm (l.burst - 1)] at h3
    have := hts t ht
    omega

theorem conform_aux {cfg : Config} {lim : C → Limit} (hl : ∀ c, (lim c).WF) {s : St K C} {h : List (Rec K C)}
    (hr : Reach cfg lim s h) (k : K) (hw : ∀ c, Within (lim c) (times k c h)) :
    (∀ r ∈ h, r.key = k → r.verdict = .allow) ∧
    ∀ p, s.peers k = some p → p.rejects = 0 ∧ p.until_ = 0 ∧
      ∀ c b, p.buckets c = some b → Upper (lim c) b.tat (times k c h) := by
  induction hr with
  | new now => exact ⟨by simp, fun p hp => by cases hp⟩
  | @check s h k' c now h0 hc hn ih =>
    have htail : ∀ d, Within (lim d) (times k d h) := by
      intro d
      have := hw d
      rw [times_cons] at this
      split at this
      · exact this.tail
      · exact this
    obtain ⟨i1, i2⟩ := ih htail
    have htime : ∀ d, ∀ t ∈ times k d h, t ≤ now := by
      intro d t ht
      obtain ⟨r, hr, rfl⟩ := List.mem_map.mp ht
      exact hc r (List.mem_filter.mp hr).1
    by_cases hk : k = k'
    · subst hk
      generalize hq : getPeer cfg.normalize (maybePrune cfg.normalize s now).peers k now = q
      have hqf : PInv cfg.normalize lim now q ∧ q.until_ = 0 ∧
          ∀ d b, q.buckets d = some b → Upper (lim d) b.tat (times k d h) := by
        rcases getPeer_cases cfg.normalize s k now with ⟨h1, _⟩ | ⟨h1, _⟩
        · rw [hq] at h1
          exact ⟨pinv_reach hl h0 hc k _ h1, (i2 q h1).2.1, (i2 q h1).2.2⟩
        · rw [← hq, h1]
          exact ⟨pinv_new (normalize_facts cfg).1 now, rfl, fun d b hb => by cases hb⟩
      obtain ⟨g1, g2, g3⟩ := hqf
      obtain ⟨e1, e2⟩ := check_eq cfg.normalize s k c (lim c) now hq
      obtain ⟨f1, f2, _⟩ := bucket_facts g1 c
      have hup : Upper (lim c) (q.bucket c (lim c)).tat (times k c h) := by
        unfold Peer.bucket
        cases hb : q.buckets c with
        | none => exact .inl rfl
        | some b => exact g3 c b hb
      have hwc := hw c
      rw [times_cons, if_pos ⟨rfl, rfl⟩] at hwc
      have hgr := upper_granted (hl c) hup (htime c) hwc
      rcases check_cases cfg.normalize q c (lim c) now with ⟨h1, _⟩ | ⟨h1, h2, h3, h4, h5, h6, h7⟩ | ⟨_, h2, _⟩
      · omega
      · refine ⟨fun r hr hrk => ?_, fun p hp => ?_⟩
        · rcases List.mem_cons.mp hr with rfl | hr
          · dsimp only; rw [e2, h3]
          · exact i1 r hr hrk
        · rw [e1] at hp
          cases hp
          refine ⟨h5, by rw [h6, g2], fun d b hb => ?_⟩
          rw [h7] at hb
          rw [times_cons]
          by_cases hd : d = c
          · subst hd
            simp only [if_true, Option.some.injEq] at hb
            subst hb
            rw [if_pos ⟨rfl, rfl⟩]
            dsimp only
            rw [f1, nextTat_eq (hl d) hn hgr]
            exact upper_claim hup (htime d)
          · simp only [hd, if_false] at hb
            rw [if_neg (fun h => hd h.2.symm)]
            exact g3 d b hb
      · rw [f2] at h2; omega
    · refine ⟨fun r hr hrk => ?_, fun p hp => ?_⟩
      · rcases List.mem_cons.mp hr with rfl | hr
        · exact absurd hrk.symm hk
        · exact i1 r hr hrk
      · rcases check_other cfg.normalize s k' k c (lim c) now hk with h1 | ⟨h1, _⟩
        · rw [h1] at hp
          obtain ⟨j1, j2, j3⟩ := i2 p hp
          refine ⟨j1, j2, fun d b hb => ?_⟩
          rw [times_cons, if_neg (fun h => hk h.1.symm)]
          exact j3 d b hb
        · rw [h1] at hp; cases hp

/-- Whoever keeps to the limits is never rejected, whatever the others do. -/
theorem conforming_allowed {cfg : Config} {lim : C → Limit} (hl : ∀ c, (lim c).WF) {s : St K C} {h : List (Rec K C)}
    (hr : Reach cfg lim s h) (k : K) (hw : ∀ c, Within (lim c) (times k c h)) :
    ∀ r ∈ h, r.key = k → r.verdict = .allow := (conform_aux hl hr k hw).1

/-! ## C176: when to try again -/

/-- More checks after a state. -/
inductive Later (cfg : Config) (lim : C → Limit) (s : St K C) (h : List (Rec K C)) : St K C → List (Rec K C) → Prop
  | refl : Later cfg lim s h s h
  | check {s' h'} (k : K) (c : C) (now : Nat) : Later cfg lim s h s' h' → (∀ r ∈ h', r.time ≤ now) → now < 2 ^ 62 →
      Later cfg lim s h (check cfg.normalize s' k c (lim c) now).1
        (⟨k, c, now, (check cfg.normalize s' k c (lim c) now).2⟩ :: h')

theorem Later.reach {cfg : Config} {lim : C → Limit} {s s' : St K C} {h h' : List (Rec K C)} (hr : Reach cfg lim s h)
    (hl : Later cfg lim s h s' h') : Reach cfg lim s' h' := by
  induction hl with
  | refl => exact hr
  | check k c now _ h1 h2 ih => exact ih.check k c now h1 h2

/-- Requests of the peer in the class are rejected before `u`. -/
def Blocked (lim : C → Limit) (ttl : Nat) (k : K) (c : C) (u : Nat) (s : St K C) : Prop :=
  ∃ p, s.peers k = some p ∧ u ≤ p.seen + ttl ∧
    (u ≤ p.until_ ∨ ∃ b, p.buckets c = some b ∧ u ≤ b.tat - (lim c).tolerance)

theorem burst_tol {l : Limit} (hl : l.WF) : l.burst * l.interval = l.tolerance + l.interval := by
  rw [tolerance_eq hl]
  have hb := hl.2.1
  rw [Nat.mul_comm]
  conv => lhs; rw [show l.burst = (l.burst - 1) + 1 by omega]
  rw [Nat.mul_add, Nat.mul_one]

theorem blocked_step {cfg : Config} {lim : C → Limit} (hl : ∀ c, (lim c).WF) {s : St K C} {h : List (Rec K C)}
    (hr : Reach cfg lim s h) {k : K} {c : C} {u : Nat} (hb : Blocked lim cfg.normalize.ttl k c u s) (k' : K) (c' : C) (now : Nat)
    (hc : ∀ r ∈ h, r.time ≤ now) (hn : now < 2 ^ 62) (hu : now < u) :
    Blocked lim cfg.normalize.ttl k c u (check cfg.normalize s k' c' (lim c') now).1 ∧
    (k' = k → c' = c → (check cfg.normalize s k' c' (lim c') now).2 ≠ .allow) := by
  obtain ⟨p, hp, h1, h2⟩ := hb
  have hpi := pinv_reach hl hr hc k p hp
  have hnoexp : ¬ cfg.normalize.ttl ≤ now - p.seen := by have := (normalize_facts cfg).2.2.1; omega
  by_cases hk : k = k'
  · subst hk
    have hq : getPeer cfg.normalize (maybePrune cfg.normalize s now).peers k now = p := by
      rcases getPeer_cases cfg.normalize s k now with ⟨g1, _⟩ | ⟨_, g2⟩
      · rw [hp] at g1; cases g1; rfl
      · exact absurd (g2 p hp) hnoexp
    obtain ⟨e1, e2⟩ := check_eq cfg.normalize s k c' (lim c') now hq
    obtain ⟨f1, f2, _⟩ := bucket_facts hpi c'
    have hseen := hpi.seen
    rcases check_cases cfg.normalize p c' (lim c') now with ⟨g1, g2⟩ | ⟨g1, g2, g3, g4, g5, g6, g7⟩ | ⟨g1, g2, g3, g4, g5⟩
    · refine ⟨⟨_, e1, ?_⟩, fun _ _ => by rw [e2, g2]; simp⟩
      rw [g2]
      refine ⟨by dsimp only; omega, ?_⟩
      exact h2
    · rcases h2 with h2 | ⟨b, hb, h2⟩
      · omega
      · have hcc : c' ≠ c := by
          rintro rfl
          have : p.bucket c' (lim c') = b := by unfold Peer.bucket; rw [hb]; rfl
          rw [this] at g2 f2
          rw [f2] at g2
          omega
        refine ⟨⟨_, e1, by rw [g4]; omega, .inr ⟨b, ?_, h2⟩⟩, fun _ h => absurd h hcc⟩
        rw [g7]
        simp only [show ¬ c = c' from fun h => hcc h.symm, if_false]
        exact hb
    · refine ⟨⟨_, e1, by rw [g3]; omega, ?_⟩, fun _ _ => ?_⟩
      · rcases h2 with h2 | ⟨b, hb, h2⟩
        · omega
        · right
          refine ⟨b, ?_, h2⟩
          rw [g4]
          by_cases hcc : c = c'
          · subst hcc
            simp only [if_true]
            unfold Peer.bucket; rw [hb]; rfl
          · simp only [hcc, if_false]; exact hb
      · rw [e2]
        rcases g5 with ⟨_, _, _, g⟩ | ⟨_, _, _, g⟩ <;> rw [g] <;> simp
  · refine ⟨⟨p, ?_, h1, h2⟩, fun h => absurd h.symm hk⟩
    rcases check_other cfg.normalize s k' k c' (lim c') now hk with g | ⟨_, g⟩
    · rw [g]; exact hp
    · exact absurd (g p hp).1 hnoexp

/-- A rejection blocks until the time it says. -/
theorem reject_blocks {cfg : Config} {lim : C → Limit} (hl : ∀ c, (lim c).WF)
    (h1 : cfg.cooldown ≤ cfg.normalize.ttl) {s : St K C} {h : List (Rec K C)} (hr : Reach cfg lim s h) (k : K) (c : C)
    (h2 : (lim c).burst * (lim c).interval ≤ cfg.normalize.ttl) (now : Nat)
    (hc : ∀ r ∈ h, r.time ≤ now) {after : Nat} (hn : now < 2 ^ 62)
    (hv : (check cfg.normalize s k c (lim c) now).2 = .reject after) :
    Blocked lim cfg.normalize.ttl k c (now + after) (check cfg.normalize s k c (lim c) now).1 ∧ 0 < after := by
  rw [burst_tol (hl c)] at h2
  generalize hq : getPeer cfg.normalize (maybePrune cfg.normalize s now).peers k now = q
  obtain ⟨n1, n2, n3, n4⟩ := normalize_facts cfg
  have hqi : PInv cfg.normalize lim now q := by
    rcases getPeer_cases cfg.normalize s k now with ⟨g1, _⟩ | ⟨g1, _⟩
    · rw [hq] at g1; exact pinv_reach hl hr hc k _ g1
    · rw [← hq, g1]; exact pinv_new n1 now
  obtain ⟨e1, e2⟩ := check_eq cfg.normalize s k c (lim c) now hq
  obtain ⟨f1, f2, f3⟩ := bucket_facts hqi c
  rw [e2] at hv
  have hfin := pinv_check hl n1 n2 hqi (Nat.le_refl _) hn c
  have hse := hqi.seen
  have hun := hqi.until_
  have hfu := hfin.until_
  rcases check_cases cfg.normalize q c (lim c) now with ⟨g1, g2⟩ | ⟨g1, g2, g3, g4, g5, g6, g7⟩ | ⟨g1, g2, g3, g4, g5⟩
  · rw [g2] at hv hfu
    cases hv
    refine ⟨⟨_, e1, ?_, .inl ?_⟩, by omega⟩
    · rw [g2]; dsimp only at hfu ⊢; omega
    · rw [g2]; dsimp only; omega
  · rw [g3] at hv; cases hv
  · have hbk : (q.check cfg.normalize c (lim c) now).1.buckets c = some (q.bucket c (lim c)) := by
      rw [g4]; simp only [if_true]
    rcases g5 with ⟨_, _, j1, j2⟩ | ⟨_, _, j1, j2⟩
    · rw [j2] at hv
      split at hv
      · cases hv
        refine ⟨⟨_, e1, ?_, .inl ?_⟩, by omega⟩
        · rw [g3]; rw [j1, g3] at hfu; omega
        · rw [j1]; omega
      · cases hv
        refine ⟨⟨_, e1, ?_, .inr ⟨_, hbk, ?_⟩⟩, by omega⟩
        · rw [g3, f2]; omega
        · rw [f2]; omega
    · rw [j2] at hv
      cases hv
      refine ⟨⟨_, e1, ?_, .inr ⟨_, hbk, ?_⟩⟩, by omega⟩
      · rw [g3, f2]; omega
      · rw [f2]; omega

/-- If the state of a peer is kept for the cooldown and for the time of a burst: a request before the time that a
rejection gave is rejected as well, whatever came between. -/
theorem retry_not_earlier {cfg : Config} {lim : C → Limit} (hl : ∀ c, (lim c).WF)
    (h1 : cfg.cooldown ≤ cfg.normalize.ttl) {s s' : St K C} {h h' : List (Rec K C)} (hr : Reach cfg lim s h) (k : K) (c : C)
    (h2 : (lim c).burst * (lim c).interval ≤ cfg.normalize.ttl) (now : Nat)
    (hc : ∀ r ∈ h, r.time ≤ now) {after : Nat} (hn : now < 2 ^ 62)
    (hv : (check cfg.normalize s k c (lim c) now).2 = .reject after)
    (hlat : Later cfg lim (check cfg.normalize s k c (lim c) now).1
      (⟨k, c, now, (check cfg.normalize s k c (lim c) now).2⟩ :: h) s' h')
    (now' : Nat) (hc' : ∀ r ∈ h', r.time ≤ now') (hn' : now' < now + after) (hm : now' < 2 ^ 62) :
    (check cfg.normalize s' k c (lim c) now').2 ≠ .allow := by
  have hr1 := hr.check k c now hc hn
  have hb := (reject_blocks hl h1 hr k c h2 now hc hn hv).1
  have hb' : ∀ s' h', Later cfg lim (check cfg.normalize s k c (lim c) now).1
      (⟨k, c, now, (check cfg.normalize s k c (lim c) now).2⟩ :: h) s' h' → (∀ r ∈ h', r.time < now + after) →
      Blocked lim cfg.normalize.ttl k c (now + after) s' := by
    intro s' h' hlat ht
    induction hlat with
    | refl => exact hb
    | check k1 c1 now1 hlat g1 g2 ih =>
      have hlt := ht _ List.mem_cons_self
      exact (blocked_step hl (hlat.reach hr1) (ih (fun r hr => ht r (List.mem_cons_of_mem _ hr))) k1 c1 now1 g1 g2 hlt).1
  have hbl := hb' s' h' hlat (fun r hr => Nat.lt_of_le_of_lt (hc' r hr) hn')
  exact (blocked_step hl (hlat.reach hr1) hbl k c now' hc' hm hn').2 rfl rfl

/-- Nothing of the peer came between: its limiter is as it was, or was dropped. -/
theorem later_same {cfg : Config} {lim : C → Limit} {s s' : St K C} {h h' : List (Rec K C)} {k : K}
    (hlat : Later cfg lim s h s' h') (hk : ∀ r ∈ h'.take (h'.length - h.length), r.key ≠ k) :
    h.length ≤ h'.length ∧ (s'.peers k = s.peers k ∨ s'.peers k = none) := by
  induction hlat with
  | refl => exact ⟨Nat.le_refl _, .inl rfl⟩
  | @check s' h' k1 c1 now1 hlat g1 g2 ih =>
    have hle : h.length ≤ h'.length := by
      clear ih hk g1 g2
      induction hlat with
      | refl => exact Nat.le_refl _
      | check _ _ _ _ _ _ ih => exact Nat.le_succ_of_le ih
    have hlen : (h'.length + 1) - h.length = (h'.length - h.length) + 1 := by omega
    rw [List.length_cons, hlen, List.take_succ_cons] at hk
    have hne : k ≠ k1 := fun he => hk _ List.mem_cons_self he.symm
    obtain ⟨_, i2⟩ := ih (fun r hr => hk r (List.mem_cons_of_mem _ hr))
    refine ⟨Nat.le_succ_of_le hle, ?_⟩
    rcases check_other cfg.normalize s' k1 k c1 (lim c1) now1 hne with g | ⟨g, _⟩
    · rw [g]; exact i2
    · exact .inr g

/-- If the cooldown is no shorter than the interval: a request at the time that a rejection gave, or later, is
allowed, if nothing of the peer came between. -/
theorem retry_in_time {cfg : Config} {lim : C → Limit} (hl : ∀ c, (lim c).WF) (hcd : cfg.cooldown < 2 ^ 62)
    {s s' : St K C} {h h' : List (Rec K C)} (hr : Reach cfg lim s h) (k : K) (c : C)
    (h1 : (lim c).interval ≤ cfg.cooldown) (now : Nat)
    (hc : ∀ r ∈ h, r.time ≤ now) {after : Nat} (hn : now < 2 ^ 62)
    (hv : (check cfg.normalize s k c (lim c) now).2 = .reject after)
    (hlat : Later cfg lim (check cfg.normalize s k c (lim c) now).1
      (⟨k, c, now, (check cfg.normalize s k c (lim c) now).2⟩ :: h) s' h')
    (hk : ∀ r ∈ h'.take (h'.length - (h.length + 1)), r.key ≠ k)
    (now' : Nat) (hn' : now + after ≤ now') :
    (check cfg.normalize s' k c (lim c) now').2 = .allow := by
  obtain ⟨n1, n2, n3, n4⟩ := normalize_facts cfg
  -- the limiter after the rejection
  have key : ∃ p, (check cfg.normalize s k c (lim c) now).1.peers k = some p ∧ p.until_ ≤ now + after ∧
      (p.bucket c (lim c)).tolerance = (lim c).tolerance ∧
      (p.bucket c (lim c)).tat ≤ now + after + (lim c).tolerance := by
    generalize hq : getPeer cfg.normalize (maybePrune cfg.normalize s now).peers k now = q
    have hqi : PInv cfg.normalize lim now q := by
      rcases getPeer_cases cfg.normalize s k now with ⟨g1, _⟩ | ⟨g1, _⟩
      · rw [hq] at g1; exact pinv_reach hl hr hc k _ g1
      · rw [← hq, g1]; exact pinv_new n1 now
    obtain ⟨e1, e2⟩ := check_eq cfg.normalize s k c (lim c) now hq
    obtain ⟨f1, f2, f3⟩ := bucket_facts hqi c
    rw [e2] at hv
    have hfin := pinv_check hl n1 n2 hqi (Nat.le_refl _) hn c
    refine ⟨_, e1, ?_⟩
    have hse := hqi.seen
    have hfb := (bucket_facts hfin c).2.1
    have hcool := hfin.cool (by rw [n4]; exact hcd)
    rw [n4] at hcool
    rcases check_cases cfg.normalize q c (lim c) now with ⟨g1, g2⟩ | ⟨g1, g2, g3, g4, g5, g6, g7⟩ | ⟨g1, g2, g3, g4, g5⟩
    · rw [g2] at hv hfb hcool ⊢
      cases hv
      refine ⟨by dsimp only; omega, hfb, ?_⟩
      have hcool' := hcool g1
      unfold Peer.bucket at hfb ⊢
      dsimp only at hcool' ⊢
      cases hb : q.buckets c with
      | none => exact Nat.zero_le _
      | some b =>
        have := hcool' c b hb
        dsimp only [Option.getD_some]
        omega
    · rw [g3] at hv; cases hv
    · have hbk : (q.check cfg.normalize c (lim c) now).1.buckets c = some (q.bucket c (lim c)) := by
        rw [g4]; simp only [if_true]
      have hbb : (q.check cfg.normalize c (lim c) now).1.bucket c (lim c) = q.bucket c (lim c) := by
        conv => lhs; unfold Peer.bucket
        rw [hbk]; rfl
      rw [hbb] at hfb ⊢
      rw [f2] at g2
      rcases g5 with ⟨_, _, j1, j2⟩ | ⟨_, _, j1, j2⟩
      · rw [j2] at hv
        rw [j1] at hcool ⊢
        split at hv
        · rename_i hlt
          cases hv
          have := hcool hlt c _ hbk
          exact ⟨by omega, f2, by omega⟩
        · cases hv
          rw [f2]
          exact ⟨by omega, rfl, by omega⟩
      · rw [j2] at hv
        cases hv
        rw [j1, f2]
        exact ⟨by omega, rfl, by omega⟩
  obtain ⟨p, hp, k1, k2, k3⟩ := key
  obtain ⟨_, hs⟩ := later_same hlat hk
  generalize hq : getPeer cfg.normalize (maybePrune cfg.normalize s' now').peers k now' = q
  obtain ⟨e1, e2⟩ := check_eq cfg.normalize s' k c (lim c) now' hq
  rw [e2]
  have hqf : q.until_ ≤ now' ∧ (q.bucket c (lim c)).tat - (q.bucket c (lim c)).tolerance ≤ now' := by
    rcases getPeer_cases cfg.normalize s' k now' with ⟨g1, _⟩ | ⟨g1, _⟩
    · rw [hq] at g1
      rcases hs with hs | hs
      · rw [hs, hp] at g1
        cases g1
        rw [k2]
        exact ⟨by omega, by omega⟩
      · rw [hs] at g1; cases g1
    · rw [← hq, g1]
      refine ⟨Nat.zero_le _, ?_⟩
      show (Bucket.new (lim c)).tat - _ ≤ now'
      simp [Bucket.new]
  rcases check_cases cfg.normalize q c (lim c) now' with ⟨g1, _⟩ | ⟨_, _, g3, _⟩ | ⟨_, g2, _⟩
  · omega
  · exact g3
  · omega

end Tycho.RateLimit
