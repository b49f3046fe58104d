import Verif.RateLimit.Props

namespace Tycho.RateLimit

variable {K C : Type} [DecidableEq K] [DecidableEq C]

/-- The times of the requests of a peer in a class that were allowed. -/
def allowedTimes (k : K) (c : C) (h : List (Rec K C)) : List Nat :=
  (h.filter fun r => decide (r.key = k ∧ r.cls = c ∧ r.verdict = .allow)).map (·.time)

/-- The times of all the requests of a peer in a class. -/
def times (k : K) (c : C) (h : List (Rec K C)) : List Nat :=
  (h.filter fun r => decide (r.key = k ∧ r.cls = c)).map (·.time)

/-- What holds of the limiter of a peer, the clock being at most `T`. -/
structure PInv (cfg : Config) (lim : C → Limit) (T : Nat) (p : Peer C) : Prop where
  seen : p.seen ≤ T
  bucket : ∀ c b, p.buckets c = some b → b.interval = (lim c).interval ∧ b.tolerance = (lim c).tolerance ∧
    b.tat ≤ p.seen + (lim c).tolerance + (lim c).interval
  rejects : p.rejects < cfg.rejectsBefore
  until_ : p.until_ ≤ p.seen + cfg.cooldown
  /-- while in cooldown nothing was granted since the rejection that began it -/
  cool : cfg.cooldown < 2 ^ 62 → T < p.until_ → ∀ c b, p.buckets c = some b →
    b.tat + cfg.cooldown ≤ p.until_ + (lim c).tolerance + (lim c).interval

theorem PInv.mono {cfg : Config} {lim : C → Limit} {T T' : Nat} {p : Peer C} (h : PInv cfg lim T p) (hT : T ≤ T') :
    PInv cfg lim T' p :=
  ⟨Nat.le_trans h.seen hT, h.bucket, h.rejects, h.until_, fun hc hu => h.cool hc (by omega)⟩

theorem pinv_new {cfg : Config} {lim : C → Limit} (hr : 0 < cfg.rejectsBefore) (now : Nat) :
    PInv cfg lim now (Peer.new now) :=
  ⟨Nat.le_refl _, fun _ _ h => (by cases h), hr, Nat.zero_le _, fun _ _ _ _ h => (by cases h)⟩

/-- The bucket of a class, there or new. -/
theorem bucket_facts {cfg : Config} {lim : C → Limit} {T : Nat} {p : Peer C} (h : PInv cfg lim T p) (c : C) :
    (p.bucket c (lim c)).interval = (lim c).interval ∧ (p.bucket c (lim c)).tolerance = (lim c).tolerance ∧
    (p.bucket c (lim c)).tat ≤ p.seen + (lim c).tolerance + (lim c).interval := by
  unfold Peer.bucket
  cases hb : p.buckets c with
  | none => exact ⟨rfl, rfl, Nat.zero_le _⟩
  | some b => exact h.bucket c b hb

theorem pinv_check {cfg : Config} {lim : C → Limit} (hl : ∀ c, (lim c).WF) (hr : 0 < cfg.rejectsBefore)
    (hr2 : cfg.rejectsBefore ≤ 254) {T now : Nat} {p : Peer C}
    (h : PInv cfg lim T p) (hT : T ≤ now) (hn : now < 2 ^ 62) (c : C) : PInv cfg lim now (p.check cfg c (lim c) now).1 := by
  obtain ⟨f1, f2, f3⟩ := bucket_facts h c
  have hsn : p.seen ≤ now := Nat.le_trans h.seen hT
  rcases check_cases cfg p c (lim c) now with ⟨h1, h2⟩ | ⟨h1, h2, h3, h4, h5, h6, h7⟩ | ⟨h1, h2, h3, h4, h5⟩
  · rw [h2]
    exact ⟨Nat.le_refl _, fun d b hb => by obtain ⟨g1, g2, g3⟩ := h.bucket d b hb; exact ⟨g1, g2, by dsimp only; omega⟩, h.rejects,
      by have := h.until_; dsimp only; omega, fun hc hu => h.cool hc (by dsimp only at hu; omega)⟩
  · refine ⟨by rw [h4]; exact Nat.le_refl _, ?_, by rw [h5]; exact hr, by rw [h6, h4]; have := h.until_; omega, ?_⟩
    · intro d b hb
      rw [h7] at hb
      rw [h4]
      by_cases hd : d = c
      · subst hd
        simp only [if_true, Option.some.injEq] at hb
        subst hb
        refine ⟨f1, f2, ?_⟩
        dsimp only
        rw [f1, nextTat_eq (hl d) hn (by rw [f2] at h2; omega)]
        omega
      · simp only [hd, if_false] at hb
        obtain ⟨g1, g2, g3⟩ := h.bucket d b hb
        exact ⟨g1, g2, by omega⟩
    · intro _ hu; rw [h6] at hu; omega
  · have hbk : ∀ d b, (p.check cfg c (lim c) now).1.buckets d = some b → b.interval = (lim d).interval ∧
        b.tolerance = (lim d).tolerance ∧ b.tat ≤ now + (lim d).tolerance + (lim d).interval := by
      intro d b hb
      rw [h4] at hb
      by_cases hd : d = c
      · subst hd
        simp only [if_true, Option.some.injEq] at hb
        subst hb
        exact ⟨f1, f2, by omega⟩
      · simp only [hd, if_false] at hb
        obtain ⟨g1, g2, g3⟩ := h.bucket d b hb
        exact ⟨g1, g2, by omega⟩
    refine ⟨by rw [h3]; exact Nat.le_refl _, by rw [h3]; exact hbk, ?_, ?_, ?_⟩
    · have := h.rejects
      rcases h5 with ⟨g1, g2, g3, _⟩ | ⟨g1, g2, g3, _⟩
      · rw [g2]; exact hr
      · rw [g2]; omega
    · rw [h3]
      have := h.until_
      rcases h5 with ⟨g1, g2, g3, _⟩ | ⟨g1, g2, g3, _⟩
      · rw [g3]; omega
      · rw [g3]; omega
    · intro hcd hu d b hb
      obtain ⟨_, _, g⟩ := hbk d b hb
      rcases h5 with ⟨g1, g2, g3, _⟩ | ⟨g1, g2, g3, _⟩
      · rw [g3]; unfold u64Max; omega
      · rw [g3] at hu; omega

theorem normalize_facts (cfg : Config) : 0 < cfg.normalize.rejectsBefore ∧ cfg.normalize.rejectsBefore ≤ 254 ∧
    0 < cfg.normalize.ttl ∧ cfg.normalize.cooldown = cfg.cooldown := by
  unfold Config.normalize
  refine ⟨by dsimp only; omega, by dsimp only; omega, ?_, rfl⟩
  dsimp only
  split <;> omega

/-- The invariant of the limiter. -/
theorem pinv_reach {cfg : Config} {lim : C → Limit} (hl : ∀ c, (lim c).WF) {s : St K C} {h : List (Rec K C)}
    (hr : Reach cfg lim s h) {T : Nat} (hT : ∀ r ∈ h, r.time ≤ T) (k : K) (p : Peer C) (hp : s.peers k = some p) :
    PInv cfg.normalize lim T p := by
  induction hr generalizing T k p with
  | new now => cases hp
  | @check s h k' c now h0 hc hn ih =>
    have hnT : now ≤ T := hT _ List.mem_cons_self
    obtain ⟨n1, n2, _, _⟩ := normalize_facts cfg
    by_cases hk : k = k'
    · subst hk
      unfold Tycho.RateLimit.check at hp
      simp only [if_true, Option.some.injEq] at hp
      subst hp
      refine PInv.mono ?_ hnT
      rcases getPeer_cases cfg.normalize s k now with ⟨h1, _⟩ | ⟨h1, _⟩
      · exact pinv_check hl n1 n2 (ih hc k _ h1) (Nat.le_refl _) hn c
      · rw [h1]; exact pinv_check hl n1 n2 (pinv_new n1 now) (Nat.le_refl _) hn c
    · rcases check_other cfg.normalize s k' k c (lim c) now hk with h1 | ⟨h1, _⟩
      · rw [h1] at hp; exact (ih hc k p hp).mono hnT
      · rw [h1] at hp; cases hp

theorem exists_clock (h : List (Rec K C)) : ∃ T, ∀ r ∈ h, r.time ≤ T := by
  induction h with
  | nil => exact ⟨0, by simp⟩
  | cons r h ih =>
    obtain ⟨T, hT⟩ := ih
    refine ⟨max r.time T, fun x hx => ?_⟩
    rcases List.mem_cons.mp hx with rfl | hx
    · omega
    · have := hT x hx; omega

/-- The count of rejections never reaches what the code asserts it does not. -/
theorem no_panic {cfg : Config} {lim : C → Limit} (hl : ∀ c, (lim c).WF) {s : St K C} {h : List (Rec K C)}
    (hr : Reach cfg lim s h) (k : K) (p : Peer C) (hp : s.peers k = some p) : p.rejects < 254 := by
  have hT := exists_clock h
  obtain ⟨T, hT⟩ := hT
  have := (pinv_reach hl hr hT k p hp).rejects
  have := (normalize_facts cfg).2.1
  omega

/-! ## C175: the rate -/

theorem le_of_sub {x t n : Nat} (h : ¬ n < x - t) : x ≤ n + t := by omega

theorem allowedTimes_cons (k : K) (c : C) (r : Rec K C) (h : List (Rec K C)) :
    allowedTimes k c (r :: h) = if r.key = k ∧ r.cls = c ∧ r.verdict = .allow then r.time :: allowedTimes k c h
      else allowedTimes k c h := by
  unfold allowedTimes
  by_cases hx : r.key = k ∧ r.cls = c ∧ r.verdict = .allow
  · rw [if_pos hx, List.filter_cons_of_pos (by simpa using hx)]; rfl
  · rw [if_neg hx, List.filter_cons_of_neg (by simpa using hx)]

theorem times_cons (k : K) (c : C) (r : Rec K C) (h : List (Rec K C)) :
    times k c (r :: h) = if r.key = k ∧ r.cls = c then r.time :: times k c h else times k c h := by
  unfold times
  by_cases hx : r.key = k ∧ r.cls = c
  · rw [if_pos hx, List.filter_cons_of_pos (by simpa using hx)]; rfl
  · rw [if_neg hx, List.filter_cons_of_neg (by simpa using hx)]

theorem rate_aux {cfg : Config} {lim : C → Limit} (hl : ∀ c, (lim c).WF) {s : St K C} {h : List (Rec K C)}
    (hr : Reach cfg lim s h) {T : Nat} (hT : ∀ r ∈ h, r.time ≤ T) (k : K) (c : C)
    (httl : (lim c).burst * (lim c).interval ≤ cfg.normalize.ttl) :
    Within (lim c) (allowedTimes k c h) ∧ ∃ v, Lower (lim c) v (allowedTimes k c h) ∧
      (v ≤ T ∨ ∃ p b, s.peers k = some p ∧ p.buckets c = some b ∧ v ≤ b.tat) := by
  induction hr generalizing T with
  | new now => exact ⟨within_nil _, 0, lower_nil _ _, .inl (Nat.zero_le _)⟩
  | @check s h k' c' now h0 hc hn ih =>
    have hnT : now ≤ T := hT _ List.mem_cons_self
    obtain ⟨i1, v, i2, i3⟩ := ih hc
    have htol : (lim c).tolerance + (lim c).interval ≤ cfg.normalize.ttl := by
      rw [tolerance_eq (hl c)]
      have hb := (hl c).2.1
      have : (lim c).burst * (lim c).interval = (lim c).interval * ((lim c).burst - 1) + (lim c).interval := by
        rw [Nat.mul_comm]
        conv => lhs; rw [show (lim c).burst = ((lim c).burst - 1) + 1 by omega]
        rw [Nat.mul_add, Nat.mul_one]
      omega
    -- forgetting an expired peer does no harm
    have hforget : (∀ p, s.peers k = some p → cfg.normalize.ttl ≤ now - p.seen) → v ≤ now := by
      intro hx
      rcases i3 with i3 | ⟨p, b, i3, i4, i5⟩
      · exact i3
      · have h1 := hx p i3
        have h2 := ((pinv_reach hl h0 hc k p i3).bucket c b i4).2.2
        have h3 := (normalize_facts cfg).2.2.1
        omega
    by_cases hk : k = k'
    · subst hk
      -- the arrival time the check sees
      have hsee : ∃ q, getPeer cfg.normalize (maybePrune cfg.normalize s now).peers k now = q ∧ PInv cfg.normalize lim now q ∧
          (v ≤ now ∨ ∃ b, q.buckets c = some b ∧ v ≤ b.tat) := by
        refine ⟨_, rfl, ?_⟩
        rcases getPeer_cases cfg.normalize s k now with ⟨h1, _⟩ | ⟨h1, h2⟩
        · refine ⟨pinv_reach hl h0 hc k _ h1, ?_⟩
          rcases i3 with i3 | ⟨p, b, i3, i4, i5⟩
          · exact .inl i3
          · rw [h1] at i3; cases i3; exact .inr ⟨b, i4, i5⟩
        · rw [h1]
          exact ⟨pinv_new (normalize_facts cfg).1 now, .inl (hforget h2)⟩
      obtain ⟨q, hq, hqi, hqv⟩ := hsee
      have hcheck : check cfg.normalize s k c' (lim c') now =
          ({ maybePrune cfg.normalize s now with
              peers := fun j => if j = k then some (q.check cfg.normalize c' (lim c') now).1
                else (maybePrune cfg.normalize s now).peers j }, (q.check cfg.normalize c' (lim c') now).2) := by
        unfold Tycho.RateLimit.check; dsimp only; rw [hq]
      rw [hcheck]
      dsimp only
      rw [allowedTimes_cons]
      dsimp only
      obtain ⟨f1, f2, f3⟩ := bucket_facts hqi c'
      rcases check_cases cfg.normalize q c' (lim c') now with ⟨h1, h2⟩ | ⟨h1, h2, h3, h4, h5, h6, h7⟩ | ⟨h1, h2, h3, h4, h5⟩
      · rw [h2, if_neg (fun h => by cases h.2.2)]
        refine ⟨i1, v, i2, ?_⟩
        rcases hqv with g | ⟨b, g1, g2⟩
        · exact .inl (by omega)
        · exact .inr ⟨{ q with seen := now }, b, by rw [if_pos rfl], g1, g2⟩
      · rw [h3]
        by_cases hcc : c' = c
        · subst hcc
          rw [if_pos ⟨rfl, rfl, rfl⟩]
          have hvt : v ≤ now ∨ v ≤ (q.bucket c' (lim c')).tat := by
            rcases hqv with g | ⟨b, g1, g2⟩
            · exact .inl g
            · right; unfold Peer.bucket; rw [g1]; exact g2
          have hnx := nextTat_eq (hl c') hn (tat := (q.bucket c' (lim c')).tat) (by rw [f2] at h2; exact le_of_sub h2)
          have hvn : v ≤ now + (lim c').tolerance := by
            rw [f2] at h2
            rcases hvt with g | g <;> omega
          have hvm : max v now + (lim c').interval ≤ nextTat (q.bucket c' (lim c')).tat now (lim c').interval := by
            rw [hnx]
            rcases hvt with g | g <;> omega
          have := lower_claim (hl c') (v := v) (now := now) (v' := nextTat (q.bucket c' (lim c')).tat now (lim c').interval)
            i2 i1 hvn hvm
          refine ⟨this.2, _, this.1, .inr ⟨_, { q.bucket c' (lim c') with
            tat := nextTat (q.bucket c' (lim c')).tat now (q.bucket c' (lim c')).interval }, by rw [if_pos rfl], ?_, ?_⟩⟩
          · rw [h7]; simp only [if_true]
          · rw [f1]; exact Nat.le_refl _
        · rw [if_neg (by simp [hcc])]
          refine ⟨i1, v, i2, ?_⟩
          rcases hqv with g | ⟨b, g1, g2⟩
          · exact .inl (by omega)
          · exact .inr ⟨_, b, by rw [if_pos rfl], by rw [h7]; simp only [show ¬ c = c' from fun h => hcc h.symm, if_false]; exact g1, g2⟩
      · have hv2 : (q.check cfg.normalize c' (lim c') now).2 ≠ .allow := by
          rcases h5 with ⟨_, _, _, g⟩ | ⟨_, _, _, g⟩ <;> rw [g] <;> simp
        rw [if_neg (fun h => hv2 h.2.2)]
        refine ⟨i1, v, i2, ?_⟩
        rcases hqv with g | ⟨b, g1, g2⟩
        · exact .inl (by omega)
        · refine .inr ⟨_, b, by rw [if_pos rfl], ?_, g2⟩
          rw [h4]
          by_cases hcc : c = c'
          · subst hcc
            simp only [if_true]
            unfold Peer.bucket; rw [g1]; rfl
          · simp only [hcc, if_false]; exact g1
    · rw [allowedTimes_cons, if_neg (fun h => hk h.1.symm)]
      refine ⟨i1, v, i2, ?_⟩
      rcases check_other cfg.normalize s k' k c' (lim c') now hk with h1 | ⟨_, h2⟩
      · rcases i3 with i3 | ⟨p, b, i3, i4, i5⟩
        · exact .inl (by omega)
        · exact .inr ⟨p, b, by rw [h1]; exact i3, i4, i5⟩
      · exact .inl (by have := hforget (fun p hp => (h2 p hp).1); omega)

/-- If the state of a peer is kept for the time of a burst, then in any span of time no more of its requests in a
class are allowed than the burst and one for each interval, although the states of silent peers are dropped. -/
theorem rate_kept {cfg : Config} {lim : C → Limit} (hl : ∀ c, (lim c).WF) {s : St K C} {h : List (Rec K C)}
    (hr : Reach cfg lim s h) (k : K) (c : C) (httl : (lim c).burst * (lim c).interval ≤ cfg.normalize.ttl) :
    Within (lim c) (allowedTimes k c h) := by
  have hT := exists_clock h
  obtain ⟨T, hT⟩ := hT
  exact (rate_aux hl hr hT k c httl).1

end Tycho.RateLimit
