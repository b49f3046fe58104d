import Verif.Downloader.Step

namespace Tycho.Downloader
open Tycho.Table

theorem isSome_putAll {κ ν} [DecidableEq κ] (l : List (κ × ν)) (t : Table κ ν) (k : κ) :
    (get (putAll t l) k).isSome ↔ k ∈ l.map (·.1) ∨ (get t k).isSome := by
  induction l generalizing t with
  | nil => simp [putAll]
  | cons e l ih =>
    show (get (putAll (put t e.1 e.2) l) k).isSome ↔ _
    rw [ih, get_put]
    by_cases h : k = e.1
    · subst h; simp
    · rw [if_neg h]; simp [h]

theorem left_new (c : Cfg) (p : Nat) : (new c).left p ↔ p ∈ c.signers.map (·.1) ∨ p = c.author := by
  unfold new St.left
  simp only [isSome_putAll, Table.get, Option.isSome_none, Bool.false_eq_true, or_false, List.map_map, List.map_append,
    List.mem_append, List.map_cons, List.map_nil, List.mem_singleton]
  rfl

theorem entry_new (c : Cfg) (p : Nat) (x : Status) (h : get (new c).peers p = some x) :
    x.inFlight = false ∧ x.last = none := by
  rcases get_putAll_some _ _ _ _ h with h | h
  · obtain ⟨e, _, h⟩ := List.mem_map.mp h
    cases h; exact ⟨rfl, rfl⟩
  · simp [Table.get] at h

theorem inv_new (c : Cfg) : Inv c (new c) (new c).busy := by
  refine ⟨uniq_putAll _ _ uniq_nil, by simp [new, St.busy], ?_, by simp [new, St.busy], fun p hp => (left_new c p).mp hp,
    by simp [new], by simp [new], fun _ => rfl, fun p hp => .inl ((left_new c p).mpr (.inl hp)), by simp [new]⟩
  intro p x hx
  rw [(entry_new c p x hx).1]
  simp [new, St.busy]

theorem once_new (c : Cfg) : Once (new c) := fun p => ⟨by simp [new], fun x hx => by simp [new]⟩

/-- What a step other than a tick makes of the attempts a peer was last asked at. -/
structure LL (k : Prop) (g : Nat → Prop) (s u : St) : Prop where
  left : ∀ p, u.left p → s.left p
  stay : ∀ p, s.left p → u.left p ∨ g p
  keep : k → ∀ p x, get u.peers p = some x → ∃ y, get s.peers p = some y ∧ y.resolved = x.resolved
  uniq : Uniq u.peers
  attempt : u.attempt = s.attempt
  sent : ∃ m, u.sent = s.sent ++ m ∧ ∀ p x, get u.peers p = some x → ∀ a, x.last = some a →
    (∃ y, get s.peers p = some y ∧ y.last = some a) ∨ (a = s.attempt ∧ p ∈ m)

theorem LL.refl {k : Prop} {g : Nat → Prop} {s : St} (h : Uniq s.peers) : LL k g s s := ⟨fun _ h => h, fun _ h => .inl h, fun _ p x hx => ⟨x, hx, rfl⟩, h, rfl, [], by simp, fun p x hx a ha => .inl ⟨x, hx, ha⟩⟩

theorem LL.put {k : Prop} {g : Nat → Prop} {s u : St} (h : LL k g s u) {p : Nat} {x y : Status} (hx : get u.peers p = some x) (hl : y.last = x.last) (hk : k → y.resolved = x.resolved) :
    LL k g s { u with peers := put u.peers p y } := by
  obtain ⟨h5, h7, h6, h1, h2, m, h3, h4⟩ := h
  refine ⟨fun q hq => h5 q ((left_put hx).mp hq), fun q hq => (h7 q hq).imp (left_put hx).mpr id, ?_, uniq_put _ _ _ h1, h2, m, h3, ?_⟩
  · intro hk' q z hz
    simp only [get_put] at hz
    by_cases hq : q = p
    · subst hq; rw [if_pos rfl] at hz; cases hz
      rw [hk hk']; exact h6 hk' q x hx
    · rw [if_neg hq] at hz; exact h6 hk' q z hz
  intro q z hz a ha
  simp only [get_put] at hz
  by_cases hq : q = p
  · subst hq; rw [if_pos rfl] at hz; cases hz
    exact h4 q x hx a (by rw [← hl]; exact ha)
  · rw [if_neg hq] at hz; exact h4 q z hz a ha

theorem LL.del {k : Prop} {g : Nat → Prop} {s u : St} (h : LL k g s u) (f : Nat → Bool) (hg : ∀ q, f q = true → g q) : LL k g s { u with peers := del u.peers f } := by
  obtain ⟨h5, h7, h6, h1, h2, m, h3, h4⟩ := h
  have hd : ∀ q z, get (Table.del u.peers f) q = some z → get u.peers q = some z := by
    intro q z hz
    rw [get_del] at hz
    by_cases hq : f q = true
    · rw [if_pos hq] at hz; cases hz
    · rwa [if_neg hq] at hz
  refine ⟨?_, ?_, fun hk q z hz => h6 hk q z (hd q z hz), uniq_del _ _ h1, h2, m, h3, ?_⟩
  · intro q hq
    obtain ⟨z, hz⟩ := Option.isSome_iff_exists.mp hq
    exact h5 q (Option.isSome_iff_exists.mpr ⟨z, hd q z hz⟩)
  · intro q hq
    by_cases hf : f q = true
    · exact .inr (hg q hf)
    · refine (h7 q hq).imp (fun hl => ?_) id
      unfold St.left; rw [get_del, if_neg hf]; exact hl
  intro q z hz a ha
  simp only [get_del] at hz
  by_cases hq : f q = true
  · rw [if_pos hq] at hz; cases hz
  · rw [if_neg hq] at hz; exact h4 q z hz a ha

theorem LL.same {k : Prop} {g : Nat → Prop} {s u v : St} (h : LL k g s u) (h1 : v.peers = u.peers) (h2 : v.attempt = u.attempt) (h3 : v.sent = u.sent) :
    LL k g s v := by
  obtain ⟨k5, k7, k6, k1, k2, m, k3, k4⟩ := h
  refine ⟨fun p hp => k5 p ?_, fun p hp => (k7 p hp).imp (fun hl => by unfold St.left at hl ⊢; rwa [h1]) id, h1 ▸ k6, h1 ▸ k1, h2.trans k2, m, h3.trans k3, h1 ▸ k4⟩
  unfold St.left at hp ⊢; rwa [h1] at hp

theorem LL.loop {k : Prop} {g : Nat → Prop} {s : St} : ∀ (n : Nat) (u : St), LL k g s u → LL k g s (askLoop u n) := by
  intro n
  induction n with
  | zero => intro u h; exact h
  | succ n ih =>
    intro u h
    unfold askLoop
    cases ht : take u.peers u.attempt with
    | none => exact h
    | some e =>
      obtain ⟨p, t⟩ := e
      obtain ⟨x, hx, hr, rfl, _⟩ := take_some h.uniq ht
      refine ih _ ?_
      obtain ⟨h5, h7, h6, h1, h2, m, h3, h4⟩ := h
      refine ⟨fun q hq => h5 q ((left_put hx).mp hq), fun q hq => (h7 q hq).imp (left_put hx).mpr id, ?_, uniq_put _ _ _ h1, h2, m ++ [p], by rw [h3, List.append_assoc], ?_⟩
      · intro hk' q z hz
        simp only [get_put] at hz
        by_cases hq : q = p
        · subst hq; rw [if_pos rfl] at hz; cases hz; exact h6 hk' q x hx
        · rw [if_neg hq] at hz; exact h6 hk' q z hz
      intro q z hz a ha
      simp only [get_put] at hz
      by_cases hq : q = p
      · subst hq; rw [if_pos rfl] at hz; cases hz
        cases ha; exact .inr ⟨h2, by simp⟩
      · rw [if_neg hq] at hz
        exact (h4 q z hz a ha).imp id fun k => ⟨k.1, by simp [k.2]⟩

theorem LL.random {k : Prop} {g : Nat → Prop} {s u : St} (h : LL k g s u) (c : Cfg) : LL k g s (downloadRandom c u) := LL.loop _ _ h

theorem LL.notFound {k : Prop} {g : Nat → Prop} {s u : St} (h : LL k g s u) (c : Cfg) (p : Nat) : LL k g s (onNotFound c u p) := by
  unfold onNotFound; split
  · exact h
  · exact h.same rfl rfl rfl

theorem LL.check {k : Prop} {g : Nat → Prop} {s u : St} (h : LL k g s u) (c : Cfg) : LL k g s (checkNotFound c u) := by
  unfold checkNotFound; split
  · exact h.same rfl rfl rfl
  · exact h

theorem LL.after {k : Prop} {g : Nat → Prop} {s u : St} (h : LL k g s u) (c : Cfg) : LL k g s (answered.after c u) := by
  unfold answered.after; split
  · exact h
  · exact h.random c

theorem LL.next {k : Prop} {g : Nat → Prop} {s u : St} (h : LL k g s u) (c : Cfg) : LL k g s (parsed.next c u) := by
  unfold parsed.next; split
  · exact h
  · split
    · exact h.same rfl rfl rfl
    · exact (h.same (v := { u with slot := none }) rfl rfl rfl).random c

theorem LL.update {k : Prop} {g : Nat → Prop} {s u : St} (h : LL k g s u) (p : Nat) (f : Status → Status) (hf : ∀ x, (f x).last = x.last)
    (hk : k → ∀ x, (f x).resolved = x.resolved) :
    LL k g s (update u p f) := by
  unfold Downloader.update
  cases hx : get u.peers p with
  | none => exact h
  | some x => exact h.put hx (hf x) (fun k => hk k x)

theorem LL.takeOut {k : Prop} {g : Nat → Prop} {s u v : St} (h : LL k g s u) {p : Nat} (hg : g p) (hv : takeOut u p = some v) : LL k g s v := by
  unfold Downloader.takeOut at hv
  cases hx : get u.peers p with
  | none => rw [hx] at hv; cases hv
  | some x =>
    rw [hx] at hv
    dsimp only at hv
    by_cases hf : x.inFlight = true
    · rw [if_pos hf] at hv; cases hv; exact h.del _ (fun q hq => by rw [of_decide_eq_true hq]; exact hg)
    · rw [if_neg hf] at hv; cases hv

theorem LL.tryLater {k : Prop} {g : Nat → Prop} {s u v : St} (h : LL k g s u) {p : Nat} (hv : tryLater u p = some v) : LL k g s v := by
  unfold Downloader.tryLater at hv
  cases hx : get u.peers p with
  | none => rw [hx] at hv; cases hv
  | some x => rw [hx] at hv; cases hv; exact h.put hx rfl (fun _ => rfl)

theorem step_LL {c : Cfg} {s t : St} {e : Ev} (hu : Uniq s.peers) (he : e ≠ .tick) (h : step c s e = some t) :
    LL (∀ p r, e ≠ .peer p r) (fun q => Final c q e) s t := by
  have h0 : LL (∀ p r, e ≠ .peer p r) (fun q => Final c q e) s s := LL.refl hu
  cases e with
  | broadcast => cases h; exact h0.same rfl rfl rfl
  | depender p => cases h; exact h0.update _ _ (fun _ => rfl) (fun _ _ => rfl)
  | peer p r => cases h; exact h0.update _ _ (fun _ => rfl) (fun k => absurd rfl (k p r))
  | tick => exact absurd rfl he
  | answer p a =>
    simp only [step] at h
    have h1 : LL (∀ q r, Ev.answer p a ≠ .peer q r) (fun q => Final c q (.answer p a)) s { s with downloading := s.downloading.erase p } := h0.same rfl rfl rfl
    generalize hv : ({ s with downloading := s.downloading.erase p } : St) = u at h h1
    clear hv
    cases a with
    | bytes => 
      simp only [answered, Option.some.injEq] at h
      subst h
      split
      · exact h1.same rfl rfl rfl
      · exact h1.same rfl rfl rfl
    | definedNone =>
      simp only [answered, Option.map_eq_some_iff] at h
      obtain ⟨v, hv, rfl⟩ := h
      exact (((h1.takeOut (by simp [Final, Unavailable]) hv).notFound c p).check c).after c
    | tlError =>
      simp only [answered, Option.map_eq_some_iff] at h
      obtain ⟨v, hv, rfl⟩ := h
      exact (((h1.takeOut (by simp [Final, Unavailable]) hv).notFound c p).check c).after c
    | tryLater =>
      simp only [answered, Option.map_eq_some_iff] at h
      obtain ⟨v, hv, rfl⟩ := h
      exact ((h1.tryLater hv).check c).after c
    | network =>
      simp only [answered, Option.map_eq_some_iff] at h
      obtain ⟨v, hv, rfl⟩ := h
      exact ((h1.tryLater hv).check c).after c
  | parsed p r =>
    simp only [step, parsed, Option.map_eq_some_iff] at h
    obtain ⟨v, hv, rfl⟩ := h
    have h1 := h0.takeOut (.inr ⟨r, rfl⟩) hv
    cases r with
    | point id ok =>
      dsimp only; split
      · exact h1.same rfl rfl rfl
      · exact ((h1.notFound c p).check c).next c
    | illFormed id =>
      dsimp only; split
      · exact h1.same rfl rfl rfl
      · exact ((h1.notFound c p).check c).next c
    | badPoint => exact ((h1.notFound c p).check c).next c
    | tlError => exact ((h1.notFound c p).check c).next c

theorem LL.tick {s t : St} {c : Cfg} (hu : Uniq s.peers) (h : step c s .tick = some t) :
    t = { downloadRandom c s with attempt := (s.attempt + 1) % 2 ^ 32 } ∧
    LL True (fun _ => False) s (downloadRandom c s) := by
  have hl := (LL.refl (k := True) (g := fun _ => False) hu).random c
  simp only [step, Option.some.injEq] at h
  rw [hl.attempt] at h
  exact ⟨h.symm, hl⟩

theorem not_left_takeOut {u v : St} {p : Nat} (hv : takeOut u p = some v) : ¬ v.left p := by
  unfold Downloader.takeOut at hv
  cases hx : get u.peers p with
  | none => rw [hx] at hv; cases hv
  | some x =>
    rw [hx] at hv
    dsimp only at hv
    by_cases hf : x.inFlight = true
    · rw [if_pos hf] at hv; cases hv
      simp [St.left, get_del]
    · rw [if_neg hf] at hv; cases hv

theorem uniq_takeOut {u v : St} {p : Nat} (hu : Uniq u.peers) (hv : takeOut u p = some v) : Uniq v.peers :=
  ((LL.refl (k := True) (g := fun _ => True) hu).takeOut trivial hv).uniq

/-- A final answer takes the peer out. -/
theorem step_gone {c : Cfg} {s t : St} {p : Nat} {e : Ev} (hu : Uniq s.peers) (hf : Final c p e)
    (h : step c s e = some t) : ¬ t.left p := by
  have key : ∀ {u v w : St}, Uniq u.peers → takeOut u p = some v → LL True (fun _ => False) v w → ¬ w.left p :=
    fun _ hv hl hw => not_left_takeOut hv (hl.left p hw)
  have hp : ∀ r, e = .parsed p r → ¬ t.left p := by
    rintro r rfl
    simp only [step, parsed, Option.map_eq_some_iff] at h
    obtain ⟨v, hv, rfl⟩ := h
    have h1 := LL.refl (k := True) (g := fun _ => False) (uniq_takeOut hu hv)
    refine key hu hv ?_
    cases r with
    | point id ok =>
      dsimp only; split
      · exact h1.same rfl rfl rfl
      · exact ((h1.notFound c p).check c).next c
    | illFormed id =>
      dsimp only; split
      · exact h1.same rfl rfl rfl
      · exact ((h1.notFound c p).check c).next c
    | badPoint => exact ((h1.notFound c p).check c).next c
    | tlError => exact ((h1.notFound c p).check c).next c
  rcases hf with (h1 | h1 | h1 | h1 | ⟨_, _, _, h1⟩ | ⟨_, _, h1⟩) | ⟨r, h1⟩
  · subst h1
    simp only [step, answered, Option.map_eq_some_iff] at h
    obtain ⟨v, hv, rfl⟩ := h
    exact key (u := { s with downloading := s.downloading.erase p }) hu hv
      ((((LL.refl (uniq_takeOut (u := { s with downloading := s.downloading.erase p }) hu hv)).notFound c p).check c).after c)
  · subst h1
    simp only [step, answered, Option.map_eq_some_iff] at h
    obtain ⟨v, hv, rfl⟩ := h
    exact key (u := { s with downloading := s.downloading.erase p }) hu hv
      ((((LL.refl (uniq_takeOut (u := { s with downloading := s.downloading.erase p }) hu hv)).notFound c p).check c).after c)
  all_goals exact hp _ h1

theorem resolved_snoc (c : Cfg) (h : List Ev) (e : Ev) (p : Nat) (he : ∀ q r, e ≠ .peer q r) :
    c.resolved (h ++ [e]) p = c.resolved h p := by
  unfold Cfg.resolved
  rw [List.foldl_append]
  cases e <;> first | rfl | exact absurd rfl (he _ _)

theorem resolved_peer (c : Cfg) (h : List Ev) (q p : Nat) (r : Bool) :
    c.resolved (h ++ [.peer q r]) p = if q = p then r else c.resolved h p := by
  unfold Cfg.resolved
  rw [List.foldl_append]
  rfl

theorem resolved_new {c : Cfg} (hc : c.WF) {p x} (h : get (new c).peers p = some x) : x.resolved = c.resolved [] p := by
  unfold new at h
  simp only [List.map_append, List.map_cons, List.map_nil, putAll, List.foldl_append, List.foldl_cons, List.foldl_nil] at h
  rw [get_put] at h
  show _ = (if p = c.author then _ else _)
  by_cases hp : p = c.author
  · rw [if_pos hp] at h ⊢; cases h; rfl
  · rw [if_neg hp] at h ⊢
    rcases get_putAll_some _ _ _ _ h with h | h
    · obtain ⟨e, he, h⟩ := List.mem_map.mp h
      cases h
      rw [get_of_mem c.signers hc.1 e.1 e.2 he]; rfl
    · simp [Table.get] at h

/-- What holds of a run. -/
structure Run (c : Cfg) (h : List Ev) (s : St) : Prop where
  inv : s.result = none → Inv c s s.busy ∧ s.notFound.length < c.count.majorityOfOthers
  nf : ∀ q, q ∈ s.notFound ↔ q ∈ c.signers.map (·.1) ∧ ∃ e ∈ h, Unavailable c q e
  res : ∀ r, s.result = some r →
    (r = .notFound ∧ s.notFound.Nodup ∧ c.count.majorityOfOthers ≤ s.notFound.length) ∨
    (r = .fromBroadcast ∧ .broadcast ∈ h) ∨
    (r = .verified c.want ∧ ∃ p, .parsed p (.point c.want true) ∈ h) ∨
    (r = .illFormed c.want ∧ ∃ p, .parsed p (.point c.want false) ∈ h ∨ .parsed p (.illFormed c.want) ∈ h)
  once : ticks h < 2 ^ 32 → s.attempt = ticks h ∧ Once s
  gone : ∀ p e, e ∈ h → Final c p e → ¬ s.left p
  stay : ∀ p, p ∈ c.signers.map (·.1) ∨ p = c.author → s.left p ∨ ∃ e ∈ h, Final c p e
  known : ∀ p x, get s.peers p = some x → x.resolved = c.resolved h p
  /-- since the last tick -/
  recent : ticks h < 2 ^ 32 → ∃ h1 s1 h2 r, h = h1 ++ h2 ∧ Reach c h1 s1 ∧ ticks h2 = 0 ∧
    (h1 = [] ∨ ∃ h0, h1 = h0 ++ [.tick]) ∧ s.sent = s1.sent ++ r ∧
    ∀ p x, get s.peers p = some x → ∀ a, x.last = some a → a ≤ s.attempt ∧ (a < s.attempt ∨ p ∈ r)

theorem enabled_running {s : St} {e : Ev} (h : enabled s e) : s.result = none := by
  cases e <;> first | exact h | exact h.1

theorem run_step {c : Cfg} {h s e t} (hR : Reach c h s) (hS : Run c h s) (he : enabled s e) (ht : step c s e = some t) :
    Run c (h ++ [e]) t := by
  have hr := enabled_running he
  obtain ⟨hI, hn⟩ := hS.inv hr
  obtain ⟨t', ht', m, hD⟩ := step_did hI hn hr he
  obtain rfl : t' = t := Option.some.inj (ht'.symm.trans ht)
  have hle : ticks (h ++ [e]) < 2 ^ 32 → ticks h < 2 ^ 32 := fun k => by
    simp only [ticks, List.count_append] at k ⊢; omega
  have hatt : ticks (h ++ [e]) < 2 ^ 32 → t'.attempt = ticks (h ++ [e]) := fun k => by
    have h1 := (hS.once (hle k)).1
    by_cases htk : e = .tick
    · subst htk
      have := (LL.tick hI.uniq ht).1
      rw [this]
      simp only [ticks, List.count_append, List.count_singleton_self] at k h1 ⊢
      rw [h1, Nat.mod_eq_of_lt k]
    · rw [(step_LL hI.uniq htk ht).attempt, h1]
      have : (e == Ev.tick) = false := by simpa using htk
      simp [ticks, List.count_append, List.count_singleton, this]
  refine ⟨hD.inv, ?_, ?_, ?_, ?_, ?_, ?_, ?_⟩
  · intro q
    rw [hD.nf, hS.nf]
    constructor
    · rintro (⟨h1, x, h2, h3⟩ | ⟨h1, h2⟩)
      · exact ⟨h1, x, by simp [h2], h3⟩
      · exact ⟨h1, e, by simp, h2⟩
    · rintro ⟨h1, x, h2, h3⟩
      rw [List.mem_append, List.mem_singleton] at h2
      rcases h2 with h2 | rfl
      · exact .inl ⟨h1, x, h2, h3⟩
      · exact .inr ⟨h1, h3⟩
  · intro r hr'
    rcases hD.res r hr' with h | ⟨h1, h2⟩ | ⟨h1, p, h2⟩ | ⟨h1, p, h2⟩
    · exact .inl h
    · exact .inr (.inl ⟨h1, by simp [h2]⟩)
    · exact .inr (.inr (.inl ⟨h1, p, by simp [h2]⟩))
    · exact .inr (.inr (.inr ⟨h1, p, h2.imp (fun k => by simp [k]) (fun k => by simp [k])⟩))
  · intro k
    refine ⟨hatt k, hD.once (hS.once (hle k)).2 ?_⟩
    rw [hatt k, (hS.once (hle k)).1]
    simp only [ticks, List.count_append]; omega
  · intro p e' he' hf hl
    rw [List.mem_append, List.mem_singleton] at he'
    rcases he' with he' | rfl
    · refine hS.gone p e' he' hf ?_
      by_cases htk : e = .tick
      · subst htk
        obtain ⟨g1, g2⟩ := LL.tick hI.uniq ht
        rw [g1] at hl
        exact g2.left p hl
      · exact (step_LL hI.uniq htk ht).left p hl
    · exact step_gone hI.uniq hf ht hl
  · intro p hp
    rcases hS.stay p hp with hl | ⟨x, hx, hf⟩
    · by_cases htk : e = .tick
      · subst htk
        obtain ⟨g1, g2⟩ := LL.tick hI.uniq ht
        rw [g1]
        exact .inl ((g2.stay p hl).elim id False.elim)
      · exact ((step_LL hI.uniq htk ht).stay p hl).imp id fun hf => ⟨e, by simp, hf⟩
    · exact .inr ⟨x, by simp [hx], hf⟩
  · intro p x hx
    by_cases htk : e = .tick
    · subst htk
      obtain ⟨g1, g2⟩ := LL.tick hI.uniq ht
      rw [g1] at hx
      obtain ⟨y, hy, hk⟩ := g2.keep trivial p x hx
      rw [resolved_snoc _ _ _ _ (by simp), ← hk, hS.known p y hy]
    · by_cases hpe : ∃ q r, e = .peer q r
      · obtain ⟨q, r, rfl⟩ := hpe
        rw [resolved_peer]
        simp only [step, Option.some.injEq] at ht
        subst ht
        unfold update at hx
        cases hg : get s.peers q with
        | none =>
          rw [hg] at hx
          dsimp only at hx
          by_cases hq : q = p
          · subst hq; rw [hg] at hx; cases hx
          · rw [if_neg hq]; exact hS.known p x hx
        | some y =>
          rw [hg] at hx
          simp only [get_put] at hx
          by_cases hq : q = p
          · subst hq; rw [if_pos rfl] at hx ⊢; cases hx; rfl
          · rw [if_neg (Ne.symm hq)] at hx; rw [if_neg hq]; exact hS.known p x hx
      · have hne : ∀ q r, e ≠ .peer q r := fun q r h => hpe ⟨q, r, h⟩
        obtain ⟨y, hy, hk⟩ := (step_LL hI.uniq htk ht).keep hne p x hx
        rw [resolved_snoc _ _ _ _ hne, ← hk, hS.known p y hy]
  · intro k
    obtain ⟨h1, s1, h2, r, e1, e2, e3, e4, e5, e6⟩ := hS.recent (hle k)
    have hatt' := (hS.once (hle k)).1
    by_cases htk : e = .tick
    · subst htk
      refine ⟨h ++ [.tick], t', [], [], by simp, .step hR he ht, rfl, .inr ⟨h, rfl⟩, by simp, ?_⟩
      intro p x hx a ha
      have hlt : a < t'.attempt := by
        rw [hatt k]
        simp only [ticks, List.count_append, List.count_singleton_self] at hatt' ⊢
        obtain ⟨g1, g2⟩ := LL.tick hI.uniq ht
        obtain ⟨n, g3, g4⟩ := g2.sent
        rw [g1] at hx
        rcases g4 p x hx a ha with ⟨y, hy, hya⟩ | ⟨ha', _⟩
        · have := (e6 p y hy a hya).1; omega
        · omega
      exact ⟨by omega, .inl hlt⟩
    · obtain ⟨_, _, _, g1, g2, n, g3, g4⟩ := step_LL hI.uniq htk ht
      refine ⟨h1, s1, h2 ++ [e], r ++ n, by rw [e1, List.append_assoc], e2, ?_, e4, by rw [g3, e5, List.append_assoc], ?_⟩
      · have : (e == Ev.tick) = false := by simpa using htk
        simp only [ticks] at e3
        simp [ticks, List.count_append, List.count_singleton, this, e3]
      · intro p x hx a ha
        rw [g2]
        rcases g4 p x hx a ha with ⟨y, hy, hya⟩ | ⟨ha', h⟩
        · exact (e6 p y hy a hya).imp id fun k => k.imp id fun h => by simp [h]
        · exact ⟨by omega, .inr (by simp [h])⟩

theorem run_of {c : Cfg} {h s} (hc : c.WF) (hR : Reach c h s) : Run c h s := by
  induction hR with
  | init =>
    refine ⟨fun _ => ⟨inv_new c, ?_⟩, by simp [new], fun r hr => by simp [new] at hr, fun _ => ⟨rfl, once_new c⟩, by simp, fun p hp => .inl ((left_new c p).mpr hp), fun p x hx => resolved_new hc hx, fun _ =>
      ⟨[], new c, [], [], rfl, .init, rfl, .inl rfl, by simp, fun p x hx a ha => ?_⟩⟩
    · have := hc.2; simp [new, PeerCount.PeerCount.majorityOfOthers]; omega
    · rw [(entry_new c p x hx).2] at ha; cases ha
  | step hR he ht ih => exact run_step hR ih he ht

end Tycho.Downloader
