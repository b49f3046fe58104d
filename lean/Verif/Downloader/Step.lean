import Verif.Downloader.Lemmas

namespace Tycho.Downloader
open Tycho.Table

/-- The entry of a peer changes in a way that keeps its flight. -/
theorem update_inv {c : Cfg} {s : St} {B} {p : Nat} {f : Status → Status} (h : Inv c s B)
    (hf : ∀ x, (f x).inFlight = x.inFlight) :
    Inv c (update s p f) B ∧ ∀ q, (update s p f).left q ↔ s.left q := by
  unfold update
  cases hx : get s.peers p with
  | none => exact ⟨h, fun _ => .rfl⟩
  | some x =>
    dsimp only
    have hL : ∀ q, (get (put s.peers p (f x)) q).isSome ↔ s.left q := fun q => left_put hx
    obtain ⟨h1, h2, h3, h4, h5, h6, h7, h8, h9, h10⟩ := h
    refine ⟨⟨uniq_put _ _ _ h1, h2, ?_, fun q hq => (hL q).mpr (h4 q hq), fun q hq => h5 q ((hL q).mp hq), h6,
      fun q hq => ⟨fun hl => (h7 q hq).1 ((hL q).mp hl), (h7 q hq).2⟩, h8, fun q hq => (h9 q hq).imp (hL q).mpr id, h10⟩, hL⟩
    intro q y hy
    simp only [get_put] at hy
    by_cases hq : q = p
    · subst hq; rw [if_pos rfl] at hy; cases hy; rw [hf]; exact h3 q x hx
    · rw [if_neg hq] at hy; exact h3 q y hy

theorem tryLater_inv {c : Cfg} {s : St} {B} {p : Nat} (h : Inv c s (p :: B)) :
    ∃ x, get s.peers p = some x ∧
      tryLater s p = some { s with peers := put s.peers p { x with inFlight := false, failed := x.failed + 1 } } ∧
      Inv c { s with peers := put s.peers p { x with inFlight := false, failed := x.failed + 1 } } B := by
  obtain ⟨h1, h2, h3, h4, h5, h6, h7, h8, h9, h10⟩ := h
  obtain ⟨x, hx⟩ := Option.isSome_iff_exists.mp (h4 p (by simp))
  have hL : ∀ q, (get (put s.peers p { x with inFlight := false, failed := x.failed + 1 }) q).isSome ↔ s.left q :=
    fun q => left_put hx
  refine ⟨x, hx, by unfold tryLater; rw [hx], uniq_put _ _ _ h1, (List.nodup_cons.mp h2).2, ?_,
    fun q hq => (hL q).mpr (h4 q (by simp [hq])), fun q hq => h5 q ((hL q).mp hq), h6,
    fun q hq => ⟨fun hl => (h7 q hq).1 ((hL q).mp hl), (h7 q hq).2⟩, h8, fun q hq => (h9 q hq).imp (hL q).mpr id, h10⟩
  intro q y hy
  simp only [get_put] at hy
  by_cases hq : q = p
  · subst hq; rw [if_pos rfl] at hy; cases hy
    simp only [Bool.false_eq_true, false_iff]; exact (List.nodup_cons.mp h2).1
  · rw [if_neg hq] at hy; rw [h3 q y hy]; simp [hq]

theorem author_signer {c : Cfg} (h : c.authorOut = false) : c.author ∈ c.signers.map (·.1) := by
  simpa [Cfg.authorOut] using h

/-- What a final answer of `p` makes of the state. -/
def outOf (c : Cfg) (s : St) (p : Nat) : St :=
  onNotFound c { s with peers := del s.peers (fun q => decide (q = p)) } p

theorem left_out {s : St} {p q : Nat} :
    (get (del s.peers (fun q => decide (q = p))) q).isSome ↔ q ≠ p ∧ s.left q := by
  rw [get_del]
  by_cases hq : q = p
  · subst hq; simp
  · rw [if_neg (by simpa using hq)]; simp [hq, St.left]

theorem takeOut_some {c : Cfg} {s : St} {B} {p : Nat} (h : Inv c s (p :: B)) :
    takeOut s p = some { s with peers := del s.peers (fun q => decide (q = p)) } := by
  obtain ⟨x, hx⟩ := Option.isSome_iff_exists.mp (h.known p (by simp))
  unfold takeOut
  rw [hx]
  have := (h.flight p x hx).mpr (by simp)
  simp only [this, if_true]

theorem nodup_insert {l : List Nat} {p : Nat} (h : l.Nodup) : (l.insert p).Nodup := by
  by_cases hp : p ∈ l
  · rwa [List.insert_of_mem hp]
  · rw [List.insert_of_not_mem hp]; exact List.nodup_cons.mpr ⟨hp, h⟩

/-- The fields `onNotFound` leaves alone. -/
theorem outOf_eq (c : Cfg) (s : St) (p : Nat) :
    outOf c s p = { s with peers := del s.peers (fun q => decide (q = p)), notFound := (outOf c s p).notFound } := by
  unfold outOf onNotFound; split <;> rfl

theorem outOf_notFound (c : Cfg) (s : St) (p q : Nat) :
    q ∈ (outOf c s p).notFound ↔ q ∈ s.notFound ∨ (q = p ∧ ¬ (c.authorOut = true ∧ p = c.author)) := by
  unfold outOf onNotFound
  by_cases hx : c.authorOut = true ∧ p = c.author
  · rw [if_pos (by simpa using hx)]
    dsimp only
    exact ⟨.inl, fun h => h.elim id (fun k => absurd hx k.2)⟩
  · rw [if_neg (by simpa using hx)]
    simp only [List.mem_insert_iff]
    exact ⟨fun h => h.elim (fun e => .inr ⟨e, hx⟩) .inl, fun h => h.elim .inr (fun e => .inl e.1)⟩

theorem outOf_inv {c : Cfg} {s : St} {B} {p : Nat} (h : Inv c s (p :: B)) : Inv c (outOf c s p) B := by
  obtain ⟨h1, h2, h3, h4, h5, h6, h7, h8, h9, h10⟩ := h
  have hn := outOf_notFound c s p
  have hnd : (outOf c s p).notFound.Nodup := by
    unfold outOf onNotFound; split
    · exact h6
    · exact nodup_insert h6
  rw [outOf_eq]
  refine ⟨uniq_del s.peers (fun q => decide (q = p)) h1, (List.nodup_cons.mp h2).2, ?_, ?_, fun q hq => h5 q (left_out.mp hq).2, hnd, ?_, h8, ?_, h10⟩
  · intro q y hy
    simp only [get_del] at hy
    by_cases hq : q = p
    · subst hq; simp at hy
    · rw [if_neg (by simpa using hq)] at hy
      rw [h3 q y hy]; simp [hq]
  · intro q hq
    refine left_out.mpr ⟨?_, h4 q (by simp [hq])⟩
    rintro rfl; exact (List.nodup_cons.mp h2).1 hq
  · intro q hq
    rcases (hn q).mp hq with hq | ⟨rfl, hx⟩
    · exact ⟨fun hl => (h7 q hq).1 (left_out.mp hl).2, (h7 q hq).2⟩
    · refine ⟨fun hl => (left_out.mp hl).1 rfl, ?_⟩
      rcases h5 q (h4 q (by simp)) with h | h
      · exact h
      · subst h
        refine author_signer ?_
        cases ha : c.authorOut
        · rfl
        · exact absurd ⟨ha, rfl⟩ hx
  · intro q hq
    by_cases hqp : q = p
    · subst hqp
      refine .inr ((hn q).mpr (.inr ⟨rfl, ?_⟩))
      rintro ⟨ha, rfl⟩
      simp only [Cfg.authorOut, Bool.not_eq_true', decide_eq_false_iff_not] at ha
      exact ha hq
    · rcases h9 q hq with h | h
      · exact .inl (left_out.mpr ⟨hqp, h⟩)
      · exact .inr ((hn q).mpr (.inl h))

/-- `checkNotFound` touches the result only. -/
theorem check_cases (c : Cfg) (s : St) :
    (c.count.majorityOfOthers ≤ s.notFound.length ∧ checkNotFound c s = { s with result := some .notFound }) ∨
    (s.notFound.length < c.count.majorityOfOthers ∧ checkNotFound c s = s) := by
  unfold checkNotFound
  by_cases h : c.count.majorityOfOthers ≤ s.notFound.length
  · exact .inl ⟨h, if_pos h⟩
  · exact .inr ⟨by omega, if_neg h⟩

theorem inv_result {c s B r} (h : Inv c s B) : Inv c { s with result := r } B := by
  obtain ⟨h1, h2, h3, h4, h5, h6, h7, h8, h9, h10⟩ := h
  exact ⟨h1, h2, h3, h4, h5, h6, h7, h8, h9, h10⟩

/-- What a step does: `m` are the queries it sends. -/
structure Did (c : Cfg) (s t : St) (e : Ev) (m : List Nat) : Prop where
  sent : t.sent = s.sent ++ m
  asked : ∀ q ∈ m, s.left q ∧ ∃ x, get t.peers q = some x ∧ x.resolved = true ∧ x.inFlight = true
  inv : t.result = none → Inv c t t.busy ∧ t.notFound.length < c.count.majorityOfOthers
  once : Once s → t.attempt ≥ s.attempt → Once t
  nf : ∀ q, q ∈ t.notFound ↔ q ∈ s.notFound ∨ (q ∈ c.signers.map (·.1) ∧ Unavailable c q e)
  res : ∀ r, t.result = some r →
    (r = .notFound ∧ t.notFound.Nodup ∧ c.count.majorityOfOthers ≤ t.notFound.length) ∨
    (r = .fromBroadcast ∧ e = .broadcast) ∨
    (r = .verified c.want ∧ ∃ p, e = .parsed p (.point c.want true)) ∨
    (r = .illFormed c.want ∧ ∃ p, e = .parsed p (.point c.want false) ∨ e = .parsed p (.illFormed c.want))

/-- The peers asked by `downloadRandom` are resolved and in flight afterwards. -/
theorem askLoop_flags : ∀ (n : Nat) (s : St), Uniq s.peers → ∀ q x, get s.peers q = some x →
    ∃ y, get (askLoop s n).peers q = some y ∧ y.resolved = x.resolved ∧ (x.inFlight = true → y.inFlight = true) := by
  intro n
  induction n with
  | zero => intro s _ q x hx; exact ⟨x, hx, rfl, id⟩
  | succ n ih =>
    intro s hu q x hx
    unfold askLoop
    cases ht : take s.peers s.attempt with
    | none => exact ⟨x, hx, rfl, id⟩
    | some e =>
      obtain ⟨p, t⟩ := e
      obtain ⟨z, hz, _, rfl, _⟩ := take_some hu ht
      dsimp only
      by_cases hq : q = p
      · subst hq
        obtain rfl : z = x := Option.some.inj (hz.symm.trans hx)
        obtain ⟨y, h1, h2, h3⟩ := ih { s with peers := put s.peers q { z with inFlight := true, last := some s.attempt }, downloading := q :: s.downloading, sent := s.sent ++ [q] } (uniq_put _ _ _ hu) q
            { z with inFlight := true, last := some s.attempt } (by simp [get_put])
        exact ⟨y, h1, h2, fun _ => h3 rfl⟩
      · exact ih { s with peers := put s.peers p { z with inFlight := true, last := some s.attempt }, downloading := p :: s.downloading, sent := s.sent ++ [p] } (uniq_put _ _ _ hu) q x
            (by simp [get_put, hq, hx])

/-- The end of a step: the peers are asked. -/
theorem random_asked {c : Cfg} {s : St} (h : Inv c s s.busy) :
    ∃ m, (downloadRandom c s).sent = s.sent ++ m ∧
      ∀ q ∈ m, s.left q ∧ ∃ x, get (downloadRandom c s).peers q = some x ∧ x.resolved = true ∧ x.inFlight = true := by
  obtain ⟨k1, k2, m, k3, k4, k5, _⟩ := random_inv h
  refine ⟨m, k4, fun q hq => ?_⟩
  obtain ⟨x, hx, hr⟩ := k5 q hq
  obtain ⟨y, h1, h2, _⟩ := askLoop_flags (currentPeers c s.attempt s.downloading.length) s h.uniq q x hx
  refine ⟨by simp [St.left, hx], y, h1, ?_, ?_⟩
  · rw [h2]; simp only [Status.ready, Bool.and_eq_true] at hr; exact hr.1.1
  · refine (k1.flight q y h1).mpr ?_
    rw [St.busy, k3]
    simp [hq]

/-- What happens to `s` before peers are asked again. -/
structure Pre (c : Cfg) (s u : St) (e : Ev) : Prop where
  sent : u.sent = s.sent
  attempt : u.attempt = s.attempt
  left : ∀ q, u.left q → s.left q
  last : ∀ q x, get u.peers q = some x → ∃ y, get s.peers q = some y ∧ y.last = x.last
  nf : ∀ q, q ∈ u.notFound ↔ q ∈ s.notFound ∨ (q ∈ c.signers.map (·.1) ∧ Unavailable c q e)

theorem Pre.once {c s u e} (h : Pre c s u e) (ho : Once s) : Once u := by
  intro p
  rw [h.sent, h.attempt]
  refine ⟨(ho p).1, fun x hx => ?_⟩
  obtain ⟨y, h1, h2⟩ := h.last p x hx
  rw [← h2]; exact (ho p).2 y h1

/-- A step that asks nobody. -/
theorem Pre.quiet {c s u t e} (h : Pre c s u e) (h1 : t.sent = u.sent) (h2 : t.peers = u.peers)
    (h3 : t.notFound = u.notFound) (hi : t.result = none → Inv c t t.busy ∧ t.notFound.length < c.count.majorityOfOthers)
    (hr : ∀ r, t.result = some r →
      (r = .notFound ∧ t.notFound.Nodup ∧ c.count.majorityOfOthers ≤ t.notFound.length) ∨
      (r = .fromBroadcast ∧ e = .broadcast) ∨
      (r = .verified c.want ∧ ∃ p, e = .parsed p (.point c.want true)) ∨
      (r = .illFormed c.want ∧ ∃ p, e = .parsed p (.point c.want false) ∨ e = .parsed p (.illFormed c.want))) :
    Did c s t e [] := by
  refine ⟨by simp [h1, h.sent], by simp, hi, fun ho ha p => ?_, fun q => by rw [h3]; exact h.nf q, hr⟩
  have := h.once ho p
  rw [h1, h2]
  refine ⟨?_, this.2⟩
  have h4 := this.1
  rw [h.attempt] at h4
  omega

/-- A step that asks peers, and may then count an attempt. -/
theorem Pre.ask {c s u t e} (h : Pre c s u e) (hI : Inv c u u.busy) (hr : u.result = none)
    (hn : u.notFound.length < c.count.majorityOfOthers) {a : Nat}
    (ht : t = { downloadRandom c u with attempt := a }) : ∃ m, Did c s t e m := by
  obtain ⟨m, h1, h2⟩ := random_asked hI
  obtain ⟨k1, k2, _⟩ := random_inv hI
  subst ht
  refine ⟨m, ?_, ?_, fun _ => ⟨?_, ?_⟩, ?_, ?_, ?_⟩
  · show (downloadRandom c u).sent = _
    rw [h1, h.sent]
  · exact fun q hq => ⟨h.left q (h2 q hq).1, (h2 q hq).2⟩
  · obtain ⟨h1, h2, h3, h4, h5, h6, h7, h8, h9, h10⟩ := k1
    exact ⟨h1, h2, h3, h4, h5, h6, h7, h8, h9, h10⟩
  · show (downloadRandom c u).notFound.length < _
    rw [k2.notFound]; exact hn
  · intro ho ha
    have ha : s.attempt ≤ a := ha
    have := askLoop_once (currentPeers c u.attempt u.downloading.length) u hI.uniq (h.once ho)
    intro p
    have h3 := this p
    refine ⟨?_, h3.2⟩
    have h4 := h3.1
    have h5 : (askLoop u (currentPeers c u.attempt u.downloading.length)).attempt = u.attempt := k2.attempt
    rw [h5] at h4
    have h6 := h.attempt
    show (askLoop u (currentPeers c u.attempt u.downloading.length)).sent.count p ≤ a + 1
    omega
  · intro q
    show q ∈ (downloadRandom c u).notFound ↔ _
    rw [k2.notFound]; exact h.nf q
  · intro r h3
    have h3 : (downloadRandom c u).result = some r := h3
    rw [k2.result, hr] at h3; cases h3

theorem update_pre {c s e} {p : Nat} {f : Status → Status} (hl : ∀ x, (f x).last = x.last)
    (hu : ∀ q, ¬ Unavailable c q e) : Pre c s (update s p f) e := by
  unfold update
  cases hx : get s.peers p with
  | none => exact ⟨rfl, rfl, fun _ h => h, fun q x h => ⟨x, h, rfl⟩, fun q => by simp [hu q]⟩
  | some x =>
    refine ⟨rfl, rfl, fun q h => (left_put hx).mp h, ?_, fun q => by simp [hu q]⟩
    intro q y hy
    simp only [get_put] at hy
    by_cases hq : q = p
    · subst hq; rw [if_pos rfl] at hy; cases hy; exact ⟨x, hx, (hl x).symm⟩
    · rw [if_neg hq] at hy; exact ⟨y, hy, rfl⟩

/-- A final answer of `p` that is not the point. -/
theorem out_pre {c s s' e} {p : Nat} {B} (hI : Inv c s (p :: B)) (h1 : s'.sent = s.sent) (h2 : s'.attempt = s.attempt)
    (h3 : s'.peers = s.peers) (h4 : s'.notFound = s.notFound) (he : Unavailable c p e)
    (hu : ∀ q, Unavailable c q e → q = p) : Pre c s (outOf c s' p) e := by
  refine ⟨?_, ?_, ?_, ?_, ?_⟩
  · rw [outOf_eq]; exact h1
  · rw [outOf_eq]; exact h2
  · rw [outOf_eq]; intro q hq
    have := (left_out (s := s')).mp hq
    rw [St.left, h3] at this; exact this.2
  · rw [outOf_eq]; intro q x hx
    simp only [get_del, h3] at hx
    split at hx
    · cases hx
    · exact ⟨x, hx, rfl⟩
  · intro q
    rw [outOf_notFound, h4]
    constructor
    · rintro (h | ⟨rfl, h⟩)
      · exact .inl h
      · refine .inr ⟨?_, he⟩
        rcases hI.dom q (hI.known q (by simp)) with h' | rfl
        · exact h'
        · refine author_signer ?_
          cases ha : c.authorOut
          · rfl
          · exact absurd ⟨ha, rfl⟩ h
    · rintro (h | ⟨h, h'⟩)
      · exact .inl h
      · obtain rfl := hu q h'
        refine .inr ⟨rfl, ?_⟩
        rintro ⟨ha, rfl⟩
        simp only [Cfg.authorOut, Bool.not_eq_true', decide_eq_false_iff_not] at ha
        exact ha h

theorem finalNot (c : Cfg) {s s' : St} {e : Ev} {p : Nat} {B} (hI : Inv c s (p :: B)) (hs : Inv c s' (p :: B))
    (h1 : s'.sent = s.sent) (h2 : s'.attempt = s.attempt) (h3 : s'.peers = s.peers) (h4 : s'.notFound = s.notFound)
    (hr : s'.result = none) (he : Unavailable c p e) (hu : ∀ q, Unavailable c q e → q = p)
    {k : St → St} (hk1 : ∀ u, u.result.isSome = true → k u = u)
    (hk2 : ∀ u, Inv c u B → u.result = none → u.slot = s'.slot → u.queue = s'.queue → u.downloading = s'.downloading →
      u.notFound.length < c.count.majorityOfOthers → Pre c s u e → ∃ m, Did c s (k u) e m) :
    ∃ m, Did c s (k (checkNotFound c (outOf c s' p))) e m := by
  have hp := out_pre (s := s) (s' := s') hI h1 h2 h3 h4 he hu
  have hi := outOf_inv hs
  rcases check_cases c (outOf c s' p) with ⟨hc, hc'⟩ | ⟨hc, hc'⟩
  · rw [hc', hk1 _ rfl]
    refine ⟨[], hp.quiet rfl rfl rfl (fun h => by cases h) ?_⟩
    intro r h; cases h
    exact .inl ⟨rfl, hi.nfnd, hc⟩
  · rw [hc']
    have e := outOf_eq c s' p
    refine hk2 _ hi ?_ ?_ ?_ ?_ hc hp <;> rw [e]
    exact hr

theorem step_did {c : Cfg} {s : St} {e : Ev} (hI : Inv c s s.busy)
    (hn : s.notFound.length < c.count.majorityOfOthers) (hr : s.result = none) (he : enabled s e) :
    ∃ t, step c s e = some t ∧ ∃ m, Did c s t e m := by
  cases e with
  | broadcast =>
    refine ⟨_, rfl, [], Pre.quiet (u := s) ⟨rfl, rfl, fun _ h => h, fun q x h => ⟨x, h, rfl⟩, fun q => ?_⟩ rfl rfl rfl
      (fun h => by cases h) ?_⟩
    · simp [Unavailable]
    · intro r h; cases h; exact .inr (.inl ⟨rfl, rfl⟩)
  | depender p =>
    have hp := update_pre (c := c) (s := s) (e := .depender p) (p := p) (f := fun x => { x with indep := false })
      (fun _ => rfl) (fun q => by simp [Unavailable])
    obtain ⟨h1, h2⟩ := update_inv (p := p) (f := fun x => { x with indep := false }) hI (fun _ => rfl)
    have e1 : (update s p fun x => { x with indep := false }).busy = s.busy := by unfold update; split <;> rfl
    have e2 : (update s p fun x => { x with indep := false }).notFound = s.notFound := by unfold update; split <;> rfl
    have e3 : (update s p fun x => { x with indep := false }).result = s.result := by unfold update; split <;> rfl
    refine ⟨_, rfl, [], hp.quiet rfl rfl rfl (fun _ => ⟨by rw [e1]; exact h1, by rw [e2]; exact hn⟩) ?_⟩
    intro r h; rw [e3, hr] at h; cases h
  | peer p b =>
    have hp := update_pre (c := c) (s := s) (e := .peer p b) (p := p) (f := fun x => { x with resolved := b })
      (fun _ => rfl) (fun q => by simp [Unavailable])
    obtain ⟨h1, h2⟩ := update_inv (p := p) (f := fun x => { x with resolved := b }) hI (fun _ => rfl)
    have e1 : (update s p fun x => { x with resolved := b }).busy = s.busy := by unfold update; split <;> rfl
    have e2 : (update s p fun x => { x with resolved := b }).notFound = s.notFound := by unfold update; split <;> rfl
    have e3 : (update s p fun x => { x with resolved := b }).result = s.result := by unfold update; split <;> rfl
    refine ⟨_, rfl, [], hp.quiet rfl rfl rfl (fun _ => ⟨by rw [e1]; exact h1, by rw [e2]; exact hn⟩) ?_⟩
    intro r h; rw [e3, hr] at h; cases h
  | tick =>
    refine ⟨_, rfl, Pre.ask (u := s) ⟨rfl, rfl, fun _ h => h, fun q x h => ⟨x, h, rfl⟩, fun q => ?_⟩ hI hr hn rfl⟩
    simp [Unavailable]
  | answer p a =>
    have hd := he.2
    have hperm : s.busy.Perm (p :: (s.downloading.erase p ++ (s.slot.toList ++ s.queue))) := by
      rw [St.busy, ← List.cons_append]
      exact List.Perm.append_right _ (List.perm_cons_erase hd)
    have hI' := hI.perm hperm
    have hs : Inv c { s with downloading := s.downloading.erase p } (p :: (s.downloading.erase p ++ (s.slot.toList ++ s.queue))) := by
      obtain ⟨h1, h2, h3, h4, h5, h6, h7, h8, h9, h10⟩ := hI'
      exact ⟨h1, h2, h3, h4, h5, h6, h7, h8, h9, Nat.le_trans (List.length_erase_le ..) h10⟩
    have hafter : ∀ e' : Ev, ∀ u, Inv c u (s.downloading.erase p ++ (s.slot.toList ++ s.queue)) → u.result = none →
        u.slot = s.slot → u.queue = s.queue → u.downloading = s.downloading.erase p →
        u.notFound.length < c.count.majorityOfOthers → Pre c s u e' → ∃ m, Did c s (answered.after c u) e' m := by
      intro e' u hu h1 h2 h3 h4 h5 h6
      have hb : u.busy = s.downloading.erase p ++ (s.slot.toList ++ s.queue) := by rw [St.busy, h2, h3, h4]
      unfold answered.after
      by_cases hsl : u.slot.isSome = true
      · rw [if_pos (by simp [hsl])]
        exact ⟨[], h6.quiet rfl rfl rfl (fun _ => ⟨by rw [hb]; exact hu, h5⟩) (fun r h => by rw [h1] at h; cases h)⟩
      · rw [if_neg (by simp [h1]; simpa using hsl)]
        exact h6.ask (by rw [hb]; exact hu) h1 h5 (a := (downloadRandom c u).attempt) rfl
    have hafter1 : ∀ u : St, u.result.isSome = true → answered.after c u = u := by
      intro u h; unfold answered.after; rw [if_pos (by simp [h])]
    cases a with
    | bytes =>
      have hp : Pre c s s (.answer p .bytes) :=
        ⟨rfl, rfl, fun _ h => h, fun q x h => ⟨x, h, rfl⟩, fun q => by simp [Unavailable]⟩
      refine ⟨_, rfl, [], ?_⟩
      obtain ⟨h1, h2, h3, h4, h5, h6, h7, h8, h9, h10⟩ := hs
      by_cases hsl : s.slot.isSome = true
      · simp only [hsl, if_true]
        refine hp.quiet rfl rfl rfl (fun _ => ⟨Inv.perm ⟨h1, h2, h3, h4, h5, h6, h7, ?_, h9, h10⟩ ?_, hn⟩)
          (fun r h => by rw [show s.result = some r from h] at hr; cases hr)
        · intro h; rw [show s.slot = none from h] at hsl; cases hsl
        · show List.Perm _ (s.downloading.erase p ++ (s.slot.toList ++ p :: s.queue))
          rw [← List.append_assoc, ← List.append_assoc]; exact List.perm_middle.symm
      · simp only [hsl, Bool.false_eq_true, if_false]
        have hnone : s.slot = none := by simpa using hsl
        refine hp.quiet rfl rfl rfl (fun _ => ⟨Inv.perm ⟨h1, h2, h3, h4, h5, h6, h7, fun h => (by cases h), h9, h10⟩ ?_, hn⟩)
          (fun r h => by rw [show s.result = some r from h] at hr; cases hr)
        show List.Perm _ (s.downloading.erase p ++ (p :: s.queue))
        rw [hnone]; exact List.perm_middle.symm
    | definedNone =>
      obtain ⟨m, hm⟩ := finalNot c hI' hs rfl rfl rfl rfl hr (e := .answer p .definedNone) (by simp [Unavailable])
        (fun q h => by simpa [Unavailable, eq_comm] using h) hafter1 (hafter _)
      refine ⟨_, ?_, m, hm⟩
      simp only [step, answered, takeOut_some hs, Option.map_some]; rfl
    | tlError =>
      obtain ⟨m, hm⟩ := finalNot c hI' hs rfl rfl rfl rfl hr (e := .answer p .tlError) (by simp [Unavailable])
        (fun q h => by simpa [Unavailable, eq_comm] using h) hafter1 (hafter _)
      refine ⟨_, ?_, m, hm⟩
      simp only [step, answered, takeOut_some hs, Option.map_some]; rfl
    | tryLater =>
      obtain ⟨x, hx, h1, h2⟩ := tryLater_inv hs
      have hc : checkNotFound c { s with downloading := s.downloading.erase p, peers := put s.peers p { x with inFlight := false, failed := x.failed + 1 } } = _ :=
        if_neg (by show ¬ c.count.majorityOfOthers ≤ s.notFound.length; omega)
      obtain ⟨m, hm⟩ := hafter (.answer p .tryLater) _ h2 hr rfl rfl rfl hn
        ⟨rfl, rfl, fun q h => (left_put hx).mp h, fun q y hy => by
          simp only [get_put] at hy
          by_cases hq : q = p
          · subst hq; rw [if_pos rfl] at hy; cases hy; exact ⟨x, hx, rfl⟩
          · rw [if_neg hq] at hy; exact ⟨y, hy, rfl⟩, fun q => by simp [Unavailable]⟩
      refine ⟨_, ?_, m, hm⟩
      simp only [step, answered, h1, Option.map_some]
      exact congrArg (fun u => some (answered.after c u)) hc
    | network =>
      obtain ⟨x, hx, h1, h2⟩ := tryLater_inv hs
      have hc : checkNotFound c { s with downloading := s.downloading.erase p, peers := put s.peers p { x with inFlight := false, failed := x.failed + 1 } } = _ :=
        if_neg (by show ¬ c.count.majorityOfOthers ≤ s.notFound.length; omega)
      obtain ⟨m, hm⟩ := hafter (.answer p .network) _ h2 hr rfl rfl rfl hn
        ⟨rfl, rfl, fun q h => (left_put hx).mp h, fun q y hy => by
          simp only [get_put] at hy
          by_cases hq : q = p
          · subst hq; rw [if_pos rfl] at hy; cases hy; exact ⟨x, hx, rfl⟩
          · rw [if_neg hq] at hy; exact ⟨y, hy, rfl⟩, fun q => by simp [Unavailable]⟩
      refine ⟨_, ?_, m, hm⟩
      simp only [step, answered, h1, Option.map_some]
      exact congrArg (fun u => some (answered.after c u)) hc
  | parsed p r =>
    have hsl := he.2
    have hperm : s.busy.Perm (p :: (s.downloading ++ s.queue)) := by
      rw [St.busy, hsl]; exact List.perm_middle
    have hI' := hI.perm hperm
    have hnext : ∀ e' : Ev, ∀ u, Inv c u (s.downloading ++ s.queue) → u.result = none →
        u.slot = s.slot → u.queue = s.queue → u.downloading = s.downloading →
        u.notFound.length < c.count.majorityOfOthers → Pre c s u e' → ∃ m, Did c s (parsed.next c u) e' m := by
      intro e' u hu h1 h2 h3 h4 h5 h6
      unfold parsed.next
      rw [if_neg (by simp [h1])]
      cases hq : u.queue with
      | cons q l =>
        obtain ⟨i1, i2, i3, i4, i5, i6, i7, i8, i9, i10⟩ := hu
        refine ⟨[], h6.quiet rfl rfl rfl (fun _ => ⟨?_, h5⟩) (fun r h => by rw [show u.result = some r from h] at h1; cases h1)⟩
        have hb : s.downloading ++ s.queue = u.downloading ++ (q :: l) := by rw [h4, ← h3, hq]
        rw [hb] at i2 i3 i4
        exact ⟨i1, i2, i3, i4, i5, i6, i7, fun h => (by cases h), i9, i10⟩
      | nil =>
        obtain ⟨i1, i2, i3, i4, i5, i6, i7, i8, i9, i10⟩ := hu
        have hb : s.downloading ++ s.queue = u.downloading ++ ([] ++ u.queue) := by rw [h4, ← h3]; rfl
        rw [hb] at i2 i3 i4
        refine Pre.ask (u := { u with slot := none }) ⟨h6.sent, h6.attempt, h6.left, h6.last, h6.nf⟩
          ⟨i1, i2, i3, i4, i5, i6, i7, fun _ => hq, i9, i10⟩ h1 h5 (a := (downloadRandom c { u with slot := none }).attempt) ?_
        rw [hq]
    have hnext1 : ∀ u : St, u.result.isSome = true → parsed.next c u = u := by
      intro u h; unfold parsed.next; rw [if_pos h]
    have hfin : ∀ x, s.result = none → (∀ q, ¬ Unavailable c q (.parsed p r)) →
        ((x = .verified c.want ∧ ∃ p', Ev.parsed p r = .parsed p' (.point c.want true)) ∨
          (x = .illFormed c.want ∧ ∃ p', Ev.parsed p r = .parsed p' (.point c.want false) ∨ Ev.parsed p r = .parsed p' (.illFormed c.want))) →
        ∃ m, Did c s { s with peers := del s.peers (fun q => decide (q = p)), result := some x } (.parsed p r) m := by
      intro x _ hu hx
      refine ⟨[], Pre.quiet (u := { s with peers := del s.peers (fun q => decide (q = p)), result := some x })
        ⟨rfl, rfl, fun q h => (left_out.mp h).2, ?_, fun q => by simp [hu q]⟩ rfl rfl rfl (fun h => by cases h) ?_⟩
      · intro q y hy
        simp only [get_del] at hy
        split at hy
        · cases hy
        · exact ⟨y, hy, rfl⟩
      · intro y hy; cases hy
        exact .inr (.inr hx)
    cases r with
    | point id ok =>
      by_cases hid : id = c.want
      · subst hid
        obtain ⟨m, hm⟩ := hfin (if ok then .verified c.want else .illFormed c.want) hr (by simp [Unavailable]) (by
          cases ok
          · exact .inr ⟨rfl, p, .inl rfl⟩
          · exact .inl ⟨rfl, p, rfl⟩)
        refine ⟨_, ?_, m, hm⟩
        simp only [step, parsed, takeOut_some hI', Option.map_some, if_true]
      · obtain ⟨m, hm⟩ := finalNot c hI' hI' rfl rfl rfl rfl hr (e := .parsed p (.point id ok)) (by simp [Unavailable, hid])
          (fun q h => by simp [Unavailable] at h; exact h.2.symm) hnext1 (hnext _)
        refine ⟨_, ?_, m, hm⟩
        simp only [step, parsed, takeOut_some hI', Option.map_some, if_neg hid]; rfl
    | illFormed id =>
      by_cases hid : id = c.want
      · subst hid
        obtain ⟨m, hm⟩ := hfin (.illFormed c.want) hr (by simp [Unavailable]) (.inr ⟨rfl, p, .inr rfl⟩)
        refine ⟨_, ?_, m, hm⟩
        simp only [step, parsed, takeOut_some hI', Option.map_some, if_true]
      · obtain ⟨m, hm⟩ := finalNot c hI' hI' rfl rfl rfl rfl hr (e := .parsed p (.illFormed id)) (by simp [Unavailable, hid])
          (fun q h => by simp [Unavailable] at h; exact h.2.symm) hnext1 (hnext _)
        refine ⟨_, ?_, m, hm⟩
        simp only [step, parsed, takeOut_some hI', Option.map_some, if_neg hid]; rfl
    | badPoint =>
      obtain ⟨m, hm⟩ := finalNot c hI' hI' rfl rfl rfl rfl hr (e := .parsed p .badPoint) (by simp [Unavailable])
        (fun q h => by simpa [Unavailable, eq_comm] using h) hnext1 (hnext _)
      refine ⟨_, ?_, m, hm⟩
      simp only [step, parsed, takeOut_some hI', Option.map_some]; rfl
    | tlError =>
      obtain ⟨m, hm⟩ := finalNot c hI' hI' rfl rfl rfl rfl hr (e := .parsed p .tlError) (by simp [Unavailable])
        (fun q h => by simpa [Unavailable, eq_comm] using h) hnext1 (hnext _)
      refine ⟨_, ?_, m, hm⟩
      simp only [step, parsed, takeOut_some hI', Option.map_some]; rfl

end Tycho.Downloader
