import Mathlib.Data.List.Perm.Subperm
import Verif.Downloader.Run

namespace Tycho.Downloader
open Tycho.Table

variable {c : Cfg} {h : List Ev} {s t : St} {e : Ev}

/-! ## C168: what a download gives -/

/-- A download gives up only if at least 2F different validators of the next round answered that they have
no such point. -/
theorem notFound_sound (hc : c.WF) (hR : Reach c h s) (hr : s.result = some .notFound) :
    ∃ l : List Nat, l.Nodup ∧ 2 * c.count.oneF ≤ l.length ∧
      ∀ p ∈ l, p ∈ c.signers.map (·.1) ∧ ∃ e ∈ h, Unavailable c p e := by
  have hS := run_of hc hR
  rcases hS.res _ hr with ⟨_, h1, h2⟩ | ⟨h1, _⟩ | ⟨h1, _⟩ | ⟨h1, _⟩
  · refine ⟨s.notFound, h1, ?_, fun p hp => (hS.nf p).mp hp⟩
    simp only [PeerCount.PeerCount.majorityOfOthers] at h2; omega
  · cases h1
  · cases h1
  · cases h1

/-- It gives up as soon as that many did: while it runs, fewer answered so. -/
theorem notFound_prompt (hc : c.WF) (hR : Reach c h s) (hr : s.result = none) (l : List Nat) (hl : l.Nodup)
    (hp : ∀ p ∈ l, p ∈ c.signers.map (·.1) ∧ ∃ e ∈ h, Unavailable c p e) : l.length < 2 * c.count.oneF := by
  have hS := run_of hc hR
  have hn := (hS.inv hr).2
  have : l.length ≤ s.notFound.length :=
    (List.subperm_of_subset hl (fun p hp' => (hS.nf p).mpr (hp p hp'))).length_le
  simp only [PeerCount.PeerCount.majorityOfOthers] at hn; omega

/-- A downloaded point is the wanted one: a peer sent it, its signatures are good, and it is verified just
if the verifier accepts it. A point taken from broadcast came by broadcast. -/
theorem point_sound (hc : c.WF) (hR : Reach c h s) :
    (∀ id, s.result = some (.verified id) → id = c.want ∧ ∃ p, .parsed p (.point c.want true) ∈ h) ∧
    (∀ id, s.result = some (.illFormed id) → id = c.want ∧
      ∃ p, .parsed p (.point c.want false) ∈ h ∨ .parsed p (.illFormed c.want) ∈ h) ∧
    (s.result = some .fromBroadcast → .broadcast ∈ h) := by
  have hS := run_of hc hR
  refine ⟨fun id hr => ?_, fun id hr => ?_, fun hr => ?_⟩
  · rcases hS.res _ hr with ⟨h1, _⟩ | ⟨h1, _⟩ | ⟨h1, p, h2⟩ | ⟨h1, _⟩ <;> cases h1
    exact ⟨rfl, p, h2⟩
  · rcases hS.res _ hr with ⟨h1, _⟩ | ⟨h1, _⟩ | ⟨h1, _⟩ | ⟨h1, p, h2⟩ <;> cases h1
    exact ⟨rfl, p, h2⟩
  · rcases hS.res _ hr with ⟨h1, _⟩ | ⟨_, h2⟩ | ⟨h1, _⟩ | ⟨h1, _⟩
    · cases h1
    · exact h2
    · cases h1
    · cases h1

/-- The wanted point, once parsed, ends the download at once, whatever was answered before. -/
theorem point_ends (hc : c.WF) (hR : Reach c h s) {p : Nat} {ok : Bool} :
    (enabled s (.parsed p (.point c.want ok)) → ∃ t, step c s (.parsed p (.point c.want ok)) = some t ∧
      t.result = some (if ok then .verified c.want else .illFormed c.want)) ∧
    (enabled s (.parsed p (.illFormed c.want)) → ∃ t, step c s (.parsed p (.illFormed c.want)) = some t ∧
      t.result = some (.illFormed c.want)) := by
  have hS := run_of hc hR
  have key : s.result = none ∧ s.slot = some p → ∃ v, takeOut s p = some v := by
    rintro ⟨hr, hs⟩
    have hI := (hS.inv hr).1
    have hb : p ∈ s.busy := by simp [St.busy, hs]
    obtain ⟨x, hx⟩ := Option.isSome_iff_exists.mp (hI.known p hb)
    refine ⟨{ s with peers := del s.peers (fun q => decide (q = p)) }, ?_⟩
    unfold takeOut
    rw [hx]
    dsimp only
    rw [if_pos ((hI.flight p x hx).mpr hb)]
  constructor
  · intro he
    obtain ⟨v, hv⟩ := key he
    refine ⟨{ v with result := some (if ok then .verified c.want else .illFormed c.want) }, ?_, rfl⟩
    simp only [step, parsed, hv, Option.map_some, if_true]
  · intro he
    obtain ⟨v, hv⟩ := key he
    refine ⟨{ v with result := some (.illFormed c.want) }, ?_, rfl⟩
    simp only [step, parsed, hv, Option.map_some, if_true]

/-- If of the validators of the next round fewer than 2F ever deny the point, it is never given up. -/
theorem never_given_up (hc : c.WF) (hR : Reach c h s) (honest : List Nat)
    (hh : honest.Nodup) (hs : ∀ p ∈ honest, p ∈ c.signers.map (·.1))
    (hn : c.signers.length < 2 * c.count.oneF + honest.length)
    (hu : ∀ p ∈ honest, ∀ e ∈ h, ¬ Unavailable c p e) : s.result ≠ some .notFound := by
  intro hr
  obtain ⟨l, h1, h2, h3⟩ := notFound_sound hc hR hr
  have hd : (l ++ honest).Nodup := by
    refine List.nodup_append.mpr ⟨h1, hh, fun a ha b hb hab => ?_⟩
    subst hab
    obtain ⟨e, he, hx⟩ := (h3 a ha).2
    exact hu a hb e he hx
  have : (l ++ honest).length ≤ (c.signers.map (·.1)).length := by
    refine (List.subperm_of_subset hd (fun p hp => ?_)).length_le
    rcases List.mem_append.mp hp with hp | hp
    · exact (h3 p hp).1
    · exact hs p hp
  simp only [List.length_append, List.length_map] at this
  omega

/-! ## C169: the queries -/

/-- What can happen to a running download never panics. -/
theorem no_panic (hc : c.WF) (hR : Reach c h s) (he : enabled s e) : (step c s e).isSome := by
  have hS := run_of hc hR
  have hr := enabled_running he
  obtain ⟨t, ht, _⟩ := step_did (hS.inv hr).1 (hS.inv hr).2 hr he
  simp [ht]

/-- A peer has at most one query or unparsed answer at a time, and at most F + 1 queries are pending. -/
theorem pending_bound (hc : c.WF) (hR : Reach c h s) (hr : s.result = none) :
    (s.downloading ++ (s.slot.toList ++ s.queue)).Nodup ∧ s.downloading.length ≤ c.count.oneF + 1 := by
  have hI := ((run_of hc hR).inv hr).1
  exact ⟨hI.nodup, hI.cap⟩

/-- A peer is asked at most once per attempt: after `n` ticks, at most `n + 1` times. -/
theorem asked_once (hc : c.WF) (hR : Reach c h s) (hn : ticks h < 2 ^ 32) (p : Nat) :
    s.sent.count p ≤ ticks h + 1 := by
  obtain ⟨h1, h2⟩ := (run_of hc hR).once hn
  have := (h2 p).1
  omega

/-- The peers asked at a step are validators of the next round or the author of the point, known to be
resolved, and gave no final answer before. Nobody is asked anything else. -/
theorem asked_who (hc : c.WF) (hR : Reach c h s) (he : enabled s e) (ht : step c s e = some t) :
    ∃ m, t.sent = s.sent ++ m ∧ ∀ p ∈ m, (p ∈ c.signers.map (·.1) ∨ p = c.author) ∧
      c.resolved (h ++ [e]) p = true ∧ ∀ x ∈ h ++ [e], ¬ Final c p x := by
  have hS := run_of hc hR
  have hr := enabled_running he
  obtain ⟨t', ht', m, hD⟩ := step_did (hS.inv hr).1 (hS.inv hr).2 hr he
  obtain rfl : t' = t := Option.some.inj (ht'.symm.trans ht)
  have hT := run_of hc (.step hR he ht)
  refine ⟨m, hD.sent, fun p hp => ?_⟩
  obtain ⟨h1, x, h2, h3, _⟩ := hD.asked p hp
  refine ⟨(hS.inv hr).1.dom p h1, ?_, fun y hy hf => hT.gone p y hy hf (by simp [St.left, h2])⟩
  rw [← hT.known p x h2, h3]

/-! ## C170: it does not stall -/

/-- While a download runs, more than `n - 2F` validators of the next round are still to give their final
answer; and an answer with bytes is always being parsed. -/
theorem running_left (hc : c.WF) (hR : Reach c h s) (hr : s.result = none) :
    c.signers.length < 2 * c.count.oneF + ((c.signers.map (·.1)).filter (fun p => (get s.peers p).isSome)).length ∧
    (s.slot = none → s.queue = []) := by
  have hS := run_of hc hR
  obtain ⟨hI, hn⟩ := hS.inv hr
  refine ⟨?_, hI.slotq⟩
  have h1 := List.length_eq_length_filter_add (l := c.signers.map (·.1)) (fun p => (get s.peers p).isSome)
  have h2 : ((c.signers.map (·.1)).filter (fun p => !(get s.peers p).isSome)).length ≤ s.notFound.length := by
    refine (List.subperm_of_subset (hc.1.filter _) (fun p hp => ?_)).length_le
    obtain ⟨h3, h4⟩ := List.mem_filter.mp hp
    rcases hI.rest p h3 with h | h
    · simp only [St.left] at h; rw [h] at h4; cases h4
    · exact h
  simp only [List.length_map, PeerCount.PeerCount.majorityOfOthers] at h1 hn
  omega

/-- Who is still to give a final answer: of the validators of the next round and the author, those that
gave none. -/
theorem left_iff (hc : c.WF) (hR : Reach c h s) (hr : s.result = none) (p : Nat) :
    (get s.peers p).isSome ↔ (p ∈ c.signers.map (·.1) ∨ p = c.author) ∧ ∀ e ∈ h, ¬ Final c p e := by
  have hS := run_of hc hR
  constructor
  · intro hl
    exact ⟨(hS.inv hr).1.dom p hl, fun e he hf => hS.gone p e he hf hl⟩
  · rintro ⟨hp, hu⟩
    rcases hS.stay p hp with h1 | ⟨e, he, h2⟩
    · exact h1
    · exact absurd h2 (hu e he)

/-- At a tick peers are asked until `downloadPeers * attempt` queries are pending (at least one, at most
F + 1), or else everyone who is resolved and gave no final answer is being waited for or was asked since
the last tick (`h1` is the history up to that tick, `r` the queries sent since). -/
theorem tick_asks (hc : c.WF) (hR : Reach c h s) (he : enabled s .tick) (hn : ticks h < 2 ^ 32)
    (ht : step c s .tick = some t) :
    t.downloading.length = max s.downloading.length (min (max (c.downloadPeers * ticks h) 1) (c.count.oneF + 1)) ∨
    ∃ h1 s1 h2 r, h = h1 ++ h2 ∧ Reach c h1 s1 ∧ ticks h2 = 0 ∧ (h1 = [] ∨ ∃ h0, h1 = h0 ++ [.tick]) ∧
      t.sent = s1.sent ++ r ∧ ∀ p, (get t.peers p).isSome → c.resolved h p = true → p ∈ t.busy ∨ p ∈ r := by
  have hS := run_of hc hR
  obtain ⟨hI, _⟩ := hS.inv he.1
  obtain ⟨h1, s1, h2, r, e1, e2, e3, e4, e5, e6⟩ := hS.recent hn
  have hat := (hS.once hn).1
  obtain ⟨k1, k2, m, k3, k4, k5, k6⟩ := random_inv hI
  obtain ⟨g1, g2⟩ := LL.tick hI.uniq ht
  have hk := hS.known
  rcases k6 with k6 | k6
  · right
    refine ⟨h1, s1, h2, r ++ m, e1, e2, e3, e4, ?_, ?_⟩
    · rw [g1]; show (downloadRandom c s).sent = _
      rw [k4, e5, List.append_assoc]
    · intro p hp hres
      rw [g1] at hp ⊢
      obtain ⟨x, hx⟩ := Option.isSome_iff_exists.mp hp
      have hx' : get (downloadRandom c s).peers p = some x := hx
      have hnr := k6 p x hx'
      obtain ⟨y, hy, hyr⟩ := g2.keep trivial p x hx'
      have hxr : x.resolved = true := by rw [← hyr, hk p y hy, hres]
      by_cases hf : x.inFlight = true
      · exact .inl ((k1.flight p x hx').mp hf)
      · right
        have hf' : x.inFlight = false := by simpa using hf
        simp only [Status.ready, hxr, hf', Bool.not_false, Bool.and_true, Bool.true_and] at hnr
        cases hl : x.last with
        | none => rw [hl] at hnr; cases hnr
        | some a =>
          rw [hl] at hnr
          have ha : ¬ a < s.attempt := by simpa using hnr
          obtain ⟨n, n1, n2⟩ := g2.sent
          obtain rfl : n = m := List.append_cancel_left (n1.symm.trans k4)
          rcases n2 p x hx' a hl with ⟨z, hz, hza⟩ | ⟨_, hm⟩
          · rcases (e6 p z hz a hza).2 with h | h
            · exact absurd h ha
            · simp [h]
          · simp [hm]
  · left
    rw [g1]; show (downloadRandom c s).downloading.length = _
    rw [k6, hat]; rfl

/-- Whom the download asks next (`n` is the attempt): one that is ready whenever any is, and among the ready
ones least recently asked, then failed least often, then known to depend on the point. -/
theorem take_best {peers : Table Nat Status} (hu : Uniq peers) (n : Nat) :
    (take peers n = none ↔ ∀ p x, get peers p = some x → x.ready n = false) ∧
    ∀ p peers', take peers n = some (p, peers') → ∃ x, get peers p = some x ∧ x.ready n = true ∧
      ∀ q y, get peers q = some y → y.ready n = true →
        x.last.elim 0 (· + 1) < y.last.elim 0 (· + 1) ∨
        (x.last = y.last ∧ (x.failed < y.failed ∨ (x.failed = y.failed ∧ (x.indep = true → y.indep = true)))) := by
  refine ⟨⟨take_none, fun hno => ?_⟩, fun p t' ht => ?_⟩
  · cases ht : take peers n with
    | none => rfl
    | some e =>
      obtain ⟨p, t⟩ := e
      obtain ⟨x, hx, hr, _⟩ := take_some hu ht
      rw [hno p x hx] at hr; cases hr
  · obtain ⟨x, hx, hr, _, hmin⟩ := take_some hu ht
    refine ⟨x, hx, hr, fun q y hy hyr => ?_⟩
    have hle := hmin q y hy
    simp only [Status.ready, Bool.and_eq_true, Bool.not_eq_true'] at hr hyr
    simp only [Status.key, Prod.Lex.toLex_le_toLex, hr.1.1, hr.1.2, hyr.1.1, hyr.1.2, if_true, Bool.false_eq_true,
      if_false, Nat.lt_irrefl, false_or, true_and] at hle
    rcases hle with hle | ⟨h1, hle⟩
    · left
      revert hle; cases x.last <;> cases y.last <;> simp
    · right
      refine ⟨?_, ?_⟩
      · revert h1; cases x.last <;> cases y.last <;> simp
      · rcases hle with h2 | ⟨h2, h3⟩
        · exact .inl h2
        · refine .inr ⟨h2, ?_⟩
          revert h3; cases x.indep <;> cases y.indep <;> simp

end Tycho.Downloader
