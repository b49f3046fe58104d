import Verif.Commit.Lemmas

/-!
C05: the history handed out with an anchor.
-/
namespace Tycho.Commit

theorem rangeRev_range' {d : Dag} (hc : Contiguous d) (lo hi : Nat) :
    ∀ r, r ∈ d.rangeRev lo hi ↔ r ∈ d.rounds ∧ lo ≤ r ∧ r ≤ hi := by
  intro r; simp [Dag.rangeRev]

theorem bottom_le {d : Dag} (hc : Contiguous d) {r} (h : r ∈ d.rounds) : d.bottom ≤ r := by
  obtain ⟨n, hn⟩ := hc
  rw [hn, List.mem_range'_1] at h
  exact h.1

theorem mem_rounds_of_le {d : Dag} (hc : Contiguous d) {r r'} (h : r ∈ d.rounds) (h1 : d.bottom ≤ r') (h2 : r' ≤ r) :
    r' ∈ d.rounds := by
  obtain ⟨n, hn⟩ := hc
  rw [hn, List.mem_range'_1] at h ⊢
  omega

theorem gather_eq {S c d fb anchor hist} (h : gather S c d fb anchor = .ok hist) :
    ∃ n, gatherLoop S d (d.rangeRev (historyLimit c anchor.id.round) anchor.id.round) (anchor.id.round + 1)
      [(anchor.id.digest, anchor.id.author)] [] (S.seed anchor.id.digest) [] = .ok (n, hist) ∧
      (fb ≤ historyLimit c anchor.id.round → n = historyLimit c anchor.id.round) := by
  unfold gather at h
  split at h
  · simp at h
  split at h
  · simp at h
  · rename_i x hx
    unfold checkFull at h
    split at h
    · simp at h
    · rename_i hn
      simp at h
      exact ⟨x.1, by rw [hx, ← h], fun hf => by by_contra hne; exact hn ⟨hf, hne⟩⟩

theorem gather_limit {S c d fb anchor hist} (h : gather S c d fb anchor = .ok hist) :
    historyLimit c anchor.id.round ≤ anchor.id.round := by
  unfold gather at h
  split at h
  · simp at h
  · omega

/-- The lowest round visited. -/
theorem gather_low {S c d fb anchor hist} (h : gather S c d fb anchor = .ok hist) :
    ∃ n, n ≤ anchor.id.round + 1 ∧
      (∀ r, (r ∈ d.rounds ∧ historyLimit c anchor.id.round ≤ r ∧ r ≤ anchor.id.round) ↔
        (n ≤ r ∧ r ≤ anchor.id.round)) ∧
      (∃ r0 r1, Inv d anchor.id n r0 r1 hist) ∧
      (DigestUnique d → ∃ r0 r1, Complete d anchor.id n r0 r1 hist) ∧
      (fb ≤ historyLimit c anchor.id.round → n = historyLimit c anchor.id.round) := by
  obtain ⟨n, hn, hfull⟩ := gather_eq h
  obtain ⟨hi, hle, hrs⟩ := gatherLoop_inv S _ hn (inv_start d anchor.id)
  refine ⟨n, hle, ?_, hi, fun hu =>
    gatherLoop_complete S hu _ hn (Nat.le_refl _) (inv_start d anchor.id) (complete_start d anchor.id), hfull⟩
  intro r
  have : r ∈ d.rangeRev (historyLimit c anchor.id.round) anchor.id.round ↔ n ≤ r ∧ r ≤ anchor.id.round := by
    rw [hrs, List.mem_reverse, List.mem_range'_1]; omega
  rw [← this]; simp [Dag.rangeRev]

/-- No point twice. -/
theorem history_nodup {S c d fb anchor hist} (h : gather S c d fb anchor = .ok hist) : (hist.map Point.id).Nodup := by
  obtain ⟨n, _, _, ⟨_, _, I⟩, _⟩ := gather_low h
  exact I.out_nodup

/-- Only uncommitted points of the local DAG that are reachable from the anchor within the limit. -/
theorem history_sound {S c d fb anchor hist} (h : gather S c d fb anchor = .ok hist) (hc : Contiguous d) :
    ∀ p ∈ hist, d.point p.id = some p ∧ InHistory d (historyLimit c anchor.id.round) anchor.id p.id := by
  obtain ⟨n, _, hr, ⟨_, _, I⟩, _⟩ := gather_low h
  intro p hp
  obtain ⟨h1, h2, h3, h4⟩ := I.out_sound p hp
  have h5 := (hr p.id.round).2 ⟨h4, reach_round h2⟩
  exact ⟨h1, h2, h3, h5.2.1, bottom_le hc h5.1⟩

/-- All of them. -/
theorem history_complete {S c d fb anchor hist} (h : gather S c d fb anchor = .ok hist) (hc : Contiguous d)
    (hu : DigestUnique d) (ha : anchor.id.round ∈ d.rounds) :
    ∀ id, InHistory d (historyLimit c anchor.id.round) anchor.id id → ∃ p ∈ hist, p.id = id := by
  obtain ⟨n, _, hr, _, hC, _⟩ := gather_low h
  obtain ⟨_, _, C⟩ := hC hu
  rintro id ⟨h1, h2, h3, h4⟩
  have hle := reach_round h1
  have hn := ((hr id.round).1 ⟨mem_rounds_of_le hc ha h4 hle, h3, hle⟩).1
  obtain ⟨p, hp⟩ := C.viewed id hn h1
  have := (point_id hp).1
  exact ⟨p, C.out_all p (by rw [this]; exact hp) (by rw [this]; exact h1) (by rw [this]; exact h2)
    (by rw [this]; exact hn), this⟩

/-- A point comes after every point of the history it links to: an earlier one never links to a later one. -/
theorem history_causal {S c d fb anchor hist} (h : gather S c d fb anchor = .ok hist) :
    hist.Pairwise fun p q => ¬ LinkTo p.id p.body q.id := by
  obtain ⟨n, _, _, ⟨_, _, I⟩, _⟩ := gather_low h
  refine I.out_sorted.imp ?_
  intro p q hle hl
  rcases hl with ⟨_, h⟩ | ⟨_, h⟩ <;> omega

theorem mem_of_sorted_max {l : List Point} {p : Point} (hs : l.Pairwise fun p q => p.id.round ≤ q.id.round)
    (hp : p ∈ l) (hmax : ∀ q ∈ l, q.id.round < p.id.round ∨ q = p) : l.getLast? = some p := by
  induction l with
  | nil => simp at hp
  | cons x xs ih =>
    rw [List.pairwise_cons] at hs
    cases xs with
    | nil => simp at hp; simp [hp]
    | cons y ys =>
      rw [List.getLast?_cons_cons]
      rcases List.mem_cons.1 hp with rfl | hp
      · have h1 := hs.1 y (by simp)
        have h2 := hmax y (by simp)
        have : y = p := by rcases h2 with h2 | h2; omega; exact h2
        exact ih hs.2 (by simp [this]) (fun q hq => hmax q (by simp at hq ⊢; tauto))
      · exact ih hs.2 hp (fun q hq => hmax q (by simp at hq ⊢; tauto))

theorem reach_same_round {d a p} (h : Reach d a p) (hr : p.round = a.round) : p = a := by
  cases h with
  | anchor => rfl
  | link hp _ _ hl =>
    have := reach_round hp
    rcases hl with ⟨_, hl⟩ | ⟨_, hl⟩ <;> omega

theorem gatherLoop_out_sub {S : Shuffler} {d : Dag} : ∀ (rs) {next r0 r1 g out n out'},
    gatherLoop S d rs next r0 r1 g out = .ok (n, out') → ∀ p ∈ out, p ∈ out'
  | [], _, _, _, _, _, _, _, h => by simp [gatherLoop] at h; simp [h.2]
  | r :: rest, next, r0, r1, g, out, n, out', h => by
    simp only [gatherLoop] at h
    split at h
    · simp at h
    · split at h
      · simp at h
      · rename_i w hw
        intro p hp
        refine gatherLoop_out_sub rest h p ?_
        rw [(visitAll_ok _ hw).2.1]; simp [hp]

/-- The anchor is the last point of its own history, provided it was not committed before. -/
theorem history_anchor_last {S c d fb anchor hist} (h : gather S c d fb anchor = .ok hist)
    (ha : anchor.id.round ∈ d.rounds) (hcm : d.committed anchor.id = false) :
    ∃ p, hist.getLast? = some p ∧ p.id = anchor.id ∧ d.point anchor.id = some p := by
  obtain ⟨n, hn, hr, ⟨_, _, I⟩, _⟩ := gather_low h
  obtain ⟨m, hm, _⟩ := gather_eq h
  have hlow : historyLimit c anchor.id.round ≤ anchor.id.round := gather_limit h
  have hmem : anchor.id.round ∈ d.rangeRev (historyLimit c anchor.id.round) anchor.id.round := by
    simp [Dag.rangeRev, ha, hlow]
  have key : ∃ p ∈ hist, p.id = anchor.id ∧ d.point anchor.id = some p := by
    obtain ⟨rest, hrest⟩ : ∃ rest, d.rangeRev (historyLimit c anchor.id.round) anchor.id.round = anchor.id.round :: rest := by
      obtain ⟨_, hle, hrs⟩ := gatherLoop_inv S _ hm (inv_start d anchor.id)
      rw [hrs] at hmem ⊢
      rw [List.mem_reverse, List.mem_range'_1] at hmem
      have : anchor.id.round + 1 - m = (anchor.id.round - m) + 1 := by omega
      rw [this, List.range'_concat]
      refine ⟨(List.range' m (anchor.id.round - m)).reverse, ?_⟩
      simp; omega
    rw [hrest] at hm
    simp only [gatherLoop] at hm
    split at hm
    · omega
    · split at hm
      · simp at hm
      · rename_i w hw
        obtain ⟨h1, h2, -⟩ := visitAll_ok _ hw
        have hperm := (S.perm (S.seed anchor.id.digest) (sortPairs [(anchor.id.digest, anchor.id.author)])).trans
          (sortPairs_perm _)
        obtain ⟨p, hp⟩ := h1 (anchor.id.digest, anchor.id.author) (hperm.mem_iff.2 (by simp))
        have hid := (point_id hp).1
        refine ⟨p, gatherLoop_out_sub rest hm p ?_, hid, hp⟩
        rw [h2]
        simp only [List.mem_append, List.mem_reverse, List.mem_filterMap]
        exact Or.inl ⟨_, hperm.mem_iff.2 (by simp), fresh_some.2 ⟨hp, by rw [hid]; exact hcm⟩⟩
  obtain ⟨p, hp, hid, hpt⟩ := key
  refine ⟨p, mem_of_sorted_max I.out_sorted hp ?_, hid, hpt⟩
  intro q hq
  obtain ⟨q1, q2, q3, q4⟩ := I.out_sound q hq
  have hle := reach_round q2
  rcases Nat.lt_or_ge q.id.round anchor.id.round with hlt | hge
  · left; rw [hid]; exact hlt
  · right
    have := reach_same_round q2 (by omega)
    rw [this] at q1
    rw [q1] at hpt
    exact Option.some.inj hpt

/-- When the local DAG is known to hold the full history, nothing within the configured depth is left out: the walk really
went down to the limit. -/
theorem history_full {S c d fb anchor hist} (h : gather S c d fb anchor = .ok hist) (hc : Contiguous d)
    (hu : DigestUnique d) (ha : anchor.id.round ∈ d.rounds) (hfb : fb ≤ historyLimit c anchor.id.round) :
    ∀ id, Reach d anchor.id id → d.committed id = false → historyLimit c anchor.id.round ≤ id.round →
      ∃ p ∈ hist, p.id = id := by
  intro id h1 h2 h3
  obtain ⟨n, _, hr, _, _, hf⟩ := gather_low h
  have hb : d.bottom ≤ id.round :=
    bottom_le hc ((hr id.round).2 ⟨by rw [hf hfb]; exact h3, reach_round h1⟩).1
  exact history_complete h hc hu ha id ⟨h1, h2, h3, hb⟩

end Tycho.Commit
