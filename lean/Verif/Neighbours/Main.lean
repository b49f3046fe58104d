import Mathlib.Data.List.Infix
import Verif.Neighbours.Props

namespace Tycho.Neighbours

theorem reliable_iff {s : Stats} : s.reliable = true ↔ 16 ≤ s.score := by
  unfold Stats.reliable; exact decide_eq_true_iff

theorem sel_pos {x : Nat} (h : 16 ≤ x) : (if threshold ≤ x then some x else none) = some x := if_pos h

/-! ## C172 -/

/-- At any time: the index chooses among the present neighbours by weights, which are those of the selection
scores at the time of the last change. -/
theorem chosen_by_weight {max d : Nat} {s : St} (h : Reach max d s) : ∃ stats : Nat → Stats, ∃ ws,
    (∀ n w, (n, w) ∈ ws ↔ n ∈ s.entries ∧ (stats n.id).selection = some w) ∧
    (∀ e ∈ ws, 16 ≤ e.2 ∧ e.2 ≤ 144) ∧ (ws.map (·.1)).Nodup ∧ Chooses s.index ws := by
  have hi := inv_reach h
  obtain ⟨stats, hs, hx⟩ := hi.index
  have hn : s.entries.Nodup := List.Nodup.of_map _ hi.nodup
  refine ⟨stats, weights stats s.entries, fun n w => mem_weights, fun e he => ?_, ?_, ?_⟩
  · exact selection_bounds (hs e.1.id) (mem_weights.mp he).2
  · rw [weights_map]; exact hn.filter _
  · rw [hx]; exact chooses_build stats _ hs hn

/-- When the neighbours are stored, the weights are those of the present scores. -/
theorem chosen_by_present {max d : Nat} {s t : St} {e : Ev} (h : Reach max d s) (hw : e.WF)
    (ht : step max s e = some t) (hv : t.version ≠ s.version) : ∃ ws,
    (∀ n w, (n, w) ∈ ws ↔ n ∈ t.entries ∧ (t.stats n.id).selection = some w) ∧
    (ws.map (·.1)).Nodup ∧ Chooses t.index ws := by
  have hi := inv_reach (h.step hw ht)
  have hn : t.entries.Nodup := List.Nodup.of_map _ hi.nodup
  have hx : t.index = build t.stats t.entries := by
    cases e with
    | track i tm b => cases ht; exact absurd rfl hv
    | punish i r => cases ht; exact absurd rfl hv
    | applyLoad now => cases ht; exact absurd rfl hv
    | updateLoad l now => cases ht; exact absurd rfl hv
    | applyCommit a =>
      simp only [step] at ht
      split at ht
      · cases ht
        unfold applyCommit at hv ⊢
        split
        · rfl
        · rename_i hne; rw [if_neg hne] at hv; exact absurd rfl hv
      · cases ht
    | updateCommit u =>
      simp only [step] at ht
      split at ht
      · cases ht; rfl
      · cases ht
  refine ⟨weights t.stats t.entries, fun n w => mem_weights, ?_, ?_⟩
  · rw [weights_map]; exact hn.filter _
  · rw [hx]; exact chooses_build _ _ hi.score hn

/-- Several: `drawn` are those with the greatest keys, as many as asked for or all; of them those which may be
taken. -/
structure ChoosesMany (ix : Index) (key : Nb → Nat) (n : Nat) (ok : Nb → Bool) (l : List Nb) : Prop where
  drawn : ∃ dr : List Nb, dr.length = min n ix.items.length ∧
    (∀ m ∈ dr, m ∈ ix.items.map (·.1)) ∧
    (∀ m ∈ dr, ∀ o ∈ ix.items.map (·.1), o ∉ dr → key o ≤ key m) ∧
    ((ix.items.map (·.1)).Nodup → dr.Nodup) ∧ l = dr.filter ok

theorem choose_many (ix : Index) (key : Nb → Nat) (n : Nat) (ok : Nb → Bool) :
    ChoosesMany ix key n ok (chooseMultiple ix key n ok) := by
  constructor
  unfold chooseMultiple
  dsimp only
  by_cases h : min n ix.items.length = 0
  · rw [if_pos h, h]
    exact ⟨[], rfl, by simp, by simp, fun _ => List.nodup_nil, rfl⟩
  · rw [if_neg h]
    generalize hS : (ix.items.map (·.1)).insertionSort (fun a b => key a ≤ key b) = S
    have hp : S.Perm (ix.items.map (·.1)) := hS ▸ List.perm_insertionSort _ _
    have hlen : S.length = ix.items.length := by rw [hp.length_eq, List.length_map]
    haveI : Std.Total (fun a b : Nb => key a ≤ key b) := ⟨fun a b => Nat.le_total _ _⟩
    haveI : IsTrans Nb (fun a b : Nb => key a ≤ key b) := ⟨fun a b c h1 h2 => Nat.le_trans h1 h2⟩
    have hs : S.Pairwise (fun a b => key a ≤ key b) := hS ▸ List.pairwise_insertionSort _ _
    refine ⟨S.drop (ix.items.length - min n ix.items.length), ?_, ?_, ?_, ?_, rfl⟩
    · rw [List.length_drop, hlen]; omega
    · intro m hm; exact hp.mem_iff.mp (List.mem_of_mem_drop hm)
    · intro m hm o ho hno
      have ho' := hp.mem_iff.mpr ho
      rw [← List.take_append_drop (ix.items.length - min n ix.items.length) S] at ho' hs
      rcases List.mem_append.mp ho' with h1 | h1
      · exact (List.pairwise_append.mp hs).2.2 o h1 m hm
      · exact absurd h1 hno
    · intro hd
      exact (hp.nodup_iff.mpr hd).sublist (List.drop_sublist _ _)

/-! ## C173 -/

/-- There are never more than the most allowed, and never two of a peer. -/
theorem set_bounded {max d : Nat} {s : St} (h : Reach max d s) :
    s.entries.length ≤ max ∧ (s.entries.map (·.peer)).Nodup := ⟨(inv_reach h).len, (inv_reach h).nodup⟩

/-- Only storing changes the neighbours. -/
theorem set_kept {max : Nat} {s t : St} {e : Ev} (ht : step max s e = some t)
    (ha : ∀ a, e ≠ .applyCommit a) (hu : ∀ u, e ≠ .updateCommit u) :
    t.entries = s.entries ∧ t.index = s.index ∧ t.notified = s.notified := by
  cases e with
  | track i tm b => cases ht; exact ⟨rfl, rfl, rfl⟩
  | punish i r => cases ht; exact ⟨rfl, rfl, rfl⟩
  | applyLoad now => cases ht; exact ⟨rfl, rfl, rfl⟩
  | updateLoad l now => cases ht; exact ⟨rfl, rfl, rfl⟩
  | applyCommit a => exact absurd rfl (ha a)
  | updateCommit u => exact absurd rfl (hu u)

/-- An update begins: what it will store. -/
theorem update_begins {max : Nat} {s t : St} {new : List Nb} {now : Nat}
    (ht : step max s (.updateLoad new now) = some t) :
    ∃ u, t.updates = u :: s.updates ∧ Updated max s new now u := by
  cases ht; exact ⟨_, rfl, updated max s new now⟩

/-- It stores that, and waiters are notified if it changed anything. -/
theorem update_ends {max : Nat} {s t : St} {u : Update} (ht : step max s (.updateCommit u) = some t) :
    t.entries = u.list ∧ t.notified = s.notified + if u.changed = true then 1 else 0 := by
  simp only [step] at ht
  split at ht
  · cases ht
    refine ⟨rfl, ?_⟩
    simp only [updateCommit]
    split <;> rfl
  · cases ht

/-- A clean-up begins: it will store those reliable and not expired. -/
theorem clean_begins {max : Nat} {s t : St} {now : Nat} (ht : step max s (.applyLoad now) = some t) :
    ∃ a, t.applies = a :: s.applies ∧ a.version = s.version ∧
      (∀ n, n ∈ a.list ↔ n ∈ s.entries ∧ 16 ≤ (s.stats n.id).score ∧ now < n.expires) := by
  cases ht
  refine ⟨_, rfl, rfl, fun n => ?_⟩
  simp [applyLoad, good, reliable_iff]

/-- It stores that if nothing was stored meanwhile; waiters are notified if the set shrank. -/
theorem clean_ends {max d : Nat} {s t : St} {a : Apply} (h : Reach max d s)
    (ht : step max s (.applyCommit a) = some t) :
    (a.version ≠ s.version ∧ t.entries = s.entries ∧ t.index = s.index ∧ t.notified = s.notified) ∨
    (a.version = s.version ∧ t.entries = a.list ∧ a.list.Sublist s.entries ∧
      t.notified = s.notified + if t.entries = s.entries then 0 else 1) := by
  have hi := inv_reach h
  simp only [step] at ht
  split at ht
  · rename_i ha
    cases ht
    unfold applyCommit
    by_cases hv : a.version = s.version
    · obtain ⟨h1, h2⟩ := (hi.applies a ha).2 hv
      refine .inr ⟨hv, ?_⟩
      rw [if_pos hv]
      refine ⟨rfl, h1, ?_⟩
      by_cases he : a.list = s.entries
      · simp [h2, he]
      · have : a.list.length ≠ s.entries.length := fun hl => he (h1.eq_of_length hl)
        simp [h2, he, this]
    · refine .inl ⟨hv, ?_⟩
      rw [if_neg hv]; exact ⟨rfl, rfl, rfl⟩
  · cases ht

/-- Nothing stored meanwhile: the list is as it was. -/
theorem version_grows {max d : Nat} {s t : St} {e : Ev} (_h : Reach max d s) (ht : step max s e = some t) :
    (t.version = s.version ∧ t.entries = s.entries) ∨ t.version = s.version + 1 := by
  cases e with
  | track i tm b => cases ht; exact .inl ⟨rfl, rfl⟩
  | punish i r => cases ht; exact .inl ⟨rfl, rfl⟩
  | applyLoad now => cases ht; exact .inl ⟨rfl, rfl⟩
  | updateLoad l now => cases ht; exact .inl ⟨rfl, rfl⟩
  | applyCommit a =>
    simp only [step] at ht
    split at ht
    · cases ht
      unfold applyCommit
      split
      · exact .inr rfl
      · exact .inl ⟨rfl, rfl⟩
    · cases ht
  | updateCommit u =>
    simp only [step] at ht
    split at ht
    · cases ht; exact .inr rfl
    · cases ht

/-! ## C174: scores -/

/-- The scores are at most 128. -/
theorem scores_bounded {max d : Nat} {s : St} (h : Reach max d s) (i : Nat) : (s.stats i).score ≤ 128 :=
  (inv_reach h).score i

/-- A history of requests: round-trip times, with the outcome if it is known. -/
def tracks (s : Stats) (l : List (Nat × Option Bool)) : Stats := l.foldl (fun s e => s.track e.1 e.2) s

/-- The known outcomes. -/
def outcomes (l : List (Nat × Option Bool)) : List Bool := l.filterMap (·.2)

theorem tracks_append (s : Stats) (l : List (Nat × Option Bool)) (e : Nat × Option Bool) :
    tracks s (l ++ [e]) = (tracks s l).track e.1 e.2 := by simp [tracks]

theorem suffix_step (k : Nat) (l : List Bool) (b : Bool) :
    List.replicate (k + 1) false <:+ l ++ [b] ↔ b = false ∧ List.replicate k false <:+ l := by
  rw [List.replicate_succ']
  constructor
  · rintro ⟨t, ht⟩
    rw [← List.append_assoc] at ht
    have := List.append_inj' ht rfl
    simp only [List.cons.injEq, and_true] at this
    exact ⟨this.2.symm, t, this.1⟩
  · rintro ⟨rfl, t, rfl⟩
    exact ⟨t, by simp⟩

theorem history_aux (d : Nat) (l : List (Nat × Option Bool)) :
    ((tracks (Stats.new d) l).history % 2 = 1 ↔ List.replicate 1 false <:+ outcomes l) ∧
    ((tracks (Stats.new d) l).history % 4 = 3 ↔ List.replicate 2 false <:+ outcomes l) ∧
    ((tracks (Stats.new d) l).history % 8 = 7 ↔ List.replicate 3 false <:+ outcomes l) ∧
    ((tracks (Stats.new d) l).history % 16 = 15 ↔ List.replicate 4 false <:+ outcomes l) := by
  induction l using List.reverseRecOn with
  | nil => simp [tracks, outcomes, Stats.new]
  | append_singleton l e ih =>
    obtain ⟨i1, i2, i3, i4⟩ := ih
    obtain ⟨t, b⟩ := e
    rw [tracks_append]
    cases b with
    | none =>
      have : outcomes (l ++ [(t, none)]) = outcomes l := by simp [outcomes]
      rw [this]
      exact ⟨i1, i2, i3, i4⟩
    | some b =>
      have : outcomes (l ++ [(t, some b)]) = outcomes l ++ [b] := by simp [outcomes]
      rw [this, suffix_step, suffix_step, suffix_step, suffix_step, ← i1, ← i2, ← i3]
      generalize hh : (tracks (Stats.new d) l).history = H
      cases b with
      | true =>
        simp only [Stats.track, hh, reduceCtorEq, false_and, iff_false, ne_eq]
        omega
      | false =>
        simp only [Stats.track, hh, true_and]
        refine ⟨?_, ?_, ?_, ?_⟩
        · have : List.replicate 0 false <:+ outcomes l := by simp
          simp only [this, iff_true]; omega
        · omega
        · omega
        · omega

/-- A neighbour is chosen from iff its score is at least 16 - or at least 32, if the last four requests
failed; then by its score less 16, else by its score, and up to 16 more if that is at least 120. -/
theorem selection_spec (d : Nat) (l : List (Nat × Option Bool)) (s : Stats)
    (hs : s.history = (tracks (Stats.new d) l).history) (h128 : s.score ≤ 128) :
    ([false, false, false, false] <:+ outcomes l →
      s.selection = if 32 ≤ s.score then some (s.score - 16) else none) ∧
    (¬ [false, false, false, false] <:+ outcomes l →
      (s.score < 16 → s.selection = none) ∧
      (16 ≤ s.score → s.score < 120 → s.selection = some s.score) ∧
      (120 ≤ s.score → ∃ b, b ≤ 16 ∧ s.selection = some (s.score + b) ∧
        (0 < b ↔ ∃ avg, avgTime s.times = some avg ∧ avg ≤ 160))) := by
  have h4 := (history_aux d l).2.2.2
  rw [← hs] at h4
  have hr : List.replicate 4 false = [false, false, false, false] := rfl
  rw [hr] at h4
  refine ⟨fun hf => ?_, fun hf => ?_⟩
  · unfold Stats.selection
    dsimp only
    rw [if_pos (h4.mpr hf)]
    by_cases h32 : 32 ≤ s.score
    · rw [if_pos h32, if_pos (by unfold threshold; omega)]
    · rw [if_neg h32, if_neg (by unfold threshold; omega)]
  · have hne : ¬ s.history % 16 = 15 := fun h => hf (h4.mp h)
    unfold Stats.selection
    dsimp only
    rw [if_neg hne]
    refine ⟨fun h => ?_, fun h1 h2 => ?_, fun h => ?_⟩
    · rw [if_neg (by omega : ¬ 120 ≤ s.score), if_neg (by unfold threshold; omega)]
    · rw [if_neg (by omega : ¬ 120 ≤ s.score), if_pos (by unfold threshold; omega)]
    · rw [if_pos h]
      cases ha : avgTime s.times with
      | none =>
        refine ⟨0, by omega, ?_, by simp⟩
        dsimp only
        rw [if_pos (by unfold threshold; omega)]; rfl
      | some avg =>
        dsimp only
        by_cases hv : avg ≤ 160
        · simp only [hv, if_true]
          refine ⟨Nat.max ((160 - avg) * 16 / 160) 1, ?_, ?_, ?_⟩
          · change max ((160 - avg) * 16 / 160) 1 ≤ 16
            omega
          · change _ = some (s.score + max ((160 - avg) * 16 / 160) 1)
            rw [if_pos (by unfold threshold; omega)]
            congr 1; omega
          · refine ⟨fun _ => ⟨avg, rfl, hv⟩, fun _ => ?_⟩
            change 0 < max ((160 - avg) * 16 / 160) 1
            omega
        · simp only [hv, if_false]
          refine ⟨0, by omega, ?_, ?_⟩
          · rw [if_pos (by unfold threshold; omega)]; rfl
          · simp [hv]

theorem digits_step (q r : Nat) (h0 : 0 < q * 65536 + r) (hr : r < 65536) :
    digits (q * 65536 + r) = (r + (digits q).1, (digits q).2 + 1) := by
  rw [digits, dif_neg (by omega)]
  rw [show (q * 65536 + r) % 65536 = r by omega, show (q * 65536 + r) / 65536 = q by omega]

/-- The average is that of the last four round-trip times, if the first of them is not zero. -/
theorem average_of_four (b t1 t2 t3 t4 : Nat) (h0 : 0 < t1) (h1 : t1 < 65536) (h2 : t2 < 65536) (h3 : t3 < 65536)
    (h4 : t4 < 65536) :
    avgTime (addTime (addTime (addTime (addTime b t1) t2) t3) t4) = some ((t1 + t2 + t3 + t4) / 4) := by
  have hb : addTime (addTime (addTime (addTime b t1) t2) t3) t4 =
      ((t1 * 65536 + t2) * 65536 + t3) * 65536 + t4 := by
    unfold addTime; omega
  have e0 : digits 0 = (0, 0) := by unfold digits; rfl
  have e1 : digits t1 = (t1, 1) := by
    have := digits_step 0 t1 (by omega) h1
    rw [e0] at this; simpa using this
  have e2 := digits_step t1 t2 (by omega) h2
  rw [e1] at e2
  have e3 := digits_step (t1 * 65536 + t2) t3 (by omega) h3
  rw [e2] at e3
  have e4 := digits_step ((t1 * 65536 + t2) * 65536 + t3) t4 (by omega) h4
  rw [e3] at e4
  unfold avgTime
  rw [hb, e4]
  simp only [Nat.reduceAdd, Nat.reduceEqDiff, if_false, Option.some.injEq]
  omega

/-- Failures in a row: each takes 8 off; after fifteen nobody is reliable, before that the best still is. -/
theorem failures_in_a_row (s : Stats) (ts : List Nat) :
    (tracks s (ts.map fun t => (t, some false))).score = s.score - 8 * ts.length ∧
    (s.score ≤ 128 → 15 ≤ ts.length → (tracks s (ts.map fun t => (t, some false))).reliable = false) ∧
    (s.score = 128 → ts.length ≤ 14 → (tracks s (ts.map fun t => (t, some false))).reliable = true) := by
  have h : (tracks s (ts.map fun t => (t, some false))).score = s.score - 8 * ts.length := by
    induction ts using List.reverseRecOn with
    | nil => simp [tracks]
    | append_singleton ts t ih =>
      rw [List.map_append, List.map_singleton, tracks_append]
      simp only [Stats.track, ih, List.length_append, List.length_singleton]
      omega
  refine ⟨h, fun h1 h2 => ?_, fun h1 h2 => ?_⟩
  · rw [← Bool.not_eq_true, reliable_iff, h]; omega
  · rw [reliable_iff, h]; omega

/-- Successes in a row: each adds 8, up to 128. -/
theorem successes_in_a_row (s : Stats) (ts : List Nat) (hs : s.score ≤ 128) :
    (tracks s (ts.map fun t => (t, some true))).score = min (s.score + 8 * ts.length) 128 := by
  induction ts using List.reverseRecOn with
  | nil => simp [tracks]; omega
  | append_singleton ts t ih =>
    rw [List.map_append, List.map_singleton, tracks_append]
    simp only [Stats.track, ih, List.length_append, List.length_singleton, maxScore]
    omega

/-- A malicious one is not reliable, and is cleaned up. -/
theorem malicious (s : Stats) (hs : s.score ≤ 128) : (s.punish .malicious).reliable = false ∧
    (s.punish .malicious).selection = none := by
  have h0 : (s.punish .malicious).score = 0 := by simp only [Stats.punish, Reason.score]; omega
  refine ⟨by unfold Stats.reliable; rw [h0]; rfl, ?_⟩
  unfold Stats.selection
  rw [h0]
  simp [threshold]

/-- The fine of a peer: none at first, doubled by each useless answer up to 16, halved by each useful one; none
after five useful ones. -/
theorem fine_spec (l : List Bool) : ∃ k, k ≤ 5 ∧ l.foldl gotResponse 0 = [0, 1, 2, 4, 8, 16].getD k 0 ∧
    k = l.foldl (fun k b => if b then k - 1 else min (k + 1) 5) 0 := by
  induction l using List.reverseRecOn with
  | nil => exact ⟨0, by omega, rfl, rfl⟩
  | append_singleton l b ih =>
    obtain ⟨k, h1, h2, h3⟩ := ih
    rw [List.foldl_append, List.foldl_append, h2, ← h3]
    simp only [List.foldl_cons, List.foldl_nil]
    refine ⟨if b = true then k - 1 else min (k + 1) 5, by split <;> omega, ?_, rfl⟩
    have : k = 0 ∨ k = 1 ∨ k = 2 ∨ k = 3 ∨ k = 4 ∨ k = 5 := by omega
    rcases this with rfl | rfl | rfl | rfl | rfl | rfl <;> cases b <;> decide

end Tycho.Neighbours
