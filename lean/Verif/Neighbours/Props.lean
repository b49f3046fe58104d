import Mathlib.Data.List.Perm.Subperm
import Verif.Neighbours.Lemmas

namespace Tycho.Neighbours

/-! ## C172: who is chosen -/

/-- The index chooses among the neighbours `ws` by their weights: of the random numbers below the total, as
many choose a neighbour as its weight is; likewise with the weights less the fines, but at least 1. -/
structure Chooses (ix : Index) (ws : List (Nb × Nat)) : Prop where
  total : ix.total = (ws.map (·.2)).sum
  chosen : ∀ r, r < ix.total → ∃ e ∈ ws, choose ix r = some e.1
  empty : ws = [] → ∀ r, choose ix r = none
  share : ∀ e ∈ ws, ((List.range ix.total).countP fun r => choose ix r = some e.1) = e.2
  fined : ∀ fine : Nat → Nat, ∃ l, adjusted ix fine = some l ∧
    let T := (l.getLast?.map (·.2)).getD 0
    T = (ws.map fun e => max (e.2 - fine e.1.peer) 1).sum ∧
    (∀ r, r < T → ∃ e ∈ ws, chooseWith ix fine r = some (some e.1)) ∧
    ∀ e ∈ ws, ((List.range T).countP fun r => chooseWith ix fine r = some (some e.1)) = max (e.2 - fine e.1.peer) 1

theorem sum_filter {ws : List (Nb × Nat)} (hn : (ws.map (·.1)).Nodup) {e : Nb × Nat} (he : e ∈ ws) :
    ((ws.filter fun f => f.1 = e.1).map (·.2)).sum = e.2 := by
  induction ws with
  | nil => cases he
  | cons f ws ih =>
    simp only [List.map_cons, List.nodup_cons] at hn
    rcases List.mem_cons.mp he with rfl | he
    · have : (ws.filter fun f => f.1 = e.1) = [] := by
        rw [List.filter_eq_nil_iff]
        intro x hx hxe
        exact hn.1 (by rw [← of_decide_eq_true hxe]; exact List.mem_map_of_mem hx)
      simp [this]
    · have : f.1 ≠ e.1 := fun h => hn.1 (h ▸ List.mem_map_of_mem he)
      simp [this, ih hn.2 he]

theorem chooses_build (stats : Nat → Stats) (l : List Nb) (hs : ∀ i, (stats i).score ≤ 128) (hl : l.Nodup) :
    Chooses (build stats l) (weights stats l) := by
  have hn : ((weights stats l).map (·.1)).Nodup := by rw [weights_map]; exact hl.filter _
  have hpos : ∀ e ∈ weights stats l, 0 < e.2 := fun e he => by
    have := selection_bounds (hs e.1.id) (mem_weights.mp he).2; omega
  have hT := build_total stats l
  have hI := build_items stats l
  have hsum : ∀ ws : List (Nb × Nat), (∀ e ∈ ws, 0 < e.2) → sumW ws = 0 → ws = [] := by
    intro ws hp h0
    cases ws with
    | nil => rfl
    | cons e ws => have := hp e (by simp); simp [sumW] at h0; omega
  have hch : ∀ r, weights stats l ≠ [] → choose (build stats l) r = pick (cumul 0 (weights stats l)) r := by
    intro r hw
    unfold choose
    rw [if_neg, hI]
    rw [hT, hI]
    rintro (h | h)
    · exact hw (hsum _ hpos h)
    · exact hw (cumul_nil.mp h)
  refine ⟨hT, ?_, ?_, ?_, ?_⟩
  · intro r hr
    rw [hT] at hr
    have hw : weights stats l ≠ [] := by intro h; rw [h] at hr; simp [sumW] at hr
    obtain ⟨e, h1, h2⟩ := pick_some (weights stats l) 0 r (Nat.zero_le _) (by omega)
    exact ⟨e, h1, by rw [hch r hw]; exact h2⟩
  · intro hw r
    unfold choose
    rw [if_pos]
    right; rw [hI, hw]; rfl
  · intro e he
    have hw : weights stats l ≠ [] := by rintro h; rw [h] at he; cases he
    rw [hT, List.range_eq_range']
    simp only [hch _ hw]
    rw [share, sum_filter hn he]
  · intro fine
    have hf : ∀ e ∈ fined fine (weights stats l), 0 < e.2 := by
      intro e he
      obtain ⟨x, _, rfl⟩ := List.mem_map.mp he
      dsimp only; omega
    have hA : adjusted (build stats l) fine = some (cumul 0 (fined fine (weights stats l))) := by
      unfold adjusted; rw [hI]; exact adjustFrom_eq fine _ hpos 0 0
    have hfn : ((fined fine (weights stats l)).map (·.1)) = (weights stats l).map (·.1) := by
      unfold fined; rw [List.map_map]; rfl
    have hL : ((cumul 0 (fined fine (weights stats l))).getLast?.map (·.2)).getD 0 = sumW (fined fine (weights stats l)) := by
      rw [cumul_last]; omega
    have hcw : ∀ r, weights stats l ≠ [] →
        chooseWith (build stats l) fine r = some (pick (cumul 0 (fined fine (weights stats l))) r) := by
      intro r hw
      unfold chooseWith
      rw [if_neg, hA]
      · rfl
      · rw [hT, hI]
        rintro (h | h)
        · exact hw (hsum _ hpos h)
        · exact hw (cumul_nil.mp h)
    refine ⟨_, hA, ?_⟩
    dsimp only
    rw [hL]
    refine ⟨by simp [sumW, fined, Function.comp_def], ?_, ?_⟩
    · intro r hr
      have hw : weights stats l ≠ [] := by intro h; rw [h] at hr; simp [sumW, fined] at hr
      obtain ⟨e, h1, h2⟩ := pick_some (fined fine (weights stats l)) 0 r (Nat.zero_le _) (by omega)
      obtain ⟨x, hx, rfl⟩ := List.mem_map.mp h1
      exact ⟨x, hx, by rw [hcw r hw, h2]⟩
    · intro e he
      have hw : weights stats l ≠ [] := by rintro h; rw [h] at he; cases he
      rw [List.range_eq_range']
      simp only [hcw _ hw, Option.some.injEq]
      rw [share]
      have := sum_filter (ws := fined fine (weights stats l)) (by rw [hfn]; exact hn)
        (e := (e.1, max (e.2 - fine e.1.peer) 1)) (List.mem_map.mpr ⟨e, he, rfl⟩)
      exact this

/-! ## The invariant -/

structure Inv (max : Nat) (s : St) : Prop where
  score : ∀ i, (s.stats i).score ≤ 128
  nodup : (s.entries.map (·.peer)).Nodup
  len : s.entries.length ≤ max
  index : ∃ stats, (∀ i, (stats i).score ≤ 128) ∧ s.index = build stats s.entries
  applies : ∀ a ∈ s.applies, a.version ≤ s.version ∧ (a.version = s.version →
    a.list.Sublist s.entries ∧ a.changed = decide (a.list.length ≠ s.entries.length))
  updates : ∀ u ∈ s.updates, (u.list.map (·.peer)).Nodup ∧ u.list.length ≤ max

theorem track_score {s : Stats} (h : s.score ≤ 128) (t : Nat) (b : Option Bool) : (s.track t b).score ≤ 128 := by
  unfold Stats.track
  cases b with
  | none => exact h
  | some b => cases b <;> simp only [maxScore] <;> omega

theorem addNew_eq (max : Nat) (isNew : Nb → Bool) (l : List Nb) (acc : List Nb) (b : Bool) :
    addNew max isNew l (acc, b) = (acc ++ (l.filter isNew).take (max - acc.length),
      b || !((l.filter isNew).take (max - acc.length)).isEmpty) := by
  induction l generalizing acc b with
  | nil => simp [addNew]
  | cons n l ih =>
    unfold addNew
    by_cases h : max ≤ acc.length
    · rw [if_pos h]
      have : max - acc.length = 0 := by omega
      simp [this]
    · rw [if_neg h]
      cases hn : isNew n with
      | false => simp [hn, ih]
      | true =>
        obtain ⟨k, hk⟩ : ∃ k, max - acc.length = k + 1 := ⟨max - acc.length - 1, by omega⟩
        have hk' : max - (acc ++ [n]).length = k := by simp; omega
        have hk2 : max - (acc.length + 1) = k := by omega
        simp [hn, ih, hk, hk2]

theorem worst_some {stats : Nat → Stats} {l : List Nb} (h : l ≠ []) : ∃ i n, worst stats l = some i ∧ l[i]? = some n ∧
    ∀ m ∈ l, (stats n.id).score ≤ (stats m.id).score := by
  unfold worst
  cases ha : l.zipIdx.argmin (fun e => (stats e.1.id).score) with
  | none =>
    rw [List.argmin_eq_none] at ha
    exact absurd (by simpa using ha) h
  | some e =>
    obtain ⟨n, i⟩ := e
    have hm := List.argmin_mem ha
    have hi : l[i]? = some n := by
      have := List.mem_zipIdx_iff_getElem?.mp hm
      simpa using this
    refine ⟨i, n, rfl, hi, fun m hm' => ?_⟩
    obtain ⟨j, hj, rfl⟩ := List.getElem_of_mem hm'
    have : (l[j], j) ∈ l.zipIdx := List.mem_zipIdx_iff_getElem?.mpr (by simp [hj])
    exact List.le_of_mem_argmin (f := fun e : Nb × Nat => (stats e.1.id).score) this ha

theorem worst_nil (stats : Nat → Stats) : worst stats [] = none := rfl

/-- What an update makes of the list it loaded. -/
structure Updated (max : Nat) (s : St) (new : List Nb) (now : Nat) (u : Update) : Prop where
  /-- where its neighbours come from -/
  mem : ∀ n ∈ u.list, (n ∈ s.entries ∧ good s.stats now n = true) ∨
    (n ∈ new ∧ n.peer ∉ s.entries.map (·.peer))
  nodup : (s.entries.map (·.peer)).Nodup → (new.map (·.peer)).Nodup → (u.list.map (·.peer)).Nodup
  len : s.entries.length ≤ max → u.list.length ≤ max
  /-- a good one is dropped only for want of room, and a worst one -/
  kept : ∀ n ∈ s.entries, good s.stats now n = true → n ∈ u.list ∨
    (max ≤ (s.entries.filter (good s.stats now)).length ∧
      ∀ m ∈ s.entries, good s.stats now m = true → (s.stats n.id).score ≤ (s.stats m.id).score)
  /-- no more than one good one is dropped -/
  one : (s.entries.filter (good s.stats now)).length ≤ (u.list.filter fun n => decide (n ∈ s.entries)).length + 1
  /-- new ones are added while there is room -/
  filled : max ≤ u.list.length ∨ ∀ n ∈ new, n.peer ∉ s.entries.map (·.peer) → n ∈ u.list
  same : u.changed = false → u.list = s.entries
  changed : u.changed = true → (s.entries.map (·.peer)).Nodup → ∃ n, (n ∈ s.entries ∧ n ∉ u.list) ∨ (n ∉ s.entries ∧ n ∈ u.list)

theorem updated (max : Nat) (s : St) (new : List Nb) (now : Nat) : Updated max s new now (updateLoad max s new now) := by
  -- what is kept: `k`, a part of the good ones
  obtain ⟨k, b, hk, hkm, hkn, hkl, hkd, hone, hb, hbt⟩ : ∃ k b,
      keep max s.stats s.entries now = (k, b) ∧
      (∀ n ∈ k, n ∈ s.entries ∧ good s.stats now n = true) ∧
      ((s.entries.map (·.peer)).Nodup → (k.map (·.peer)).Nodup) ∧
      (s.entries.length ≤ max → k.length ≤ max) ∧
      (∀ n ∈ s.entries, good s.stats now n = true → n ∈ k ∨
        (max ≤ (s.entries.filter (good s.stats now)).length ∧
          ∀ m ∈ s.entries, good s.stats now m = true → (s.stats n.id).score ≤ (s.stats m.id).score)) ∧
      (s.entries.filter (good s.stats now)).length ≤ k.length + 1 ∧
      (b = false → k = s.entries) ∧
      (b = true → (s.entries.map (·.peer)).Nodup → ∃ n ∈ s.entries, n ∉ k) := by
    have hsub : (s.entries.filter (good s.stats now)).Sublist s.entries := List.filter_sublist
    have plain : ∀ b', b' = decide ((s.entries.filter (good s.stats now)).length ≠ s.entries.length) →
        (b' = false → s.entries.filter (good s.stats now) = s.entries) ∧
        (b' = true → (s.entries.map (·.peer)).Nodup → ∃ n ∈ s.entries, n ∉ s.entries.filter (good s.stats now)) := by
      rintro _ rfl
      refine ⟨fun h => ?_, fun h _ => ?_⟩
      · simp only [ne_eq, decide_not, Bool.not_eq_false', decide_eq_true_eq] at h
        exact hsub.eq_of_length h
      · simp only [ne_eq, decide_not, Bool.not_eq_true', decide_eq_false_iff_not] at h
        refine Classical.byContradiction fun hno => h ?_
        have : ∀ n ∈ s.entries, good s.stats now n = true := by
          intro n hn
          refine Classical.byContradiction fun hg => hno ⟨n, hn, fun hm => hg (List.mem_filter.mp hm).2⟩
        rw [List.filter_eq_self.mpr this]
    unfold keep
    dsimp only
    by_cases hmax : max ≤ (s.entries.filter (good s.stats now)).length
    · rw [if_pos hmax]
      by_cases he : s.entries.filter (good s.stats now) = []
      · rw [he, worst_nil]
        obtain ⟨p1, p2⟩ := plain _ rfl
        rw [he] at p1 p2
        refine ⟨[], _, rfl, by simp, by simp, by simp, fun n hn hg => ?_, by simp, p1, p2⟩
        have : n ∈ s.entries.filter (good s.stats now) := List.mem_filter.mpr ⟨hn, hg⟩
        rw [he] at this; cases this
      · obtain ⟨i, n, hw, hi, hmin⟩ := worst_some (stats := s.stats) he
        rw [hw]
        obtain ⟨hil, hin⟩ := List.getElem?_eq_some_iff.mp hi
        have hperm := swapRemove_perm hil
        have hnm : n ∈ s.entries.filter (good s.stats now) := hin ▸ List.getElem_mem hil
        have hnd : (s.entries.map (·.peer)).Nodup → n ∉ swapRemove (s.entries.filter (good s.stats now)) i := by
          intro hd hm
          have hd' : (s.entries.filter (good s.stats now)).Nodup := (List.Nodup.of_map _ hd).filter _
          have := hperm.mem_iff.mp hm
          have h2 := List.getElem_cons_eraseIdx_perm hil
          have h3 := h2.nodup_iff.mpr hd'
          rw [hin] at h3
          exact (List.nodup_cons.mp h3).1 this
        refine ⟨_, true, rfl, fun m hm => List.mem_filter.mp (swapRemove_sub m hm), fun hd => ?_, fun hl => ?_, ?_, ?_, by simp, ?_⟩
        · have h1 : ((s.entries.filter (good s.stats now)).map (·.peer)).Nodup := hd.sublist (hsub.map _)
          have h2 : (((s.entries.filter (good s.stats now)).eraseIdx i).map (·.peer)).Nodup :=
            h1.sublist ((List.eraseIdx_sublist _ _).map _)
          exact ((hperm.map _).nodup_iff).mpr h2
        · have := hsub.length_le
          rw [hperm.length_eq, List.length_eraseIdx_of_lt hil]; omega
        · intro m hm hg
          have hmf : m ∈ s.entries.filter (good s.stats now) := List.mem_filter.mpr ⟨hm, hg⟩
          have h2 := (List.getElem_cons_eraseIdx_perm hil).mem_iff.mpr hmf
          rcases List.mem_cons.mp h2 with h | h
          · right
            refine ⟨hmax, fun m' hm' hg' => ?_⟩
            rw [h, hin]; exact hmin m' (List.mem_filter.mpr ⟨hm', hg'⟩)
          · exact .inl (hperm.mem_iff.mpr h)
        · rw [hperm.length_eq, List.length_eraseIdx_of_lt hil]; omega
        · intro _ hd
          exact ⟨n, (List.mem_filter.mp hnm).1, hnd hd⟩
    · rw [if_neg hmax]
      obtain ⟨p1, p2⟩ := plain _ rfl
      exact ⟨_, _, rfl, fun m hm => List.mem_filter.mp hm, fun hd => hd.sublist (hsub.map _), fun hl => le_trans hsub.length_le hl,
        fun n hn hg => .inl (List.mem_filter.mpr ⟨hn, hg⟩), by omega, p1, p2⟩
  have hu : updateLoad max s new now =
      ⟨k ++ (new.filter fun n => !decide (n.peer ∈ s.entries.map (·.peer))).take (max - k.length),
       b || !((new.filter fun n => !decide (n.peer ∈ s.entries.map (·.peer))).take (max - k.length)).isEmpty⟩ := by
    unfold updateLoad
    dsimp only
    rw [hk, addNew_eq]
  rw [hu]
  generalize hN : (new.filter fun n => !decide (n.peer ∈ s.entries.map (·.peer))) = N
  have hNm : ∀ n, n ∈ N ↔ n ∈ new ∧ n.peer ∉ s.entries.map (·.peer) := by
    intro n; rw [← hN, List.mem_filter]; simp
  have hNt : ∀ n ∈ N.take (max - k.length), n ∈ new ∧ n.peer ∉ s.entries.map (·.peer) :=
    fun n hn => (hNm n).mp (List.mem_of_mem_take hn)
  refine ⟨?_, ?_, ?_, ?_, ?_, ?_, ?_, ?_⟩
  · intro n hn
    rcases List.mem_append.mp hn with hn | hn
    · exact .inl (hkm n hn)
    · exact .inr (hNt n hn)
  · intro hd hdn
    rw [List.map_append, List.nodup_append]
    refine ⟨hkn hd, ?_, ?_⟩
    · have : (N.take (max - k.length)).Sublist new := (List.take_sublist _ _).trans (hN ▸ List.filter_sublist)
      exact hdn.sublist (this.map _)
    · intro a ha c hc hac
      obtain ⟨x, hx, rfl⟩ := List.mem_map.mp ha
      obtain ⟨y, hy, rfl⟩ := List.mem_map.mp hc
      exact (hNt y hy).2 (hac ▸ List.mem_map_of_mem (hkm x hx).1)
  · intro hl
    have := hkl hl
    simp only [List.length_append, List.length_take]; omega
  · intro n hn hg
    exact (hkd n hn hg).imp (fun h => by simp [h]) id
  · refine le_trans hone ?_
    have : k.length ≤ ((k ++ N.take (max - k.length)).filter fun n => decide (n ∈ s.entries)).length := by
      rw [List.filter_append, List.filter_eq_self.mpr (fun n hn => by simpa using (hkm n hn).1)]
      simp
    exact Nat.add_le_add_right this 1
  · by_cases hx : N.length ≤ max - k.length
    · right
      intro n hn hp
      rw [List.take_of_length_le hx]
      simp [(hNm n).mpr ⟨hn, hp⟩]
    · left
      simp only [List.length_append, List.length_take]; omega
  · intro hc
    simp only [Bool.or_eq_false_iff, Bool.not_eq_false', List.isEmpty_iff] at hc
    simp only [hc.2, List.append_nil]; exact hb hc.1
  · intro hc hd
    cases hbv : b with
    | true =>
      obtain ⟨n, hn, hnk⟩ := hbt hbv hd
      refine ⟨n, .inl ⟨hn, fun hm => ?_⟩⟩
      rcases List.mem_append.mp hm with hm | hm
      · exact hnk hm
      · exact (hNt n hm).2 (List.mem_map_of_mem hn)
    | false =>
      simp only [hbv, Bool.false_or, Bool.not_eq_true', List.isEmpty_eq_false_iff_exists_mem] at hc
      obtain ⟨n, hn⟩ := hc
      exact ⟨n, .inr ⟨fun hm => (hNt n hn).2 (List.mem_map_of_mem hm), by simp [hn]⟩⟩

theorem inv_reach {max d : Nat} {s : St} (h : Reach max d s) : Inv max s := by
  induction h with
  | new entries h1 h2 =>
    have hs : ∀ i : Nat, ((fun _ => Stats.new d) i : Stats).score ≤ 128 := fun _ => by simp [Stats.new, initialScore, maxScore]
    exact ⟨hs, h1, h2, ⟨_, hs, rfl⟩, by simp [new], by simp [new]⟩
  | step _ hw ht ih =>
    rename_i s e t _
    obtain ⟨h1, h2, h3, h4, h5, h6⟩ := ih
    cases e with
    | track i tm b =>
      cases ht
      refine ⟨fun j => ?_, h2, h3, h4, h5, h6⟩
      by_cases hj : j = i
      · simp only [hj, if_true]; exact track_score (h1 i) tm b
      · simp only [hj, if_false]; exact h1 j
    | punish i r =>
      cases ht
      refine ⟨fun j => ?_, h2, h3, h4, h5, h6⟩
      by_cases hj : j = i
      · have := h1 i
        simp only [hj, if_true, Stats.punish]; omega
      · simp only [hj, if_false]; exact h1 j
    | applyLoad now =>
      cases ht
      refine ⟨h1, h2, h3, h4, fun a ha => ?_, h6⟩
      rcases List.mem_cons.mp ha with rfl | ha
      · exact ⟨Nat.le_refl _, fun _ => ⟨List.filter_sublist, rfl⟩⟩
      · exact h5 a ha
    | applyCommit a =>
      simp only [step] at ht
      by_cases ha : a ∈ s.applies
      · rw [if_pos ha] at ht
        cases ht
        unfold applyCommit
        by_cases hv : a.version = s.version
        · rw [if_pos hv]
          obtain ⟨_, h7⟩ := h5 a ha
          obtain ⟨h8, _⟩ := h7 hv
          refine ⟨h1, h2.sublist (h8.map _), le_trans h8.length_le h3, ⟨_, h1, rfl⟩, fun a' ha' => ?_, h6⟩
          have := (h5 a' (List.mem_of_mem_erase ha')).1
          exact ⟨Nat.le_succ_of_le this, fun h => by simp only at h; omega⟩
        · rw [if_neg hv]
          exact ⟨h1, h2, h3, h4, fun a' ha' => h5 a' (List.mem_of_mem_erase ha'), h6⟩
      · rw [if_neg ha] at ht; cases ht
    | updateLoad new now =>
      cases ht
      refine ⟨h1, h2, h3, h4, h5, fun u hu => ?_⟩
      rcases List.mem_cons.mp hu with rfl | hu
      · have := updated max s new now
        exact ⟨this.nodup h2 hw, this.len h3⟩
      · exact h6 u hu
    | updateCommit u =>
      simp only [step] at ht
      by_cases hu : u ∈ s.updates
      · rw [if_pos hu] at ht
        cases ht
        unfold updateCommit
        obtain ⟨h7, h8⟩ := h6 u hu
        refine ⟨h1, h7, h8, ⟨_, h1, rfl⟩, fun a' ha' => ?_, fun u' hu' => h6 u' (List.mem_of_mem_erase hu')⟩
        have := (h5 a' ha').1
        exact ⟨Nat.le_succ_of_le this, fun h => by simp only at h; omega⟩
      · rw [if_neg hu] at ht; cases ht

end Tycho.Neighbours
