import Verif.Dedup.Model
import Mathlib.Data.List.Nodup
import Mathlib.Data.List.Basic

namespace Tycho.Dedup

variable {H : Type} [DecidableEq H]

/-- `h` is stored in the set of round `r`. -/
def MemAt (l : List (Nat × List H)) (r : Nat) (h : H) : Prop := ∃ hs, (r, hs) ∈ l ∧ h ∈ hs

/-- Well-formed insertion-ordered map: ascending rounds, sets without repetition. -/
structure Wf (l : List (Nat × List H)) : Prop where
  sorted : l.Pairwise (fun a b => a.1 < b.1)
  sets : ∀ e ∈ l, e.2.Nodup

omit [DecidableEq H] in
theorem Wf.tail {e : Nat × List H} {l : List (Nat × List H)} (h : Wf (e :: l)) : Wf l :=
  ⟨(List.pairwise_cons.1 h.sorted).2, fun x hx => h.sets x (List.mem_cons_of_mem _ hx)⟩

omit [DecidableEq H] in
theorem memAt_cons (e : Nat × List H) (l : List (Nat × List H)) (r : Nat) (h : H) :
    MemAt (e :: l) r h ↔ (e.1 = r ∧ h ∈ e.2) ∨ MemAt l r h := by
  unfold MemAt
  constructor
  · rintro ⟨hs, hm, hh⟩
    rcases List.mem_cons.1 hm with rfl | hm
    · exact Or.inl ⟨rfl, hh⟩
    · exact Or.inr ⟨hs, hm, hh⟩
  · rintro (⟨rfl, hh⟩ | ⟨hs, hm, hh⟩)
    · exact ⟨e.2, List.mem_cons_self .., hh⟩
    · exact ⟨hs, List.mem_cons_of_mem _ hm, hh⟩

omit [DecidableEq H] in
theorem memAt_nil (r : Nat) (h : H) : ¬ MemAt ([] : List (Nat × List H)) r h := by
  rintro ⟨hs, hm, _⟩; cases hm

theorem insertAt_mem (r : Nat) (h : H) (l : List (Nat × List H)) (r' : Nat) (h' : H) :
    MemAt (insertAt r h l).1 r' h' ↔ MemAt l r' h' ∨ (r' = r ∧ h' = h) := by
  induction l with
  | nil =>
    unfold insertAt
    rw [memAt_cons]
    simp only [List.mem_singleton]
    constructor
    · rintro (⟨rfl, rfl⟩ | h)
      · exact Or.inr ⟨rfl, rfl⟩
      · exact Or.inl h
    · rintro (h | ⟨rfl, rfl⟩)
      · exact Or.inr h
      · exact Or.inl ⟨rfl, rfl⟩
  | cons e l ih =>
    obtain ⟨k, hs⟩ := e
    unfold insertAt
    split
    · rename_i hk
      subst hk
      split
      · rename_i hm
        constructor
        · exact Or.inl
        · rintro (h | ⟨rfl, rfl⟩)
          · exact h
          · rw [memAt_cons]; exact Or.inl ⟨rfl, hm⟩
      · simp only [memAt_cons, List.mem_cons]
        constructor
        · rintro (⟨rfl, rfl | h⟩ | h)
          · exact Or.inr ⟨rfl, rfl⟩
          · exact Or.inl (Or.inl ⟨rfl, h⟩)
          · exact Or.inl (Or.inr h)
        · rintro ((⟨rfl, h⟩ | h) | ⟨rfl, rfl⟩)
          · exact Or.inl ⟨rfl, Or.inr h⟩
          · exact Or.inr h
          · exact Or.inl ⟨rfl, Or.inl rfl⟩
    · dsimp only
      rw [memAt_cons, memAt_cons, ih, or_assoc]

theorem insertAt_new (r : Nat) (h : H) (l : List (Nat × List H)) (hw : Wf l) :
    (insertAt r h l).2 = true ↔ ¬ MemAt l r h := by
  induction l with
  | nil => simp [insertAt, memAt_nil]
  | cons e l ih =>
    obtain ⟨k, hs⟩ := e
    unfold insertAt
    split
    · rename_i hk
      subst hk
      have hno : ¬ MemAt l k h := by
        rintro ⟨hs', hm, _⟩
        have := (List.pairwise_cons.1 hw.sorted).1 _ hm
        simp at this
      split
      · rename_i hm
        simp [memAt_cons, hm]
      · rename_i hm
        simp [memAt_cons, hm, hno]
    · rename_i hk
      dsimp only
      rw [ih hw.tail, memAt_cons]
      simp [hk]

theorem insertAt_keys (r : Nat) (h : H) (l : List (Nat × List H)) (k : Nat) :
    k ∈ (insertAt r h l).1.map Prod.fst ↔ k ∈ l.map Prod.fst ∨ k = r := by
  induction l with
  | nil => simp [insertAt]
  | cons e l ih =>
    obtain ⟨k', hs⟩ := e
    unfold insertAt
    split
    · rename_i hk
      subst hk
      split <;> simp only [List.map_cons, List.mem_cons] <;> tauto
    · dsimp only
      simp only [List.map_cons, List.mem_cons, ih, or_assoc]

theorem insertAt_wf (r : Nat) (h : H) (l : List (Nat × List H)) (hw : Wf l)
    (hle : ∀ k ∈ l.map Prod.fst, k ≤ r) : Wf (insertAt r h l).1 := by
  induction l with
  | nil =>
    refine ⟨List.pairwise_singleton _ _, ?_⟩
    intro e he
    rw [insertAt, List.mem_singleton] at he
    subst he
    exact List.nodup_singleton _
  | cons e l ih =>
    obtain ⟨k, hs⟩ := e
    have hp := List.pairwise_cons.1 hw.sorted
    unfold insertAt
    split
    · split
      · exact hw
      · rename_i hm
        refine ⟨List.pairwise_cons.2 ⟨hp.1, hp.2⟩, ?_⟩
        intro e he
        rcases List.mem_cons.1 he with rfl | he
        · exact List.nodup_cons.2 ⟨hm, hw.sets _ (List.mem_cons_self ..)⟩
        · exact hw.sets e (List.mem_cons_of_mem _ he)
    · rename_i hk
      dsimp only
      have ih' := ih hw.tail (fun k hk => hle k (by simp only [List.map_cons, List.mem_cons]; exact Or.inr hk))
      refine ⟨List.pairwise_cons.2 ⟨?_, ih'.sorted⟩, ?_⟩
      · intro e he
        have hm : e.1 ∈ (insertAt r h l).1.map Prod.fst := List.mem_map_of_mem he
        rcases (insertAt_keys r h l e.1).1 hm with hm | hm
        · obtain ⟨e', he', heq⟩ := List.mem_map.1 hm
          have := hp.1 e' he'
          rw [heq] at this
          exact this
        · have := hle k (by simp)
          dsimp only
          omega
      · intro e he
        rcases List.mem_cons.1 he with rfl | he
        · exact hw.sets _ (List.mem_cons_self ..)
        · exact ih'.sets e he

theorem removeAt_spec (r : Nat) (h : H) (l : List (Nat × List H)) (hw : Wf l) (hm : MemAt l r h) :
    ∃ l', removeAt r h l = some l' ∧ Wf l' ∧ l'.map Prod.fst = l.map Prod.fst ∧
      ∀ r' h', MemAt l' r' h' ↔ MemAt l r' h' ∧ ¬ (r' = r ∧ h' = h) := by
  induction l with
  | nil => exact absurd hm (memAt_nil r h)
  | cons e l ih =>
    obtain ⟨k, hs⟩ := e
    have hp := List.pairwise_cons.1 hw.sorted
    unfold removeAt
    by_cases hk : k = r
    · subst hk
      have hno : ∀ h, ¬ MemAt l k h := by
        rintro h ⟨hs', hm, _⟩
        have := hp.1 _ hm
        simp at this
      have hh : h ∈ hs := by
        rcases (memAt_cons _ _ _ _).1 hm with ⟨_, h⟩ | h'
        · exact h
        · exact absurd h' (hno h)
      rw [if_pos rfl, if_pos hh]
      refine ⟨_, rfl, ⟨List.pairwise_cons.2 ⟨hp.1, hp.2⟩, ?_⟩, rfl, ?_⟩
      · intro e he
        rcases List.mem_cons.1 he with rfl | he
        · exact (hw.sets _ (List.mem_cons_self ..)).filter _
        · exact hw.sets e (List.mem_cons_of_mem _ he)
      · intro r' h'
        simp only [memAt_cons, List.mem_filter, decide_eq_true_eq]
        constructor
        · rintro (⟨rfl, h1, h2⟩ | hm')
          · exact ⟨Or.inl ⟨rfl, h1⟩, fun e => h2 e.2⟩
          · refine ⟨Or.inr hm', ?_⟩
            rintro ⟨rfl, rfl⟩
            exact hno _ hm'
        · rintro ⟨⟨rfl, h1⟩ | hm, hne⟩
          · exact Or.inl ⟨rfl, h1, fun e => hne ⟨rfl, e⟩⟩
          · exact Or.inr hm
    · rw [if_neg hk]
      have hm' : MemAt l r h := by
        rcases (memAt_cons _ _ _ _).1 hm with ⟨h, _⟩ | h'
        · exact absurd h hk
        · exact h'
      obtain ⟨l', h1, h2, h3, h4⟩ := ih hw.tail hm'
      rw [h1]
      refine ⟨_, rfl, ⟨List.pairwise_cons.2 ⟨?_, h2.sorted⟩, ?_⟩, by simp [h3], ?_⟩
      · intro e he
        have : e.1 ∈ l'.map Prod.fst := List.mem_map_of_mem he
        rw [h3] at this
        obtain ⟨e', he', heq⟩ := List.mem_map.1 this
        have := hp.1 e' he'
        rw [heq] at this
        exact this
      · intro e he
        rcases List.mem_cons.1 he with rfl | he
        · exact hw.sets _ (List.mem_cons_self ..)
        · exact h2.sets e he
      · intro r' h'
        rw [memAt_cons, memAt_cons, h4]
        constructor
        · rintro (⟨rfl, h⟩ | ⟨h, hne⟩)
          · exact ⟨Or.inl ⟨rfl, h⟩, fun e => hk e.1⟩
          · exact ⟨Or.inr h, hne⟩
        · rintro ⟨⟨rfl, h⟩ | h, hne⟩
          · exact Or.inl ⟨rfl, h⟩
          · exact Or.inr ⟨h, hne⟩

/-- On ascending keys, dropping the first `countP (< b)` entries splits the map at `b`. -/
theorem take_countP {l : List (Nat × List H)} (hs : l.Pairwise (fun a b => a.1 < b.1)) (b : Nat) :
    l.take (l.countP (fun e => e.1 < b)) = l.filter (fun e => e.1 < b) ∧
    l.drop (l.countP (fun e => e.1 < b)) = l.filter (fun e => ¬ e.1 < b) := by
  induction l with
  | nil => simp
  | cons e l ih =>
    have hp := List.pairwise_cons.1 hs
    obtain ⟨ih1, ih2⟩ := ih hp.2
    by_cases he : e.1 < b
    · rw [List.countP_cons_of_pos (by simpa using he)]
      rw [List.take_succ_cons, List.drop_succ_cons]
      rw [List.filter_cons_of_pos (by simpa using he), List.filter_cons_of_neg (by simpa using he)]
      exact ⟨by rw [ih1], ih2⟩
    · have hz : ∀ x ∈ e :: l, ¬ x.1 < b := by
        intro x hx
        rcases List.mem_cons.1 hx with rfl | hx
        · exact he
        · have := hp.1 x hx; omega
      have hc : (e :: l).countP (fun e => decide (e.1 < b)) = 0 := by
        rw [List.countP_eq_zero]
        intro x hx
        simpa using hz x hx
      rw [hc]
      refine ⟨?_, ?_⟩
      · rw [List.take_zero, eq_comm, List.filter_eq_nil_iff]
        intro x hx
        simpa using hz x hx
      · rw [List.drop_zero, eq_comm, List.filter_eq_self]
        intro x hx
        simpa using hz x hx

theorem dropHashes (b : Nat) (L : List H) (m : H → Option Nat) (hn : L.Nodup)
    (hm : ∀ h ∈ L, ∃ r, m h = some r ∧ r < b) :
    L.foldlM (dropHash b) m = some (fun h => if h ∈ L then none else m h) := by
  induction L generalizing m with
  | nil => simp
  | cons x L ih =>
    obtain ⟨hx, hn'⟩ := List.nodup_cons.1 hn
    obtain ⟨r, hr, hlt⟩ := hm x (List.mem_cons_self ..)
    rw [List.foldlM_cons]
    have : dropHash b m x = some (fun h => if h = x then none else m h) := by
      unfold dropHash
      rw [hr]
      simp [hlt]
    rw [this]
    dsimp only [bind, Option.bind]
    rw [ih _ hn']
    · congr 1
      funext h
      by_cases h1 : h ∈ L <;> by_cases h2 : h = x <;> simp [h1, h2]
    · intro h hh
      obtain ⟨r', hr', hlt'⟩ := hm h (List.mem_cons_of_mem _ hh)
      have hne : h ≠ x := by rintro rfl; exact hx hh
      exact ⟨r', by simpa [hne] using hr', hlt'⟩

/-- Everything the deduplicator maintains, relative to the history of sightings. -/
structure Inv (T : Nat) (d : Dedup H) (hist : List (Nat × H)) (cur : Nat) : Prop where
  thr : d.roundThreshold = T
  wf : Wf d.roundToHashes
  keys : ∀ k ∈ d.roundToHashes.map Prod.fst, k ≤ cur
  agree : ∀ r h, MemAt d.roundToHashes r h ↔ d.hashMaxRound h = some r
  seen : ∀ r h, d.hashMaxRound h = some r → (r, h) ∈ hist
  newest : ∀ r h, (r, h) ∈ hist →
    (∃ r', d.hashMaxRound h = some r' ∧ r ≤ r') ∨ r < bottomRound cur T
  le : ∀ e ∈ hist, e.1 ≤ cur

theorem inv_new (T : Nat) : Inv T (new T : Dedup H) [] 0 :=
  ⟨rfl, ⟨List.Pairwise.nil, by simp [new]⟩, by simp [new],
    by intro r h; simp [new, memAt_nil], by simp [new], by simp, by simp⟩

theorem bottomRound_mono {a b T : Nat} (h : a ≤ b) : bottomRound a T ≤ bottomRound b T := by
  unfold bottomRound; omega

theorem inv_check {T : Nat} (hT : 1 ≤ T) {d : Dedup H} {hist : List (Nat × H)} {cur r : Nat}
    (hi : Inv T d hist cur) (hr : cur ≤ r) (hpos : ∀ e ∈ hist, 1 ≤ e.1) (hr1 : 1 ≤ r) (h : H) :
    ∃ d' b, checkUnique d r h = some (d', b) ∧ Inv T d' ((r, h) :: hist) r ∧
      (b = true ↔ ¬ ∃ o, (o, h) ∈ hist ∧ r < o + T) := by
  obtain ⟨h1, h2, h3, h4, h5, h6, h7⟩ := hi
  have hkr : ∀ k ∈ d.roundToHashes.map Prod.fst, k ≤ r := fun k hk => Nat.le_trans (h3 k hk) hr
  have wf' := insertAt_wf r h d.roundToHashes h2 hkr
  have hkeys' : ∀ k ∈ (insertAt r h d.roundToHashes).1.map Prod.fst, k ≤ r := by
    intro k hk
    rcases (insertAt_keys r h _ k).1 hk with hk | hk
    · exact hkr k hk
    · omega
  have hle' : ∀ e ∈ (r, h) :: hist, e.1 ≤ r := by
    intro e he
    rcases List.mem_cons.1 he with rfl | he
    · exact Nat.le_refl _
    · exact Nat.le_trans (h7 e he) hr
  have hb := bottomRound_mono (T := T) hr
  unfold checkUnique
  dsimp only
  by_cases hnew : (insertAt r h d.roundToHashes).2 = true
  · rw [if_pos hnew]
    have hnm : ¬ MemAt d.roundToHashes r h := (insertAt_new r h _ h2).1 hnew
    cases hold : d.hashMaxRound h with
    | none =>
      refine ⟨_, _, rfl, ⟨h1, wf', hkeys', ?_, ?_, ?_, hle'⟩, ?_⟩
      · intro r' h'
        dsimp only
        rw [insertAt_mem, h4]
        by_cases hh : h' = h
        · subst hh
          rw [if_pos rfl, hold]
          simp [eq_comm]
        · simp [hh]
      · intro r' h' hm
        dsimp only at hm
        split at hm
        · rename_i hh
          cases hm
          rw [hh]
          exact List.mem_cons_self ..
        · exact List.mem_cons_of_mem _ (h5 r' h' hm)
      · intro r' h' hm
        dsimp only
        by_cases hh : h' = h
        · rw [if_pos hh]
          exact Or.inl ⟨r, rfl, hle' _ hm⟩
        · rw [if_neg hh]
          rcases List.mem_cons.1 hm with heq | hm
          · cases heq; exact absurd rfl hh
          · rcases h6 r' h' hm with h | h
            · exact Or.inl h
            · exact Or.inr (by omega)
      · simp only [true_iff]
        rintro ⟨o, ho, hlt⟩
        rcases h6 o h ho with ⟨r', hr', _⟩ | hlt'
        · rw [hold] at hr'; cases hr'
        · have := hpos _ ho
          unfold bottomRound at hlt' hb
          dsimp only at this
          omega
    | some old =>
      dsimp only
      have hmo : MemAt d.roundToHashes old h := (h4 old h).2 hold
      have hne : old ≠ r := by rintro rfl; exact hnm hmo
      have holdle : old ≤ cur := h7 _ (h5 old h hold)
      rw [if_pos (by omega)]
      obtain ⟨l', e1, e2, e3, e4⟩ := removeAt_spec old h _ wf'
        ((insertAt_mem r h _ old h).2 (Or.inl hmo))
      rw [e1]
      refine ⟨_, _, rfl, ⟨h1, e2, by rw [e3]; exact hkeys', ?_, ?_, ?_, hle'⟩, ?_⟩
      · intro r' h'
        dsimp only
        rw [e4, insertAt_mem, h4]
        by_cases hh : h' = h
        · subst hh
          rw [if_pos rfl, hold]
          simp only [Option.some.injEq]
          constructor
          · rintro ⟨h1 | h1, h2⟩
            · exact absurd ⟨h1.symm, trivial⟩ h2
            · exact h1.1.symm
          · rintro rfl
            exact ⟨Or.inr ⟨rfl, trivial⟩, fun e => hne e.1.symm⟩
        · simp [hh]
      · intro r' h' hm
        dsimp only at hm
        split at hm
        · rename_i hh
          cases hm
          rw [hh]
          exact List.mem_cons_self ..
        · exact List.mem_cons_of_mem _ (h5 r' h' hm)
      · intro r' h' hm
        dsimp only
        by_cases hh : h' = h
        · rw [if_pos hh]
          exact Or.inl ⟨r, rfl, hle' _ hm⟩
        · rw [if_neg hh]
          rcases List.mem_cons.1 hm with heq | hm
          · cases heq; exact absurd rfl hh
          · rcases h6 r' h' hm with h | h
            · exact Or.inl h
            · exact Or.inr (by omega)
      · rw [decide_eq_true_eq, h1]
        constructor
        · rintro hlt ⟨o, ho, hlt'⟩
          have hop := hpos _ ho
          dsimp only at hop
          rcases h6 o h ho with ⟨r', hr', hle⟩ | hlt''
          · rw [hold] at hr'
            cases hr'
            unfold bottomRound at hlt
            omega
          · unfold bottomRound at hlt'' hb
            omega
        · intro hno
          have : ¬ r < old + T := fun hlt => hno ⟨old, h5 old h hold, hlt⟩
          unfold bottomRound
          omega
  · rw [if_neg hnew]
    have hm : MemAt d.roundToHashes r h := by
      by_contra hc
      exact hnew ((insertAt_new r h _ h2).2 hc)
    have hmr := (h4 r h).1 hm
    refine ⟨_, _, rfl, ⟨h1, wf', hkeys', ?_, ?_, ?_, hle'⟩, ?_⟩
    · intro r' h'
      dsimp only
      rw [insertAt_mem, h4]
      constructor
      · rintro (h | ⟨rfl, rfl⟩)
        · exact h
        · exact hmr
      · exact Or.inl
    · intro r' h' hm
      exact List.mem_cons_of_mem _ (h5 r' h' hm)
    · intro r' h' hm'
      rcases List.mem_cons.1 hm' with heq | hm'
      · cases heq
        exact Or.inl ⟨r, hmr, Nat.le_refl _⟩
      · rcases h6 r' h' hm' with h | h
        · exact Or.inl h
        · exact Or.inr (by omega)
    · simp only [Bool.false_eq_true, false_iff, not_not]
      exact ⟨r, h5 r h hmr, by omega⟩

theorem inv_clean {T : Nat} {d : Dedup H} {hist : List (Nat × H)} {cur r : Nat}
    (hi : Inv T d hist cur) (hr : cur ≤ r) :
    ∃ d', clean d r = some d' ∧ Inv T d' hist r ∧
      (∀ h k, d'.hashMaxRound h = some k → bottomRound r T ≤ k) ∧
      (∀ k ∈ d'.roundToHashes.map Prod.fst, bottomRound r T ≤ k) := by
  obtain ⟨h1, h2, h3, h4, h5, h6, h7⟩ := hi
  unfold clean
  dsimp only
  rw [h1]
  obtain ⟨t1, t2⟩ := take_countP h2.sorted (bottomRound r T)
  rw [t1, t2]
  have hmem : ∀ h, h ∈ (d.roundToHashes.filter (fun e => decide (e.1 < bottomRound r T))).flatMap
      (fun e => e.2) ↔ ∃ k, d.hashMaxRound h = some k ∧ k < bottomRound r T := by
    intro h
    simp only [List.mem_flatMap, List.mem_filter, decide_eq_true_eq]
    constructor
    · rintro ⟨⟨k, hs⟩, ⟨he, hlt⟩, hh⟩
      exact ⟨k, (h4 k h).1 ⟨hs, he, hh⟩, hlt⟩
    · rintro ⟨k, hk, hlt⟩
      obtain ⟨hs, he, hh⟩ := (h4 k h).2 hk
      exact ⟨(k, hs), ⟨he, hlt⟩, hh⟩
  have hnd : ((d.roundToHashes.filter (fun e => decide (e.1 < bottomRound r T))).flatMap
      (fun e => e.2)).Nodup := by
    rw [List.nodup_flatMap]
    refine ⟨fun e he => h2.sets e (List.mem_filter.1 he).1, ?_⟩
    have hp := h2.sorted.filter (fun e => decide (e.1 < bottomRound r T))
    refine List.Pairwise.imp_of_mem ?_ hp
    intro a b ha hb hab h hha hhb
    have ea := (h4 a.1 h).1 ⟨a.2, (List.mem_filter.1 ha).1, hha⟩
    have eb := (h4 b.1 h).1 ⟨b.2, (List.mem_filter.1 hb).1, hhb⟩
    rw [ea] at eb
    have := Option.some.inj eb
    omega
  rw [dropHashes _ _ _ hnd (fun h hh => (hmem h).1 hh)]
  have hb := bottomRound_mono (T := T) hr
  have hmax : ∀ h k, (if h ∈ (d.roundToHashes.filter (fun e => decide (e.1 < bottomRound r T))).flatMap
      (fun e => e.2) then none else d.hashMaxRound h) = some k ↔
      d.hashMaxRound h = some k ∧ ¬ k < bottomRound r T := by
    intro h k
    split
    · rename_i hm
      obtain ⟨k', hk', hlt⟩ := (hmem h).1 hm
      constructor
      · intro h; cases h
      · rintro ⟨e, hn⟩
        rw [hk'] at e
        cases e
        exact absurd hlt hn
    · rename_i hm
      constructor
      · intro e
        exact ⟨e, fun hlt => hm ((hmem h).2 ⟨k, e, hlt⟩)⟩
      · exact fun e => e.1
  refine ⟨_, rfl, ⟨rfl, ⟨h2.sorted.filter _, fun e he => h2.sets e (List.mem_filter.1 he).1⟩, ?_, ?_, ?_,
    ?_, ?_⟩, ?_, ?_⟩
  · intro k hk
    obtain ⟨e, he, rfl⟩ := List.mem_map.1 hk
    exact Nat.le_trans (h3 _ (List.mem_map_of_mem (List.mem_filter.1 he).1)) hr
  · intro k h
    dsimp only
    rw [hmax, ← h4]
    unfold MemAt
    simp only [List.mem_filter, decide_eq_true_eq]
    constructor
    · rintro ⟨hs, ⟨he, hlt⟩, hh⟩
      exact ⟨⟨hs, he, hh⟩, hlt⟩
    · rintro ⟨⟨hs, he, hh⟩, hlt⟩
      exact ⟨hs, ⟨he, hlt⟩, hh⟩
  · intro k h hk
    exact h5 k h ((hmax h k).1 hk).1
  · intro k h hk
    dsimp only
    rcases h6 k h hk with ⟨k', hk', hle⟩ | hlt
    · by_cases hlt : k' < bottomRound r T
      · exact Or.inr (by omega)
      · exact Or.inl ⟨k', (hmax h k').2 ⟨hk', hlt⟩, hle⟩
    · exact Or.inr (by omega)
  · intro e he
    exact Nat.le_trans (h7 e he) hr
  · intro h k hk
    have := ((hmax h k).1 hk).2
    omega
  · intro k hk
    obtain ⟨e, he, rfl⟩ := List.mem_map.1 hk
    have := (List.mem_filter.1 he).2
    simp only [decide_eq_true_eq] at this
    omega

end Tycho.Dedup
