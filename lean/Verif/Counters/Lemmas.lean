import Verif.Counters.Spec
import Mathlib.Data.List.Nodup
import Mathlib.Tactic.Tauto
import Mathlib.Tactic.ByContra

namespace Tycho.Counters
open Tycho.Bytes Tycho.Codec Tycho.Table

/-- The representation invariant: exactly the rows counted above one are materialised, each in the tier of its count. -/
structure Repr (c : Counters) (rc : Rc) : Prop where
  present : ∀ i, i ∈ c.present ↔ 1 < rc i
  large : ∀ i, Table.get c.large i = if bigMin ≤ rc i then some (rc i) else none
  small : ∀ i, ∀ b < 8, i ∈ c.small b ↔ (encodeSmall (rc i)).testBit b = true
  live : c.liveCells = liveCount rc c.nextIdx
  fresh : ∀ i, c.nextIdx ≤ i → rc i = 0
  uniq : Uniq c.large

theorem smallCode_eq (c : Counters) (i x : Nat) (n : Nat)
    (h : ∀ b < n, i ∈ c.small b ↔ x.testBit b = true) : smallCode c i n = x % 2 ^ n := by
  induction n with
  | zero => simp [smallCode, Nat.mod_one]
  | succ n ih =>
    rw [smallCode, ih (fun b hb => h b (by omega)), Nat.mod_pow_succ]
    have := h n (by omega)
    have hd : x / 2 ^ n % 2 = (x.testBit n).toNat := by
      rw [Nat.testBit_eq_decide_div_mod_eq]
      have : x / 2 ^ n % 2 < 2 := Nat.mod_lt _ (by decide)
      by_cases h1 : x / 2 ^ n % 2 = 1
      · simp [h1]
      · have : x / 2 ^ n % 2 = 0 := by omega
        simp [this]
    rw [hd]
    cases ht : x.testBit n
    · rw [ht] at this; simp [this]
    · rw [ht] at this; simp [this]

theorem encodeSmall_lt (r : Nat) : encodeSmall r < 2 ^ 8 := by
  unfold encodeSmall; split <;> omega

theorem Repr.get {c : Counters} {rc : Rc} (h : Repr c rc) (i : Nat) (hi : 0 < rc i) : Counters.get c i = rc i := by
  unfold Counters.get
  by_cases h1 : 1 < rc i
  · rw [if_pos ((h.present i).2 h1), h.large i]
    by_cases h2 : bigMin ≤ rc i
    · rw [if_pos h2]
    · rw [if_neg h2]
      simp only
      rw [smallCode_eq c i _ 8 (h.small i), Nat.mod_eq_of_lt (encodeSmall_lt _)]
      unfold encodeSmall bigMin at *
      rw [if_pos (by omega)]; omega
  · rw [if_neg (fun hm => h1 ((h.present i).1 hm))]; omega

theorem Repr.agrees {c : Counters} {rc : Rc} (h : Repr c rc) : Agrees c rc :=
  ⟨h.get, h.live, h.fresh⟩

/-! ### Transitions with distinct rows -/

theorem setAll_not {ts : List Transition} {i : Nat} (rc : Rc) (h : ∀ t ∈ ts, t.idx ≠ i) : rc.setAll ts i = rc i := by
  induction ts generalizing rc with
  | nil => rfl
  | cons t ts ih =>
    simp only [Rc.setAll, List.foldl_cons] at *
    rw [ih _ (fun x hx => h x (by simp [hx]))]
    simp [Rc.set, Ne.symm (h t (by simp))]

theorem setAll_mem {ts : List Transition} (rc : Rc) (hn : (ts.map (·.idx)).Nodup) {t : Transition} (ht : t ∈ ts) :
    rc.setAll ts t.idx = t.newRaw := by
  induction ts generalizing rc with
  | nil => simp at ht
  | cons u ts ih =>
    simp only [List.map_cons, List.nodup_cons] at hn
    rcases List.mem_cons.1 ht with rfl | ht
    · have := setAll_not (rc.set t) (ts := ts) (i := t.idx)
        (fun x hx he => hn.1 (he ▸ List.mem_map_of_mem hx))
      simp only [Rc.setAll, List.foldl_cons] at *
      rw [this]; simp [Rc.set]
    · have := ih (rc.set u) hn.2 ht
      simpa only [Rc.setAll, List.foldl_cons] using this

theorem idx_inj {ts : List Transition} (hn : (ts.map (·.idx)).Nodup) {t u : Transition} (ht : t ∈ ts) (hu : u ∈ ts)
    (h : t.idx = u.idx) : t = u :=
  List.inj_on_of_nodup_map hn ht hu h

/-- Which rows a filtered list of rows contains. -/
theorem mem_filter_idx {ts : List Transition} (hn : (ts.map (·.idx)).Nodup) {t : Transition} (ht : t ∈ ts)
    (p : Transition → Bool) : t.idx ∈ ((ts.filter p).map (·.idx)) ↔ p t = true := by
  simp only [List.mem_map, List.mem_filter]
  constructor
  · rintro ⟨u, ⟨hu, hp⟩, he⟩
    rw [← idx_inj hn hu ht he]; exact hp
  · intro hp; exact ⟨t, ⟨ht, hp⟩, rfl⟩

theorem not_mem_filter_idx {ts : List Transition} {i : Nat} (h : ∀ t ∈ ts, t.idx ≠ i)
    (p : Transition → Bool) : i ∉ ((ts.filter p).map (·.idx)) := by
  simp only [List.mem_map, List.mem_filter, not_exists, not_and]
  rintro u ⟨hu, _⟩ he
  exact h u hu he

theorem mem_bulk (b : Finset Nat) (r a : List Nat) (i : Nat) : i ∈ bulk b r a ↔ (i ∈ b ∧ i ∉ r) ∨ i ∈ a := by
  simp [bulk]

theorem uniq_applyLarge {m : Table Nat Nat} (h : Uniq m) (t : Transition) : Uniq (applyLarge m t) := by
  unfold applyLarge
  split
  · exact uniq_put m _ _ h
  · split
    · exact uniq_del m _ h
    · exact h

theorem get_applyLarge (m : Table Nat Nat) (t : Transition) (i : Nat) :
    Table.get (applyLarge m t) i = if i = t.idx then
      (if bigMin ≤ t.newRaw then some t.newRaw else if bigMin ≤ t.oldRaw then none else Table.get m i)
      else Table.get m i := by
  unfold applyLarge
  split
  · rw [get_put]
  · split
    · rw [get_del]; simp
    · simp

theorem fold_large (ts : List Transition) (hn : (ts.map (·.idx)).Nodup) (m : Table Nat Nat) (hu : Uniq m) :
    Uniq (ts.foldl applyLarge m) ∧
    (∀ i, (∀ t ∈ ts, t.idx ≠ i) → Table.get (ts.foldl applyLarge m) i = Table.get m i) ∧
    (∀ t ∈ ts, Table.get (ts.foldl applyLarge m) t.idx =
      if bigMin ≤ t.newRaw then some t.newRaw else if bigMin ≤ t.oldRaw then none else Table.get m t.idx) := by
  induction ts generalizing m with
  | nil => simp [hu]
  | cons u ts ih =>
    simp only [List.map_cons, List.nodup_cons] at hn
    obtain ⟨h0, h1, h2⟩ := ih hn.2 (applyLarge m u) (uniq_applyLarge hu u)
    refine ⟨h0, ?_, ?_⟩
    · intro i hi
      rw [List.foldl_cons, h1 i (fun t ht => hi t (by simp [ht])), get_applyLarge,
        if_neg (Ne.symm (hi u (by simp)))]
    · intro t ht
      rw [List.foldl_cons]
      rcases List.mem_cons.1 ht with rfl | ht
      · rw [h1 t.idx (fun x hx he => hn.1 (he ▸ List.mem_map_of_mem hx)), get_applyLarge, if_pos rfl]
      · have hne : t.idx ≠ u.idx := fun he => hn.1 (he ▸ List.mem_map_of_mem ht)
        rw [h2 t ht, get_applyLarge, if_neg hne]

/-! ### Counting -/

theorem liveCount_set (rc : Rc) (n : Nat) (t : Transition) (ht : t.idx < n) :
    liveCount (rc.set t) n + (if rc t.idx ≠ 0 ∧ t.newRaw = 0 then 1 else 0) =
      liveCount rc n + (if rc t.idx = 0 ∧ t.newRaw ≠ 0 then 1 else 0) := by
  have key : ∀ n, ((List.range n).filter (fun i => decide (0 < rc.set t i))).length +
      (if t.idx < n ∧ rc t.idx ≠ 0 ∧ t.newRaw = 0 then 1 else 0) =
      ((List.range n).filter (fun i => decide (0 < rc i))).length +
      (if t.idx < n ∧ rc t.idx = 0 ∧ t.newRaw ≠ 0 then 1 else 0) := by
    intro n
    induction n with
    | zero => simp
    | succ n ih =>
      rw [List.range_succ, List.filter_append, List.filter_append, List.length_append, List.length_append]
      simp only [List.filter_cons, List.filter_nil]
      by_cases hn : n = t.idx
      · subst hn
        have e1 : ¬ (t.idx < t.idx) := by omega
        simp only [e1, false_and, if_false] at ih
        have e2 : rc.set t t.idx = t.newRaw := by simp [Rc.set]
        have e3 : t.idx < t.idx + 1 := by omega
        simp only [e2, e3, true_and, decide_eq_true_eq]
        generalize (List.filter (fun i => decide (0 < rc.set t i)) (List.range t.idx)).length = A at *
        generalize (List.filter (fun i => decide (0 < rc i)) (List.range t.idx)).length = B at *
        by_cases h1 : t.newRaw = 0 <;> by_cases h2 : rc t.idx = 0 <;>
          simp only [h1, h2, Nat.pos_iff_ne_zero, ne_eq, not_true_eq_false, not_false_eq_true, if_true, if_false,
            List.length_cons, List.length_nil, and_true, true_and, and_false, false_and] <;> omega
      · have hs : rc.set t n = rc n := by simp [Rc.set, hn]
        rw [hs]
        have e : (t.idx < n + 1) ↔ t.idx < n := by omega
        simp only [e]
        omega
  have := key n
  unfold liveCount
  simp only [ht, true_and] at this
  exact this

/-! ### The batch -/

/-- Transitions that `push` keeps. -/
def kept (t : Transition) : Bool := changesStorage t || changesTotal t

theorem kept_false {t : Transition} (h : kept t = false) : t.oldRaw = t.newRaw := by
  simp only [kept, changesStorage, changesTotal, Bool.or_eq_false_iff, Bool.and_eq_false_iff, decide_eq_false_iff_not,
    Bool.not_eq_false', Bool.and_eq_true, decide_eq_true_eq, bne_eq_false_iff_eq, decide_eq_decide] at h
  omega

theorem push_eq (s : Scratch) (t : Transition) : s.push t =
    if kept t then
      { transitions := s.transitions ++ [t]
        added := s.added + (if t.oldRaw = 0 ∧ t.newRaw ≠ 0 then 1 else 0)
        removed := s.removed + (if t.oldRaw ≠ 0 ∧ t.newRaw = 0 then 1 else 0)
        isSorted := s.isSorted && !breaksOrder s.lastIdx t.idx
        lastIdx := some t.idx }
    else s := by
  unfold Scratch.push kept
  cases changesStorage t <;> cases changesTotal t <;> simp

theorem pushes_transitions (ts : List Transition) (s : Scratch) :
    (ts.foldl Scratch.push s).transitions = s.transitions ++ ts.filter kept := by
  induction ts generalizing s with
  | nil => simp
  | cons t ts ih =>
    rw [List.foldl_cons, ih, push_eq]
    by_cases h : kept t <;> simp [h, List.filter_cons]

/-- The two sums of `push`, against the counts. -/
theorem pushes_live (ts : List Transition) (s : Scratch) (rc : Rc) (n : Nat)
    (hn : (ts.map (·.idx)).Nodup) (ho : ∀ t ∈ ts, t.oldRaw = rc t.idx) (ha : ∀ t ∈ ts, t.idx < n) :
    liveCount rc n + (ts.foldl Scratch.push s).added + s.removed =
      liveCount (rc.setAll ts) n + (ts.foldl Scratch.push s).removed + s.added := by
  induction ts generalizing s rc with
  | nil => simp only [List.foldl_nil, Rc.setAll]; omega
  | cons t ts ih =>
    simp only [List.map_cons, List.nodup_cons] at hn
    have ht := ho t (by simp)
    have hset := liveCount_set rc n t (ha t (by simp))
    have := ih (s.push t) (rc.set t) hn.2 (by
      intro u hu
      rw [ho u (by simp [hu])]
      have : u.idx ≠ t.idx := fun he => hn.1 (he ▸ List.mem_map_of_mem hu)
      simp [Rc.set, this]) (fun u hu => ha u (by simp [hu]))
    rw [List.foldl_cons]
    have e : rc.setAll (t :: ts) = (rc.set t).setAll ts := rfl
    rw [e]
    rw [push_eq] at this ⊢
    by_cases hk : kept t = true
    · simp only [hk, if_true] at this ⊢
      rw [ht] at this ⊢
      generalize (if rc t.idx ≠ 0 ∧ t.newRaw = 0 then 1 else 0) = a at *
      generalize (if rc t.idx = 0 ∧ t.newRaw ≠ 0 then 1 else 0) = b at *
      omega
    · have hk' : kept t = false := by simpa using hk
      simp only [hk', Bool.false_eq_true, if_false] at this ⊢
      have := kept_false hk'
      rw [if_neg (by omega), if_neg (by omega)] at hset
      omega

theorem prepare_perm (s : Scratch) : (prepareOrder s).Perm s.transitions := by
  unfold prepareOrder
  split
  · exact List.Perm.refl _
  · exact List.perm_insertionSort _ _

theorem setAll_kept (ts : List Transition) (rc : Rc) (hn : (ts.map (·.idx)).Nodup)
    (ho : ∀ t ∈ ts, t.oldRaw = rc t.idx) : rc.setAll (ts.filter kept) = rc.setAll ts := by
  funext i
  have hn' : ((ts.filter kept).map (·.idx)).Nodup := hn.sublist (List.filter_sublist.map _)
  by_cases h : ∃ t ∈ ts, t.idx = i
  · obtain ⟨t, ht, rfl⟩ := h
    rw [setAll_mem rc hn ht]
    by_cases hk : kept t = true
    · exact setAll_mem rc hn' (List.mem_filter.2 ⟨ht, hk⟩)
    · rw [setAll_not, ← ho t ht, kept_false (by simpa using hk)]
      intro u hu he
      have := idx_inj hn (List.mem_filter.1 hu).1 ht he
      subst this
      exact hk (List.mem_filter.1 hu).2
  · have h' : ∀ t ∈ ts, t.idx ≠ i := fun t ht he => h ⟨t, ht, he⟩
    rw [setAll_not rc h', setAll_not rc (fun t ht => h' t (List.mem_filter.1 ht).1)]

theorem setAll_perm (ts us : List Transition) (rc : Rc) (hn : (ts.map (·.idx)).Nodup) (hp : us.Perm ts) :
    rc.setAll us = rc.setAll ts := by
  funext i
  have hn' : (us.map (·.idx)).Nodup := (hp.map _).nodup_iff.2 hn
  by_cases h : ∃ t ∈ ts, t.idx = i
  · obtain ⟨t, ht, rfl⟩ := h
    rw [setAll_mem rc hn ht, setAll_mem rc hn' (hp.mem_iff.2 ht)]
  · have h' : ∀ t ∈ ts, t.idx ≠ i := fun t ht he => h ⟨t, ht, he⟩
    rw [setAll_not rc h', setAll_not rc (fun t ht => h' t (hp.mem_iff.1 ht))]

/-- A batch that keeps the contract turns the representation of `rc` into that of the updated map. -/
theorem runBatch_repr {c : Counters} {rc : Rc} (h : Repr c rc) {ts : List Transition}
    (hc : Contract rc c.nextIdx ts) : Repr (runBatch c ts) (rc.setAll ts) ∧ (runBatch c ts).nextIdx = c.nextIdx := by
  obtain ⟨hn, ho, ha⟩ := hc
  have hn' : ((ts.filter kept).map (·.idx)).Nodup := hn.sublist (List.filter_sublist.map _)
  have htr := pushes_transitions ts Scratch.empty
  have hlive := pushes_live ts Scratch.empty rc c.nextIdx hn ho ha
  unfold runBatch
  generalize ts.foldl Scratch.push Scratch.empty = s at *
  have hp := prepare_perm s
  rw [htr] at hp
  simp only [Scratch.empty, List.nil_append] at hp hlive
  have hset := setAll_kept ts rc hn ho
  have hset2 := setAll_perm _ _ rc hn' hp
  rw [hset] at hset2
  have hn2 : ((prepareOrder s).map (·.idx)).Nodup := (hp.map _).nodup_iff.2 hn'
  have ho2 : ∀ t ∈ prepareOrder s, t.oldRaw = rc t.idx := fun t ht =>
    ho t (List.mem_filter.1 (hp.mem_iff.1 ht)).1
  have ha2 : ∀ t ∈ prepareOrder s, t.idx < c.nextIdx := fun t ht =>
    ha t (List.mem_filter.1 (hp.mem_iff.1 ht)).1
  unfold applyBatch
  by_cases he : (prepareOrder s).isEmpty
  · simp only [he, if_true]
    have : prepareOrder s = [] := by simpa using he
    rw [this] at hset2
    rw [← hset2]
    exact ⟨h, trivial⟩
  · simp only [he, Bool.false_eq_true, if_false]
    rw [← hset2]
    rw [← hset2] at hlive
    clear he hp htr hset hset2 hn' hn ho ha
    generalize prepareOrder s = us at *
    obtain ⟨hl0, hl1, hl2⟩ := fold_large us hn2 c.large h.uniq
    refine ⟨⟨?_, ?_, ?_, ?_, ?_, hl0⟩, trivial⟩
    · intro i
      by_cases hi : ∃ t ∈ us, t.idx = i
      · obtain ⟨t, ht, rfl⟩ := hi
        rw [setAll_mem rc hn2 ht, mem_bulk, overrideRemove, overrideAdd, mem_filter_idx hn2 ht, mem_filter_idx hn2 ht,
          h.present, ← ho2 t ht]
        simp only [Bool.and_eq_true, decide_eq_true_eq]
        omega
      · have h' : ∀ t ∈ us, t.idx ≠ i := fun t ht he => hi ⟨t, ht, he⟩
        rw [setAll_not rc h', mem_bulk, ← h.present i]
        have h1 := not_mem_filter_idx h' (fun t => decide (1 < t.oldRaw) && decide (¬ 1 < t.newRaw))
        have h2 := not_mem_filter_idx h' (fun t => decide (¬ 1 < t.oldRaw) && decide (1 < t.newRaw))
        simp only [overrideRemove, overrideAdd, h1, h2, not_false_eq_true, and_true, or_false]
    · intro i
      by_cases hi : ∃ t ∈ us, t.idx = i
      · obtain ⟨t, ht, rfl⟩ := hi
        simp only [hl2 t ht, setAll_mem rc hn2 ht, h.large, ho2 t ht]
        split
        · rfl
        · split
          · rfl
          · rfl
      · have h' : ∀ t ∈ us, t.idx ≠ i := fun t ht he => hi ⟨t, ht, he⟩
        simp only [hl1 i h', h.large i, setAll_not rc h']
    · intro i b hb
      by_cases hi : ∃ t ∈ us, t.idx = i
      · obtain ⟨t, ht, rfl⟩ := hi
        rw [setAll_mem rc hn2 ht, mem_bulk, deltaRemove, deltaAdd, mem_filter_idx hn2 ht, mem_filter_idx hn2 ht,
          h.small _ b hb, ← ho2 t ht, Nat.testBit_xor]
        cases (encodeSmall t.oldRaw).testBit b <;> cases (encodeSmall t.newRaw).testBit b <;> simp
      · have h' : ∀ t ∈ us, t.idx ≠ i := fun t ht he => hi ⟨t, ht, he⟩
        rw [setAll_not rc h', mem_bulk, ← h.small i b hb, deltaRemove, deltaAdd]
        have h1 := not_mem_filter_idx h' (fun t => (encodeSmall t.oldRaw ^^^ encodeSmall t.newRaw).testBit b &&
          (encodeSmall t.oldRaw).testBit b)
        have h2 := not_mem_filter_idx h' (fun t => (encodeSmall t.oldRaw ^^^ encodeSmall t.newRaw).testBit b &&
          (encodeSmall t.newRaw).testBit b)
        simp only [h1, h2, not_false_eq_true, and_true, or_false]
    · have := h.live
      simp only
      omega
    · intro i hi
      rw [setAll_not rc, h.fresh i hi]
      intro t ht he
      have := ha2 t ht
      simp only at hi
      omega

/-! ### Snapshot -/

theorem rdBitmap_ser (F : BitmapFormat) (b : Finset Nat) (hb : ∀ x ∈ b, x < 2 ^ 64) (r : List Nat) :
    rdBitmap F (serBitmap F b ++ r) = some (b, r) := by
  unfold rdBitmap serBitmap
  rw [List.append_assoc, Rd.bind_of (rdLe_append (by have := F.lenBound b hb; omega) _),
    Rd.bind_of (rdBytes_append _ _), F.roundTrip b hb]
  rfl

theorem rdBitmaps_ser (F : BitmapFormat) (l : List (Finset Nat)) (hl : ∀ b ∈ l, ∀ x ∈ b, x < 2 ^ 64) (r : List Nat) :
    rdBitmaps F l.length (l.flatMap (serBitmap F) ++ r) = some (l, r) := by
  induction l with
  | nil => rfl
  | cons b l ih =>
    rw [List.flatMap_cons, List.append_assoc, List.length_cons, rdBitmaps,
      Rd.bind_of (rdBitmap_ser F b (hl b (by simp)) _), Rd.bind_of (ih (fun x hx => hl x (by simp [hx])))]
    rfl

theorem rdLarge_cons (k v : Nat) (rest : List Nat) (m : Table Nat Nat) (hk : k < 2 ^ 64) (hv : v < 2 ^ 64)
    (hb : bigMin ≤ v) : rdLarge (leBytes 8 k ++ (leBytes 8 v ++ rest)) m = rdLarge rest (put m k v) := by
  have e : rdLarge (leBytes 8 k ++ (leBytes 8 v ++ rest)) m =
      if ofLe (leBytes 8 v) = 0 then none
      else if ofLe (leBytes 8 v) < bigMin then none
      else rdLarge rest (put m (ofLe (leBytes 8 k)) (ofLe (leBytes 8 v))) := rfl
  rw [e, ofLe_leBytes 8 v (by omega), ofLe_leBytes 8 k (by omega)]
  unfold bigMin at *
  rw [if_neg (by omega), if_neg (by omega)]

theorem rdLarge_ser (l : Table Nat Nat) (m : Table Nat Nat)
    (hl : ∀ e ∈ l, e.1 < 2 ^ 64 ∧ e.2 < 2 ^ 64 ∧ bigMin ≤ e.2) :
    rdLarge (l.flatMap (fun e => leBytes 8 e.1 ++ leBytes 8 e.2)) m = some (putAll m l) := by
  induction l generalizing m with
  | nil => rfl
  | cons e l ih =>
    obtain ⟨h1, h2, h3⟩ := hl e (by simp)
    rw [List.flatMap_cons, List.append_assoc, rdLarge_cons _ _ _ _ h1 h2 h3, ih _ (fun x hx => hl x (by simp [hx]))]
    rfl

theorem mem_foldl_union (bs : List (Finset Nat)) (a : Finset Nat) (i : Nat) :
    i ∈ bs.foldl (· ∪ ·) a ↔ i ∈ a ∨ ∃ b ∈ bs, i ∈ b := by
  induction bs generalizing a with
  | nil => simp
  | cons b bs ih => rw [List.foldl_cons, ih]; simp [or_assoc]

theorem mem_keys_iff (m : Table Nat Nat) (i : Nat) : i ∈ m.map (·.1) ↔ (Table.get m i).isSome := by
  induction m with
  | nil => simp [Table.get]
  | cons e m ih =>
    rw [List.map_cons, List.mem_cons, ih, Table.get]
    by_cases h : e.1 = i
    · simp [h]
    · simp [h, Ne.symm h]

theorem get_of_mem {m : Table Nat Nat} (hu : Uniq m) {e : Nat × Nat} (he : e ∈ m) : Table.get m e.1 = some e.2 := by
  induction m with
  | nil => simp at he
  | cons x m ih =>
    simp only [Uniq, List.map_cons, List.nodup_cons] at hu
    rcases List.mem_cons.1 he with rfl | he
    · simp [Table.get]
    · have hne : x.1 ≠ e.1 := fun h => hu.1 (h ▸ List.mem_map_of_mem he)
      simp only [Table.get, hne, if_false]
      exact ih hu.2 he

theorem mem_of_get {m : Table Nat Nat} {i v : Nat} (h : Table.get m i = some v) : (i, v) ∈ m := by
  induction m with
  | nil => simp [Table.get] at h
  | cons x m ih =>
    unfold Table.get at h
    split at h
    · rename_i hx
      injection h with h
      subst hx; subst h
      simp
    · exact List.mem_cons_of_mem _ (ih h)

/-- The bounds of a 64-bit machine. -/
structure Fits (c : Counters) (rc : Rc) : Prop where
  next : c.nextIdx < 2 ^ 64
  counts : ∀ i, rc i < 2 ^ 64

theorem liveCount_le (rc : Rc) (n : Nat) : liveCount rc n ≤ n := by
  unfold liveCount
  have := List.length_filter_le (fun i => decide (0 < rc i)) (List.range n)
  simpa using this

theorem encode_zero_iff (r : Nat) (hr : r < bigMin) : (∃ b < 8, (encodeSmall r).testBit b = true) ↔ 1 < r := by
  constructor
  · rintro ⟨b, _, h⟩
    by_contra hc
    unfold encodeSmall at h
    rw [if_neg (by omega)] at h
    simp at h
  · intro h
    unfold bigMin at hr
    have hne : encodeSmall r ≠ 0 := by unfold encodeSmall; rw [if_pos (by omega)]; omega
    obtain ⟨b, hb⟩ := Nat.exists_testBit_of_ne_zero hne
    refine ⟨b, ?_, hb⟩
    by_contra hc
    have := Nat.testBit_lt_two_pow (x := encodeSmall r) (i := b) (by
      have h1 := encodeSmall_lt r
      have h2 : 2 ^ 8 ≤ 2 ^ b := Nat.pow_le_pow_right (by decide) (by omega)
      omega)
    rw [this] at hb; cases hb

theorem encode_big (r : Nat) (hr : bigMin ≤ r) : encodeSmall r = 0 := by
  unfold encodeSmall bigMin at *
  rw [if_neg (by omega)]

/-- Loading a saved snapshot succeeds and gives the representation of the same map. -/
theorem reload_repr (F : BitmapFormat) {c : Counters} {rc : Rc} (h : Repr c rc) (hf : Fits c rc) :
    ∃ c', deserialize F (serialize F c) = some c' ∧ Repr c' rc ∧ c'.nextIdx = c.nextIdx := by
  have hnext := hf.next
  have hlt : ∀ i, 0 < rc i → i < 2 ^ 64 := by
    intro i hi
    by_contra hc
    have := h.fresh i (by omega)
    omega
  have hsm : ∀ b ∈ (List.range 8).map c.small, ∀ x ∈ b, x < 2 ^ 64 := by
    intro b hb x hx
    simp only [List.mem_map, List.mem_range] at hb
    obtain ⟨k, hk, rfl⟩ := hb
    apply hlt
    by_contra hc
    have : rc x = 0 := by omega
    have := (h.small x k hk).1 hx
    simp [*, encodeSmall] at this
  have hbm := rdBitmaps_ser F ((List.range 8).map c.small) hsm
  simp only [List.length_map, List.length_range, List.flatMap_map] at hbm
  have hlg : ∀ e ∈ c.large, e.1 < 2 ^ 64 ∧ e.2 < 2 ^ 64 ∧ bigMin ≤ e.2 := by
    intro e he
    have h1 := get_of_mem h.uniq he
    rw [h.large] at h1
    split at h1
    · rename_i hb
      injection h1 with h1
      rw [h1] at hb
      refine ⟨hlt _ ?_, ?_, hb⟩
      · unfold bigMin at hb; omega
      · rw [← h1]; exact hf.counts _
    · cases h1
  have hlive : c.liveCells < 2 ^ 64 := by
    rw [h.live]; have := liveCount_le rc c.nextIdx; omega
  have hrest : (c.large.flatMap (fun e => leBytes 8 e.1 ++ leBytes 8 e.2)).length % 16 = 0 := by
    have : ∀ l : List (Nat × Nat), (l.flatMap (fun e => leBytes 8 e.1 ++ leBytes 8 e.2)).length = 16 * l.length := by
      intro l
      induction l with
      | nil => rfl
      | cons e l ih => rw [List.flatMap_cons, List.length_append, ih, List.length_append, leBytes_length, leBytes_length,
          List.length_cons]; omega
    rw [this]; omega
  have hread : deserialize F (serialize F c) = finish c.nextIdx c.liveCells ((List.range 8).map c.small)
      (c.large.flatMap (fun e => leBytes 8 e.1 ++ leBytes 8 e.2)) := by
    unfold deserialize serialize
    simp only [ne_eq, not_true_eq_false, if_false]
    rw [Rd.bind_of (rdLe_append (by omega) _), Rd.bind_of (rdLe_append (by omega) _), Rd.bind_of (hbm _)]
    rfl
  have hlarge := rdLarge_ser c.large [] hlg
  have hfin : finish c.nextIdx c.liveCells ((List.range 8).map c.small)
      (c.large.flatMap (fun e => leBytes 8 e.1 ++ leBytes 8 e.2)) = some
        { nextIdx := c.nextIdx, liveCells := c.liveCells,
          present := presentOf ((List.range 8).map c.small) (putAll [] c.large),
          small := fun b => ((List.range 8).map c.small).getD b ∅, large := putAll [] c.large } := by
    unfold finish
    rw [if_neg (by omega), hlarge]
  have hget : ∀ i, Table.get (putAll [] c.large) i = Table.get c.large i := by
    intro i
    cases hg : Table.get c.large i with
    | some v => exact get_putAll_mem [] c.large h.uniq (i, v) (mem_of_get hg)
    | none =>
      rw [get_putAll_not]
      · rfl
      · intro e he heq
        have := get_of_mem h.uniq he
        rw [heq, hg] at this
        cases this
  refine ⟨_, hread.trans hfin, ⟨?_, ?_, ?_, h.live, h.fresh, uniq_putAll _ _ uniq_nil⟩, rfl⟩
  · intro i
    have hk : i ∈ ((putAll [] c.large).map (·.1)).toFinset ↔ bigMin ≤ rc i := by
      rw [List.mem_toFinset, mem_keys_iff, hget, h.large]
      split <;> simp [*]
    show i ∈ presentOf _ _ ↔ _
    rw [presentOf, Finset.mem_union, hk, mem_foldl_union]
    simp only [List.mem_map, List.mem_range]
    by_cases hb : bigMin ≤ rc i
    · simp only [hb, or_true, true_iff]
      unfold bigMin at hb; omega
    · have hz := encode_zero_iff (rc i) (by omega)
      simp only [hb, or_false]
      rw [← hz]
      constructor
      · rintro (h1 | ⟨b, ⟨k, hk, rfl⟩, hm⟩)
        · simp at h1
        · exact ⟨k, hk, (h.small i k hk).1 hm⟩
      · rintro ⟨k, hk, hm⟩
        exact Or.inr ⟨_, ⟨k, hk, rfl⟩, (h.small i k hk).2 hm⟩
  · intro i; rw [hget]; exact h.large i
  · intro i b hb
    rw [← h.small i b hb]
    have : ((List.range 8).map c.small).getD b ∅ = c.small b := by
      simp [List.getD, hb]
    simp only [this]

end Tycho.Counters
