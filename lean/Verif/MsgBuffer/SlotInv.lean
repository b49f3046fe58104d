import Verif.MsgBuffer.Inv

/-! ## Slots, blocked accounts and index updates during a fill -/
namespace Tycho.MsgBuffer

open Tycho.Table

/-! ### Blocked accounts -/

structure KInv (p : Params) (st0 st : Fill) : Prop where
  sub : ∀ a ∈ st0.skipped, a ∈ st.skipped
  sup : ∀ a ∈ st.skipped, Blocked p st0.skipped a
  grp : ∀ a, Blocked p st0.skipped a → st.grp a = st0.grp a

theorem trySkip_grp (p : Params) (st : Fill) (a : Acc) : (trySkip p st a).grp = st.grp := by
  rcases trySkip_cases p st a with he | ⟨l, hl, he⟩ <;> rw [he]
theorem trySkip_skipped (p : Params) (st : Fill) (a : Acc) : (trySkip p st a).skipped = st.skipped := by
  rcases trySkip_cases p st a with he | ⟨l, hl, he⟩ <;> rw [he]
theorem trySkip_slots (p : Params) (st : Fill) (a : Acc) : (trySkip p st a).slots = st.slots := by
  rcases trySkip_cases p st a with he | ⟨l, hl, he⟩ <;> rw [he]
theorem trySkip_last (p : Params) (st : Fill) (a : Acc) : (trySkip p st a).last = st.last := by
  rcases trySkip_cases p st a with he | ⟨l, hl, he⟩ <;> rw [he]
theorem trySkip_updates (p : Params) (st : Fill) (a : Acc) : (trySkip p st a).updates = st.updates := by
  rcases trySkip_cases p st a with he | ⟨l, hl, he⟩ <;> rw [he]

/-- What a move does to the group, the slots and the updates. -/
theorem moveAcc_group (p : Params) (st : Fill) (a : Acc) (sid : Nat) (old : Nat × Nat) (s : Slot) :
    (moveAcc p st a sid old s).skipped = st.skipped ∧ (moveAcc p st a sid old s).last = st.last ∧
    (((moveAcc p st a sid old s).grp = st.grp ∧ (moveAcc p st a sid old s).slots = st.slots ∧ (moveAcc p st a sid old s).updates = st.updates) ∨
     ∃ t, t ≠ [] ∧ t.length ≤ p.vert - s.count ∧ (moveAcc p st a sid old s).grp = (fun x => if x = a then st.grp a ++ t else st.grp x) ∧
      (moveAcc p st a sid old s).slots = put st.slots sid (growSlot s a (st.grp a).isEmpty t) ∧
      (moveAcc p st a sid old s).updates = recordUpd st.updates sid old (growSlot s a (st.grp a).isEmpty t)) := by
  rcases moveAcc_cases p st a sid old s with ⟨he, _⟩ | ⟨l, hl, h0, he⟩ | ⟨pre, rest, hg, hle, hlt, hc⟩
  · rw [he]; exact ⟨rfl, rfl, Or.inl ⟨rfl, rfl, rfl⟩⟩
  · rw [he]; exact ⟨rfl, rfl, Or.inl ⟨rfl, rfl, rfl⟩⟩
  · rcases hc with ⟨hz, he⟩ | ⟨hz, he⟩
    · rw [he]; exact ⟨rfl, rfl, Or.inl ⟨rfl, rfl, rfl⟩⟩
    · rw [he]; exact ⟨rfl, rfl, Or.inr ⟨_, hz, hle, rfl, rfl, rfl⟩⟩

theorem KInv.step {p : Params} {st0 st st' : Fill} (h : KInv p st0 st) (hm : Micro p st st') : KInv p st0 st' := by
  cases hm with
  | skip a =>
    exact ⟨by rw [trySkip_skipped]; exact h.sub, by rw [trySkip_skipped]; exact h.sup, by rw [trySkip_grp]; exact h.grp⟩
  | mark a hc =>
    refine ⟨fun x hx => List.mem_cons_of_mem _ (h.sub x hx), ?_, h.grp⟩
    intro x hx
    rcases List.mem_cons.1 hx with rfl | hx
    · exact Or.inr hc
    · exact h.sup x hx
  | move a sid old s hs ha hsk hc ho =>
    obtain ⟨e1, e2, e3⟩ := moveAcc_group p st a sid old s
    refine ⟨by rw [e1]; exact h.sub, by rw [e1]; exact h.sup, ?_⟩
    intro x hx
    rcases e3 with ⟨e, _, _⟩ | ⟨t, _, _, e, _, _⟩
    · rw [e]; exact h.grp x hx
    · rw [e]
      simp only
      rw [if_neg]
      · exact h.grp x hx
      · rintro rfl
        rcases hx with hx | hx
        · exact hsk (h.sub _ hx)
        · rw [hc] at hx; cases hx
  | «open» sid => exact ⟨h.sub, h.sup, h.grp⟩
  | close sid s hs h0 => exact ⟨h.sub, h.sup, h.grp⟩

/-! ### Slots -/

structure SInv (v : Nat) (st : Fill) : Prop where
  uniq : Uniq st.slots
  nodup : ∀ sid s, get st.slots sid = some s → s.accounts.Nodup
  nonempty : ∀ sid s, get st.slots sid = some s → ∀ a ∈ s.accounts, st.grp a ≠ []
  disjoint : ∀ i j s t a, get st.slots i = some s → get st.slots j = some t → a ∈ s.accounts → a ∈ t.accounts → i = j
  cover : ∀ a, st.grp a ≠ [] → ∃ sid s, get st.slots sid = some s ∧ a ∈ s.accounts
  slotInt : ∀ sid s, get st.slots sid = some s → s.int = (s.accounts.flatMap st.grp).countP Msg.isInt
  slotExt : ∀ sid s, get st.slots sid = some s → s.ext = (s.accounts.flatMap st.grp).countP Msg.isExt
  vert : ∀ sid s, get st.slots sid = some s → s.count ≤ v
  last : ∀ sid s, get st.slots sid = some s → ∃ l, st.last = some l ∧ sid ≤ l

theorem SInv.count_eq {v : Nat} {st : Fill} (h : SInv v st) {sid : Nat} {s : Slot} (hs : get st.slots sid = some s) :
    s.count = (s.accounts.flatMap st.grp).length := by
  unfold Slot.count
  rw [h.slotInt sid s hs, h.slotExt sid s hs]
  exact int_ext_length _

theorem SInv.empty_iff {v : Nat} {st : Fill} (h : SInv v st) {sid : Nat} {s : Slot} (hs : get st.slots sid = some s) :
    s.count = 0 ↔ s.accounts = [] := by
  rw [h.count_eq hs]
  constructor
  · intro h0
    cases ha : s.accounts with
    | nil => rfl
    | cons a as =>
      exfalso
      have h1 := h.nonempty sid s hs a (by rw [ha]; simp)
      rw [ha, List.flatMap_cons, List.length_append] at h0
      have : (st.grp a).length = 0 := by omega
      exact h1 (List.eq_nil_of_length_eq_zero this)
  · intro h0; rw [h0]; rfl

theorem flatMap_congr_of_not_mem {l : List Acc} {g g' : Acc → List Msg} {a : Acc} (ha : a ∉ l) (h : ∀ x, x ≠ a → g' x = g x) :
    l.flatMap g' = l.flatMap g := by
  apply List.flatMap_congr
  intro x hx
  exact h x (by rintro rfl; exact ha hx)

/-- Counting over a list of accounts one of which gets more messages. -/
theorem countP_flatMap_add (P : Msg → Bool) {l : List Acc} (hn : l.Nodup) {g : Acc → List Msg} {a : Acc} (ha : a ∈ l) (t : List Msg) :
    (l.flatMap (fun x => if x = a then g a ++ t else g x)).countP P = (l.flatMap g).countP P + t.countP P := by
  induction l with
  | nil => cases ha
  | cons k l ih =>
    rw [List.flatMap_cons, List.flatMap_cons, List.countP_append, List.countP_append]
    by_cases hk : k = a
    · subst hk
      rw [flatMap_congr_of_not_mem (g := g) (a := k) (List.nodup_cons.1 hn).1 (fun x hx => if_neg hx)]
      simp only [if_true, List.countP_append]
      omega
    · rw [if_neg hk, ih (List.nodup_cons.1 hn).2 ((List.mem_cons.1 ha).resolve_left (fun h => hk h.symm))]
      omega

theorem SInv.collect {v : Nat} {st : Fill} (h : SInv v st) {sid : Nat} {s : Slot} (hs : get st.slots sid = some s) {a : Acc}
    (ha : a ∈ s.accounts ∨ st.grp a = []) {t : List Msg} (ht : t ≠ []) (hle : t.length ≤ v - s.count) {st' : Fill}
    (hg : st'.grp = fun x => if x = a then st.grp a ++ t else st.grp x) (hsl : st'.slots = put st.slots sid (growSlot s a (st.grp a).isEmpty t))
    (hl : st'.last = st.last) : SInv v st' := by
  have hgne : ∀ x, st.grp x ≠ [] → st'.grp x ≠ [] := by
    intro x hx
    rw [hg]; simp only
    split
    · rename_i he; subst he; simp [hx]
    · exact hx
  have hga : st'.grp a ≠ [] := by rw [hg]; simp [ht]
  have hother : ∀ j t', j ≠ sid → get st.slots j = some t' → a ∉ t'.accounts := by
    intro j t' hj hjt hm
    rcases ha with ha | ha
    · exact hj (h.disjoint j sid t' s a hjt hs hm ha)
    · exact h.nonempty j t' hjt a hm ha
  have hacc : (growSlot s a (st.grp a).isEmpty t).accounts.Nodup ∧ a ∈ (growSlot s a (st.grp a).isEmpty t).accounts ∧
      (∀ x, x ∈ (growSlot s a (st.grp a).isEmpty t).accounts ↔ x ∈ s.accounts ∨ x = a) ∧
      ∀ P, ((growSlot s a (st.grp a).isEmpty t).accounts.flatMap st'.grp).countP P = (s.accounts.flatMap st.grp).countP P + t.countP P := by
    rw [hg]
    by_cases he : st.grp a = []
    · have hna : a ∉ s.accounts := fun hm => h.nonempty sid s hs a hm he
      simp only [growSlot, he, List.isEmpty_nil, if_true]
      refine ⟨?_, by simp, by simp, ?_⟩
      · rw [List.nodup_append]
        refine ⟨h.nodup sid s hs, by simp, ?_⟩
        intro x hx y hy
        rintro rfl
        rw [List.mem_singleton] at hy
        subst hy; exact hna hx
      · intro P
        rw [List.flatMap_append, List.countP_append]
        rw [flatMap_congr_of_not_mem (g := st.grp) (a := a) hna (fun x hx => if_neg hx)]
        simp
    · have hma : a ∈ s.accounts := ha.resolve_right he
      have hne : (st.grp a).isEmpty = false := by simpa using he
      simp only [growSlot, hne]
      refine ⟨h.nodup sid s hs, hma, ?_, ?_⟩
      · intro x; constructor
        · exact Or.inl
        · rintro (hx | rfl)
          · exact hx
          · exact hma
      · intro P
        exact countP_flatMap_add P (h.nodup sid s hs) hma t
  obtain ⟨hn1, hn2, hn3, hn4⟩ := hacc
  have hget : ∀ j t', get st'.slots j = some t' → (j = sid ∧ t' = growSlot s a (st.grp a).isEmpty t) ∨ (j ≠ sid ∧ get st.slots j = some t') := by
    intro j t' hj
    rw [hsl, get_put] at hj
    split at hj
    · rename_i hjs; exact Or.inl ⟨hjs, (Option.some.inj hj).symm⟩
    · rename_i hjs; exact Or.inr ⟨hjs, hj⟩
  have hsums : ∀ P j t', j ≠ sid → get st.slots j = some t' → (t'.accounts.flatMap st'.grp).countP P = (t'.accounts.flatMap st.grp).countP P := by
    intro P j t' hj hjt
    rw [hg, flatMap_congr_of_not_mem (g := st.grp) (a := a) (hother j t' hj hjt) (fun x hx => if_neg hx)]
  refine ⟨?_, ?_, ?_, ?_, ?_, ?_, ?_, ?_, ?_⟩
  · rw [hsl]; exact uniq_put _ _ _ h.uniq
  · intro j t' hj
    rcases hget j t' hj with ⟨_, rfl⟩ | ⟨hne, hj⟩
    · exact hn1
    · exact h.nodup j t' hj
  · intro j t' hj x hx
    rcases hget j t' hj with ⟨_, rfl⟩ | ⟨hne, hj⟩
    · rcases (hn3 x).1 hx with hx | rfl
      · exact hgne x (h.nonempty sid s hs x hx)
      · exact hga
    · exact hgne x (h.nonempty j t' hj x hx)
  · intro i j s1 s2 x hi hj h1 h2
    rcases hget i s1 hi with ⟨rfl, rfl⟩ | ⟨hne, hi⟩ <;> rcases hget j s2 hj with ⟨rfl, rfl⟩ | ⟨hne2, hj⟩
    · rfl
    · exfalso
      rcases (hn3 x).1 h1 with h1 | rfl
      · exact hne2 (h.disjoint _ _ _ _ x hj hs h2 h1)
      · exact hother j s2 hne2 hj h2
    · exfalso
      rcases (hn3 x).1 h2 with h2 | rfl
      · exact hne (h.disjoint _ _ _ _ x hi hs h1 h2)
      · exact hother i s1 hne hi h1
    · exact h.disjoint i j s1 s2 x hi hj h1 h2
  · intro x hx
    by_cases hxa : x = a
    · subst hxa
      exact ⟨sid, _, by rw [hsl, get_put, if_pos rfl], hn2⟩
    · have hx' : st.grp x ≠ [] := by
        rw [hg] at hx; simpa [hxa] using hx
      obtain ⟨j, t', hj, hm⟩ := h.cover x hx'
      by_cases hjs : j = sid
      · subst hjs
        rw [hs] at hj
        cases hj
        exact ⟨j, _, by rw [hsl, get_put, if_pos rfl], (hn3 x).2 (Or.inl hm)⟩
      · exact ⟨j, t', by rw [hsl, get_put, if_neg hjs]; exact hj, hm⟩
  · intro j t' hj
    rcases hget j t' hj with ⟨_, rfl⟩ | ⟨hne, hj⟩
    · rw [hn4, ← h.slotInt sid s hs]; rfl
    · rw [hsums _ j t' hne hj]; exact h.slotInt j t' hj
  · intro j t' hj
    rcases hget j t' hj with ⟨_, rfl⟩ | ⟨hne, hj⟩
    · rw [hn4, ← h.slotExt sid s hs]; rfl
    · rw [hsums _ j t' hne hj]; exact h.slotExt j t' hj
  · intro j t' hj
    rcases hget j t' hj with ⟨_, rfl⟩ | ⟨hne, hj⟩
    · have h1 := h.vert sid s hs
      have h2 := int_ext_length t
      unfold Slot.count at *
      simp only [growSlot]
      omega
    · exact h.vert j t' hj
  · intro j t' hj
    rw [hl]
    rcases hget j t' hj with ⟨rfl, rfl⟩ | ⟨hne, hj⟩
    · exact h.last _ s hs
    · exact h.last j t' hj

theorem SInv.step {p : Params} {st st' : Fill} (h : SInv p.vert st) (hm : Micro p st st') : SInv p.vert st' := by
  cases hm with
  | skip a =>
    refine ⟨?_, ?_, ?_, ?_, ?_, ?_, ?_, ?_, ?_⟩ <;> simp only [trySkip_grp, trySkip_slots, trySkip_last]
    · exact h.uniq
    · exact h.nodup
    · exact h.nonempty
    · exact h.disjoint
    · exact h.cover
    · exact h.slotInt
    · exact h.slotExt
    · exact h.vert
    · exact h.last
  | mark a hc => exact ⟨h.uniq, h.nodup, h.nonempty, h.disjoint, h.cover, h.slotInt, h.slotExt, h.vert, h.last⟩
  | move a sid old s hs ha hsk hc ho =>
    obtain ⟨e1, e2, e3⟩ := moveAcc_group p st a sid old s
    rcases e3 with ⟨e, es, _⟩ | ⟨t, ht, hle, e, es, _⟩
    · refine ⟨?_, ?_, ?_, ?_, ?_, ?_, ?_, ?_, ?_⟩ <;> simp only [e, es, e2]
      · exact h.uniq
      · exact h.nodup
      · exact h.nonempty
      · exact h.disjoint
      · exact h.cover
      · exact h.slotInt
      · exact h.slotExt
      · exact h.vert
      · exact h.last
    · exact h.collect hs ha ht hle e es e2
  | «open» sid =>
    have hlast : ∀ l, st.last = some l → ∃ l', (openSlot st sid).last = some l' ∧ l ≤ l' := by
      intro l hl; refine ⟨max l sid, ?_, by omega⟩
      show some _ = _
      rw [hl]
    have hlast2 : ∃ l', (openSlot st sid).last = some l' ∧ sid ≤ l' := by
      cases hl : st.last with
      | none => exact ⟨sid, by show some _ = _; rw [hl], Nat.le_refl _⟩
      | some l => exact ⟨max l sid, by show some _ = _; rw [hl], by omega⟩
    cases hg : get st.slots sid with
    | some s =>
      have hsl : (openSlot st sid).slots = st.slots := by show (match get st.slots sid with | some _ => _ | none => _) = _; rw [hg]
      refine ⟨?_, ?_, ?_, ?_, ?_, ?_, ?_, ?_, ?_⟩ <;> (try simp only [hsl])
      · exact h.uniq
      · exact h.nodup
      · exact h.nonempty
      · exact h.disjoint
      · exact h.cover
      · exact h.slotInt
      · exact h.slotExt
      · exact h.vert
      · intro j t hj
        obtain ⟨l, hl, hle⟩ := h.last j t hj
        obtain ⟨l', hl', hle'⟩ := hlast l hl
        exact ⟨l', hl', by omega⟩
    | none =>
      have hsl : (openSlot st sid).slots = put st.slots sid Slot.empty := by
        show (match get st.slots sid with | some _ => _ | none => _) = _; rw [hg]
      have hget : ∀ j t', get (openSlot st sid).slots j = some t' → (j = sid ∧ t' = Slot.empty) ∨ (j ≠ sid ∧ get st.slots j = some t') := by
        intro j t' hj
        rw [hsl, get_put] at hj
        split at hj
        · rename_i hjs; exact Or.inl ⟨hjs, (Option.some.inj hj).symm⟩
        · rename_i hjs; exact Or.inr ⟨hjs, hj⟩
      refine ⟨by rw [hsl]; exact uniq_put _ _ _ h.uniq, ?_, ?_, ?_, ?_, ?_, ?_, ?_, ?_⟩
      · intro j t hj
        rcases hget j t hj with ⟨_, rfl⟩ | ⟨_, hj⟩
        · simp [Slot.empty]
        · exact h.nodup j t hj
      · intro j t hj
        rcases hget j t hj with ⟨_, rfl⟩ | ⟨_, hj⟩
        · simp [Slot.empty]
        · exact h.nonempty j t hj
      · intro i j s t a hi hj h1 h2
        rcases hget i s hi with ⟨_, rfl⟩ | ⟨_, hi⟩
        · simp [Slot.empty] at h1
        · rcases hget j t hj with ⟨_, rfl⟩ | ⟨_, hj⟩
          · simp [Slot.empty] at h2
          · exact h.disjoint i j s t a hi hj h1 h2
      · intro a ha
        obtain ⟨j, t, hj, hm⟩ := h.cover a ha
        refine ⟨j, t, ?_, hm⟩
        rw [hsl, get_put, if_neg]
        · exact hj
        · rintro rfl; rw [hg] at hj; cases hj
      · intro j t hj
        rcases hget j t hj with ⟨_, rfl⟩ | ⟨_, hj⟩
        · simp [Slot.empty]
        · exact h.slotInt j t hj
      · intro j t hj
        rcases hget j t hj with ⟨_, rfl⟩ | ⟨_, hj⟩
        · simp [Slot.empty]
        · exact h.slotExt j t hj
      · intro j t hj
        rcases hget j t hj with ⟨_, rfl⟩ | ⟨_, hj⟩
        · simp [Slot.empty, Slot.count]
        · exact h.vert j t hj
      · intro j t hj
        rcases hget j t hj with ⟨rfl, rfl⟩ | ⟨_, hj⟩
        · exact hlast2
        · obtain ⟨l, hl, hle⟩ := h.last j t hj
          obtain ⟨l', hl', hle'⟩ := hlast l hl
          exact ⟨l', hl', by omega⟩
  | close sid s hs h0 =>
    have hget : ∀ j t', get (del st.slots (fun j => decide (j = sid))) j = some t' → get st.slots j = some t' := by
      intro j t' hj
      rw [get_del] at hj
      split at hj
      · cases hj
      · exact hj
    refine ⟨uniq_del (p := fun j => decide (j = sid)) _ h.uniq, fun j t hj => h.nodup j t (hget j t hj), fun j t hj => h.nonempty j t (hget j t hj),
      fun i j s t a hi hj => h.disjoint i j s t a (hget i s hi) (hget j t hj), ?_, fun j t hj => h.slotInt j t (hget j t hj),
      fun j t hj => h.slotExt j t (hget j t hj), fun j t hj => h.vert j t (hget j t hj), fun j t hj => h.last j t (hget j t hj)⟩
    intro a ha
    obtain ⟨j, t, hj, hm⟩ := h.cover a ha
    refine ⟨j, t, ?_, hm⟩
    show get (del st.slots (fun j => decide (j = sid))) j = _
    rw [get_del, if_neg]
    · exact hj
    · simp only [decide_eq_true_eq]
      rintro rfl
      rw [hs] at hj; cases hj
      rw [(h.empty_iff hs).1 h0] at hm
      cases hm

/-! ### Index updates -/

def counts (s : Option Slot) : Nat × Nat := match s with
  | some s => (s.int, s.ext)
  | none => (0, 0)

structure UInv (st0 st : Fill) : Prop where
  sorted : (st.updates.map (·.1)).Pairwise (· < ·)
  same : ∀ sid, get st.updates sid = none → counts (get st.slots sid) = counts (get st0.slots sid)
  diff : ∀ sid u, get st.updates sid = some u → ∃ s, get st.slots sid = some s ∧ (u.newInt, u.newExt) = (s.int, s.ext) ∧
    (u.oldInt, u.oldExt) = counts (get st0.slots sid) ∧ u.oldInt + u.oldExt < u.newInt + u.newExt ∧ u.oldInt ≤ u.newInt ∧ u.oldExt ≤ u.newExt
  keep : ∀ sid s, get st0.slots sid = some s → s.count ≠ 0 → (get st.slots sid).isSome

theorem get_recordUpd {u : List (Nat × Upd)} (hs : (u.map (·.1)).Pairwise (· < ·)) (sid : Nat) (old : Nat × Nat) (s : Slot) (x : Nat) :
    get (recordUpd u sid old s) x = if x = sid then (match get u sid with
      | some e => some { e with newInt := s.int, newExt := s.ext }
      | none => some ⟨old.1, old.2, s.int, s.ext⟩) else get u x := by
  induction u with
  | nil =>
    unfold recordUpd
    simp only [Table.get]
    by_cases h : x = sid
    · subst h; simp
    · rw [if_neg (fun h' => h h'.symm), if_neg h]
  | cons e u ih =>
    have hs' : (u.map (·.1)).Pairwise (· < ·) := (List.pairwise_cons.1 hs).2
    have hlt : ∀ y ∈ u, e.1 < y.1 := fun y hy => (List.pairwise_cons.1 hs).1 _ (List.mem_map_of_mem hy)
    unfold recordUpd
    by_cases h1 : e.1 = sid
    · rw [if_pos h1]
      by_cases hx : x = sid
      · subst hx; simp [Table.get, h1]
      · simp only [Table.get, h1]
        rw [if_neg (fun h' => hx h'.symm), if_neg hx, if_neg (fun h' => hx h'.symm)]
    · rw [if_neg h1]
      by_cases h2 : sid < e.1
      · rw [if_pos h2]
        have hnone : get (e :: u) sid = none := by
          cases hg : get (e :: u) sid with
          | none => rfl
          | some v =>
            have := mem_of_get _ _ _ hg
            rcases List.mem_cons.1 this with h | h
            · rw [← h] at h1; exact absurd rfl h1
            · have := hlt _ h; simp only at this; omega
        rw [hnone]
        by_cases hx : x = sid
        · subst hx; simp [Table.get]
        · rw [if_neg hx]
          conv_lhs => unfold Table.get
          rw [if_neg (fun h' => hx h'.symm)]
      · rw [if_neg h2]
        conv_lhs => unfold Table.get
        by_cases hx : e.1 = x
        · rw [if_pos hx, if_neg (fun h' => h1 (hx.trans h'))]
          conv_rhs => unfold Table.get
          rw [if_pos hx]
        · rw [if_neg hx, ih hs']
          conv_rhs => unfold Table.get
          rw [if_neg h1]
          rw [if_neg hx]

theorem keys_recordUpd {u : List (Nat × Upd)} (sid : Nat) (old : Nat × Nat) (s : Slot) (x : Nat) (hx : x ∈ (recordUpd u sid old s).map (·.1)) :
    x = sid ∨ x ∈ u.map (·.1) := by
  induction u with
  | nil => simp [recordUpd] at hx; exact Or.inl hx
  | cons e u ih =>
    unfold recordUpd at hx
    split at hx
    · rcases List.mem_cons.1 hx with h | h
      · exact Or.inl h
      · exact Or.inr (List.mem_cons_of_mem _ h)
    · split at hx
      · rcases List.mem_cons.1 hx with h | h
        · exact Or.inl h
        · exact Or.inr h
      · rcases List.mem_cons.1 hx with h | h
        · exact Or.inr (by rw [h]; simp)
        · rcases ih h with h | h
          · exact Or.inl h
          · exact Or.inr (List.mem_cons_of_mem _ h)

theorem sorted_recordUpd {u : List (Nat × Upd)} (hs : (u.map (·.1)).Pairwise (· < ·)) (sid : Nat) (old : Nat × Nat) (s : Slot) :
    ((recordUpd u sid old s).map (·.1)).Pairwise (· < ·) := by
  induction u with
  | nil => simp [recordUpd]
  | cons e u ih =>
    have hs' := List.pairwise_cons.1 hs
    unfold recordUpd
    by_cases h1 : e.1 = sid
    · rw [if_pos h1]
      refine List.pairwise_cons.2 ⟨?_, hs'.2⟩
      intro x hx; show sid < x; rw [← h1]; exact hs'.1 x hx
    · rw [if_neg h1]
      by_cases h2 : sid < e.1
      · rw [if_pos h2]
        refine List.pairwise_cons.2 ⟨?_, hs⟩
        intro x hx
        rcases List.mem_cons.1 hx with h | h
        · rw [h]; exact h2
        · exact Nat.lt_trans h2 (hs'.1 x h)
      · rw [if_neg h2]
        refine List.pairwise_cons.2 ⟨?_, ih hs'.2⟩
        intro x hx
        show e.1 < x
        rcases keys_recordUpd sid old s x hx with h | h
        · omega
        · exact hs'.1 x h

theorem growSlot_count (s : Slot) (a : Acc) (n : Bool) (t : List Msg) : (growSlot s a n t).int + (growSlot s a n t).ext = s.int + s.ext + t.length := by
  have := int_ext_length t
  simp only [growSlot]; omega

theorem UInv.step {p : Params} {st0 st st' : Fill} (h : UInv st0 st) (hm : Micro p st st') : UInv st0 st' := by
  cases hm with
  | skip a => exact ⟨by rw [trySkip_updates]; exact h.sorted, by rw [trySkip_updates, trySkip_slots]; exact h.same,
      by rw [trySkip_updates, trySkip_slots]; exact h.diff, by rw [trySkip_slots]; exact h.keep⟩
  | mark a hc => exact ⟨h.sorted, h.same, h.diff, h.keep⟩
  | move a sid old s hs ha hsk hc ho =>
    obtain ⟨e1, e2, e3⟩ := moveAcc_group p st a sid old s
    rcases e3 with ⟨e, es, eu⟩ | ⟨t, ht, hle, e, es, eu⟩
    · exact ⟨by rw [eu]; exact h.sorted, by rw [eu, es]; exact h.same, by rw [eu, es]; exact h.diff, by rw [es]; exact h.keep⟩
    · have htl : 0 < t.length := List.length_pos_iff.2 ht
      have hgc := growSlot_count s a (st.grp a).isEmpty t
      refine ⟨by rw [eu]; exact sorted_recordUpd h.sorted _ _ _, ?_, ?_, ?_⟩
      · intro x hx
        rw [eu, get_recordUpd h.sorted] at hx
        split at hx
        · split at hx <;> cases hx
        · rename_i hne
          rw [es, get_put, if_neg hne]
          exact h.same x hx
      · intro x u hx
        rw [eu, get_recordUpd h.sorted] at hx
        rw [es, get_put]
        split at hx
        · rename_i hxs; subst hxs
          rw [if_pos rfl]
          refine ⟨_, rfl, ?_⟩
          split at hx
          · rename_i e0 he0
            cases hx
            obtain ⟨s1, hs1, h1, h2, h3⟩ := h.diff x e0 he0
            rw [hs] at hs1; cases hs1
            rw [Prod.mk.injEq] at h1
            refine ⟨rfl, h2, ?_⟩
            show e0.oldInt + e0.oldExt < (growSlot s a (st.grp a).isEmpty t).int + (growSlot s a (st.grp a).isEmpty t).ext ∧
              e0.oldInt ≤ (growSlot s a (st.grp a).isEmpty t).int ∧ e0.oldExt ≤ (growSlot s a (st.grp a).isEmpty t).ext
            simp only [growSlot] at hgc ⊢
            omega
          · rename_i hn
            cases hx
            have ho' := ho hn
            have := h.same x hn
            rw [hs] at this
            refine ⟨rfl, ?_, ?_⟩
            · show (old.1, old.2) = _
              rw [← this, ho']; rfl
            · show old.1 + old.2 < (growSlot s a (st.grp a).isEmpty t).int + (growSlot s a (st.grp a).isEmpty t).ext ∧
                old.1 ≤ (growSlot s a (st.grp a).isEmpty t).int ∧ old.2 ≤ (growSlot s a (st.grp a).isEmpty t).ext
              rw [ho']; simp only [growSlot] at hgc ⊢; omega
        · rename_i hne
          rw [if_neg hne]
          exact h.diff x u hx
      · intro x s0 hx h0
        rw [es, get_put]
        split
        · rfl
        · exact h.keep x s0 hx h0
  | «open» sid =>
    cases hg : get st.slots sid with
    | some s =>
      have hsl : (openSlot st sid).slots = st.slots := by show (match get st.slots sid with | some _ => _ | none => _) = _; rw [hg]
      exact ⟨h.sorted, by rw [hsl]; exact h.same, by rw [hsl]; exact h.diff, by rw [hsl]; exact h.keep⟩
    | none =>
      have hsl : (openSlot st sid).slots = put st.slots sid Slot.empty := by
        show (match get st.slots sid with | some _ => _ | none => _) = _; rw [hg]
      refine ⟨h.sorted, ?_, ?_, ?_⟩
      · intro x hx
        have := h.same x hx
        rw [hsl, get_put]
        split
        · rename_i hxs; subst hxs
          rw [hg] at this
          exact this
        · exact this
      · intro x u hx
        obtain ⟨s1, hs1, h1⟩ := h.diff x u hx
        refine ⟨s1, ?_, h1⟩
        rw [hsl, get_put, if_neg]
        · exact hs1
        · rintro rfl; rw [hg] at hs1; cases hs1
      · intro x s0 hx h0
        rw [hsl, get_put]
        split
        · rfl
        · exact h.keep x s0 hx h0
  | close sid s hs h0 =>
    have hget : ∀ j, j ≠ sid → get (del st.slots (fun j => decide (j = sid))) j = get st.slots j := by
      intro j hj
      rw [get_del, if_neg (by simpa using hj)]
    have hget2 : get (del st.slots (fun j => decide (j = sid))) sid = none := by
      rw [get_del, if_pos (by simp)]
    unfold Slot.count at h0
    refine ⟨h.sorted, ?_, ?_, ?_⟩
    · intro x hx
      show counts (get (del st.slots (fun j => decide (j = sid))) x) = _
      by_cases hxs : x = sid
      · subst hxs
        rw [hget2, ← h.same x hx, hs]
        show (0, 0) = (s.int, s.ext)
        rw [Prod.mk.injEq]; omega
      · rw [hget x hxs]; exact h.same x hx
    · intro x u hx
      obtain ⟨s1, hs1, h1, h2, h3⟩ := h.diff x u hx
      refine ⟨s1, ?_, h1, h2, h3⟩
      show get (del st.slots (fun j => decide (j = sid))) x = _
      rw [hget]
      · exact hs1
      · rintro rfl
        rw [hs] at hs1; cases hs1
        rw [Prod.mk.injEq] at h1
        omega
    · intro x s0 hx hc
      show (get (del st.slots (fun j => decide (j = sid))) x).isSome
      by_cases hxs : x = sid
      · subst hxs
        exfalso
        cases hu : get st.updates x with
        | none =>
          have := h.same x hu
          rw [hs, hx] at this
          rw [show counts (some s) = (s.int, s.ext) from rfl, show counts (some s0) = (s0.int, s0.ext) from rfl, Prod.mk.injEq] at this
          unfold Slot.count at hc
          omega
        | some u =>
          obtain ⟨s1, hs1, h1, h2, h3⟩ := h.diff x u hu
          rw [hs] at hs1; cases hs1
          rw [Prod.mk.injEq] at h1
          omega
      · rw [hget x hxs]; exact h.keep x s0 hx hc

/-! ### Totals -/

theorem sum_put {t : Table Nat Slot} (hu : Uniq t) (f : Slot → Nat) {k : Nat} {s v : Slot} (h : get t k = some s) :
    ((put t k v).map (fun e => f e.2)).sum + f s = (t.map (fun e => f e.2)).sum + f v ∧ (put t k v).length = t.length := by
  suffices hd : ((del t (fun j => decide (j = k))).map (fun e => f e.2)).sum + f s = (t.map (fun e => f e.2)).sum ∧
      (del t (fun j => decide (j = k))).length + 1 = t.length by
    unfold put
    rw [List.map_cons, List.sum_cons, List.length_cons]
    simp only
    omega
  induction t with
  | nil => cases h
  | cons e t ih =>
    have hu' := List.nodup_cons.1 hu
    unfold del
    by_cases he : e.1 = k
    · have hes : e.2 = s := by simpa [Table.get, he] using h
      rw [List.filter_cons_of_neg (by simp [he])]
      have : t.filter (fun e => !decide (e.1 = k)) = t := by
        rw [List.filter_eq_self]
        intro x hx
        have : x.1 ≠ k := by
          intro hxk; apply hu'.1; show e.1 ∈ _; rw [he, ← hxk]; exact List.mem_map_of_mem (f := (·.1)) hx
        simp [this]
      rw [this, List.map_cons, List.sum_cons, hes]
      simp; omega
    · have h' : get t k = some s := by simpa [Table.get, he] using h
      have := ih hu'.2 h'
      rw [List.filter_cons_of_pos (by simp [he]), List.map_cons, List.sum_cons, List.map_cons, List.sum_cons, List.length_cons, List.length_cons]
      unfold del at this
      omega

theorem put_new {t : Table Nat Slot} {k : Nat} {v : Slot} (h : get t k = none) : put t k v = (k, v) :: t := by
  unfold put del
  congr 1
  rw [List.filter_eq_self]
  intro x hx
  have : x.1 ≠ k := by
    rintro rfl
    have := get_some_of_mem t x.1 x.2 hx
    rw [h] at this; cases this
  simp [this]

theorem sum_del {t : Table Nat Slot} (hu : Uniq t) (f : Slot → Nat) {k : Nat} {s : Slot} (h : get t k = some s) :
    ((del t (fun j => decide (j = k))).map (fun e => f e.2)).sum + f s = (t.map (fun e => f e.2)).sum ∧
      (del t (fun j => decide (j = k))).length + 1 = t.length := by
  have := sum_put hu f (v := s) h
  unfold put at this
  rw [List.map_cons, List.sum_cons, List.length_cons] at this
  simp only at this
  omega

theorem get_eq_none_iff {β : Type} (t : Table Nat β) (k : Nat) : get t k = none ↔ k ∉ t.map (·.1) := by
  constructor
  · intro h hm
    obtain ⟨e, he, rfl⟩ := List.mem_map.1 hm
    have := get_some_of_mem t e.1 e.2 he
    rw [h] at this; cases this
  · intro h
    cases hg : get t k with
    | none => rfl
    | some v => exact absurd (List.mem_map_of_mem (f := (·.1)) (mem_of_get _ _ _ hg)) h

theorem sum_recordUpd_new {u : List (Nat × Upd)} (hs : (u.map (·.1)).Pairwise (· < ·)) (sid : Nat) (old : Nat × Nat) (s : Slot)
    (h : get u sid = none) (f : Upd → Nat) :
    ((recordUpd u sid old s).map (fun e => f e.2)).sum = (u.map (fun e => f e.2)).sum + f ⟨old.1, old.2, s.int, s.ext⟩ := by
  induction u with
  | nil => simp [recordUpd]
  | cons e u ih =>
    have hne : e.1 ≠ sid := by
      intro he; simp [Table.get, he] at h
    have h' : get u sid = none := by simpa [Table.get, hne] using h
    unfold recordUpd
    rw [if_neg hne]
    split
    · rw [List.map_cons, List.sum_cons]; simp only; omega
    · rw [List.map_cons, List.sum_cons, ih (List.pairwise_cons.1 hs).2 h', List.map_cons, List.sum_cons]; omega

theorem sum_recordUpd_old {u : List (Nat × Upd)} (hs : (u.map (·.1)).Pairwise (· < ·)) (sid : Nat) (old : Nat × Nat) (s : Slot) {e0 : Upd}
    (h : get u sid = some e0) (f : Upd → Nat) :
    ((recordUpd u sid old s).map (fun e => f e.2)).sum + f e0 = (u.map (fun e => f e.2)).sum + f { e0 with newInt := s.int, newExt := s.ext } := by
  induction u with
  | nil => cases h
  | cons e u ih =>
    unfold recordUpd
    by_cases he : e.1 = sid
    · have hes : e.2 = e0 := by simpa [Table.get, he] using h
      rw [if_pos he, List.map_cons, List.sum_cons, List.map_cons, List.sum_cons, hes]
      simp only; omega
    · have h' : get u sid = some e0 := by simpa [Table.get, he] using h
      rw [if_neg he]
      have hlt : ¬ sid < e.1 := by
        have := (List.pairwise_cons.1 hs).1 sid (List.mem_map_of_mem (f := (·.1)) (mem_of_get _ _ _ h'))
        simp only at this; omega
      rw [if_neg hlt, List.map_cons, List.sum_cons, List.map_cons, List.sum_cons]
      have := ih (List.pairwise_cons.1 hs).2 h'
      omega

structure TInv (st0 st : Fill) : Prop where
  int : (st.slots.map (·.2.int)).sum + (st.updates.map (·.2.oldInt)).sum = (st0.slots.map (·.2.int)).sum + (st.updates.map (·.2.newInt)).sum
  ext : (st.slots.map (·.2.ext)).sum + (st.updates.map (·.2.oldExt)).sum = (st0.slots.map (·.2.ext)).sum + (st.updates.map (·.2.newExt)).sum

theorem TInv.step {p : Params} {st0 st st' : Fill} (hs : SInv p.vert st) (hu : UInv st0 st) (h : TInv st0 st) (hm : Micro p st st') : TInv st0 st' := by
  cases hm with
  | skip a => exact ⟨by rw [trySkip_updates, trySkip_slots]; exact h.int, by rw [trySkip_updates, trySkip_slots]; exact h.ext⟩
  | mark a hc => exact ⟨h.int, h.ext⟩
  | move a sid old s hsl ha hsk hc ho =>
    obtain ⟨e1, e2, e3⟩ := moveAcc_group p st a sid old s
    rcases e3 with ⟨e, es, eu⟩ | ⟨t, ht, hle, e, es, eu⟩
    · exact ⟨by rw [es, eu]; exact h.int, by rw [es, eu]; exact h.ext⟩
    · have p1 := (sum_put hs.uniq Slot.int (v := growSlot s a (st.grp a).isEmpty t) hsl).1
      have p2 := (sum_put hs.uniq Slot.ext (v := growSlot s a (st.grp a).isEmpty t) hsl).1
      have h1 := h.int
      have h2 := h.ext
      cases hg : get st.updates sid with
      | none =>
        have ho' := ho hg
        subst ho'
        have q1 := sum_recordUpd_new hu.sorted sid (s.int, s.ext) (growSlot s a (st.grp a).isEmpty t) hg Upd.oldInt
        have q2 := sum_recordUpd_new hu.sorted sid (s.int, s.ext) (growSlot s a (st.grp a).isEmpty t) hg Upd.newInt
        have q3 := sum_recordUpd_new hu.sorted sid (s.int, s.ext) (growSlot s a (st.grp a).isEmpty t) hg Upd.oldExt
        have q4 := sum_recordUpd_new hu.sorted sid (s.int, s.ext) (growSlot s a (st.grp a).isEmpty t) hg Upd.newExt
        simp only at q1 q2 q3 q4
        constructor
        · rw [es, eu]; omega
        · rw [es, eu]; omega
      | some e0 =>
        obtain ⟨s1, hs1, hn, _⟩ := hu.diff sid e0 hg
        rw [hsl] at hs1; cases hs1
        rw [Prod.mk.injEq] at hn
        have q1 := sum_recordUpd_old hu.sorted sid old (growSlot s a (st.grp a).isEmpty t) hg Upd.oldInt
        have q2 := sum_recordUpd_old hu.sorted sid old (growSlot s a (st.grp a).isEmpty t) hg Upd.newInt
        have q3 := sum_recordUpd_old hu.sorted sid old (growSlot s a (st.grp a).isEmpty t) hg Upd.oldExt
        have q4 := sum_recordUpd_old hu.sorted sid old (growSlot s a (st.grp a).isEmpty t) hg Upd.newExt
        simp only at q1 q2 q3 q4
        constructor
        · rw [es, eu]; omega
        · rw [es, eu]; omega
  | «open» sid =>
    cases hg : get st.slots sid with
    | some s =>
      have hsl : (openSlot st sid).slots = st.slots := by show (match get st.slots sid with | some _ => _ | none => _) = _; rw [hg]
      exact ⟨by rw [hsl]; exact h.int, by rw [hsl]; exact h.ext⟩
    | none =>
      have hsl : (openSlot st sid).slots = put st.slots sid Slot.empty := by
        show (match get st.slots sid with | some _ => _ | none => _) = _; rw [hg]
      rw [put_new hg] at hsl
      constructor
      · rw [hsl]; simpa [Slot.empty, openSlot] using h.int
      · rw [hsl]; simpa [Slot.empty, openSlot] using h.ext
  | close sid s hsl h0 =>
    unfold Slot.count at h0
    have p1 := (sum_del hs.uniq Slot.int hsl).1
    have p2 := (sum_del hs.uniq Slot.ext hsl).1
    have h1 := h.int
    have h2 := h.ext
    constructor
    · show ((del st.slots (fun j => decide (j = sid))).map (fun e => e.2.int)).sum + (st.updates.map (·.2.oldInt)).sum = _ + (st.updates.map (·.2.newInt)).sum
      omega
    · show ((del st.slots (fun j => decide (j = sid))).map (fun e => e.2.ext)).sum + (st.updates.map (·.2.oldExt)).sum = _ + (st.updates.map (·.2.newExt)).sum
      omega

/-! ### Everything -/

structure All (p : Params) (st0 st : Fill) : Prop where
  b : BInv p st0 st
  s : SInv p.vert st
  u : UInv st0 st
  k : KInv p st0 st
  t : TInv st0 st

theorem All.steps {p : Params} {st0 st st' : Fill} (hu : Uniq st0.buf.msgs) (h : All p st0 st) (hs : Steps p st st') : All p st0 st' := by
  induction hs with
  | refl => exact h
  | tail _ hm ih => exact ⟨ih.b.step hu hm, ih.s.step hm, ih.u.step hm, ih.k.step hm, ih.t.step ih.s ih.u hm⟩

theorem SInv.steps {p : Params} {st st' : Fill} (h : SInv p.vert st) (hs : Steps p st st') : SInv p.vert st' := by
  induction hs with
  | refl => exact h
  | tail _ hm ih => exact ih.step hm

end Tycho.MsgBuffer
