import Mathlib.Data.List.Nodup

/-!
Model of `rpc-subscriptions/src/index/forward/{mod,small}.rs`: the set of clients of an address, an inline array while it is
small, a hash set after that. A hash set is a list without repetition; its order is not observable. Not modelled: heap sizes.
-/
namespace Tycho.Subs

/-- forward/mod.rs:11-15 `ForwardSet` with small.rs:12-16: `small len ids`, the array has `cap` cells. -/
inductive FSet
  | small (len : Nat) (ids : List Nat)
  | naive (ids : List Nat)
  deriving DecidableEq

/-- forward/mod.rs:20-22, small.rs:19-24. `cap` is `SMALL_CAP`. -/
def FSet.new (cap : Nat) : FSet := .small 0 (List.replicate cap 0)

/-- forward/mod.rs:61-66 `extend_into`, small.rs:72-74 `as_slice`. -/
def FSet.members : FSet → List Nat
  | .small len ids => ids.take len
  | .naive ids => ids

/-- small.rs:48-59 `SmallForwardSet::add`: `none` asks for promotion. -/
def smallAdd (cap len : Nat) (ids : List Nat) (id : Nat) : Option (Nat × List Nat) :=
  if id ∈ ids.take len then some (len, ids)
  else if len = cap then none
  else some (len + 1, ids.set len id)

/-- `FastHashSet::insert`. -/
def hashInsert (ids : List Nat) (id : Nat) : List Nat := if id ∈ ids then ids else id :: ids

/-- forward/mod.rs:32-51 `add_with_delta`, with `from_small` (101-106). -/
def FSet.add (cap : Nat) (s : FSet) (id : Nat) : FSet :=
  match s with
  | .small len ids =>
    match smallAdd cap len ids id with
    | some (len', ids') => .small len' ids'
    | none => .naive (hashInsert (ids.take len) id)
  | .naive ids => .naive (hashInsert ids id)

/-- small.rs:61-70: the loop over `0..len` from `i`, `n` cells left. -/
def smallRemove (len : Nat) (ids : List Nat) (id : Nat) : Nat → Nat → Nat × List Nat
  | 0, _ => (len, ids)
  | n + 1, i => if ids.getD i 0 = id then (len - 1, ids.set i (ids.getD (len - 1) 0)) else smallRemove len ids id n (i + 1)

/-- forward/mod.rs:53-58 `remove`. -/
def FSet.remove (s : FSet) (id : Nat) : FSet :=
  match s with
  | .small len ids => let r := smallRemove len ids id len 0; .small r.1 r.2
  | .naive ids => .naive (ids.erase id)

/-- forward/mod.rs:69-74 `is_empty`. -/
def FSet.isEmpty : FSet → Bool
  | .small len _ => decide (len = 0)
  | .naive ids => ids.isEmpty

/-- Representation: the array has `cap` cells and the members do not repeat. -/
def FSet.WF (cap : Nat) : FSet → Prop
  | .small len ids => ids.length = cap ∧ len ≤ cap ∧ (ids.take len).Nodup
  | .naive ids => ids.Nodup

theorem FSet.wf_new (cap : Nat) : (FSet.new cap).WF cap := by simp [FSet.new, FSet.WF]

theorem FSet.members_new (cap : Nat) : (FSet.new cap).members = [] := by simp [FSet.new, FSet.members]

theorem FSet.nodup {cap : Nat} {s : FSet} (h : s.WF cap) : s.members.Nodup := by
  cases s with
  | small len ids => exact h.2.2
  | naive ids => exact h

theorem FSet.isEmpty_iff {cap : Nat} {s : FSet} (h : s.WF cap) : s.isEmpty = true ↔ s.members = [] := by
  cases s with
  | small len ids =>
    simp only [FSet.isEmpty, FSet.members, decide_eq_true_eq, List.take_eq_nil_iff]
    constructor
    · intro h0; exact .inl h0
    · rintro (h0 | h0)
      · exact h0
      · have h1 := h.1
        have h2 := h.2.1
        rw [h0] at h1
        simp at h1
        omega
  | naive ids => simp [FSet.isEmpty, FSet.members]

theorem nodup_hashInsert {ids : List Nat} (h : ids.Nodup) (id : Nat) : (hashInsert ids id).Nodup := by
  unfold hashInsert
  split
  · exact h
  · rename_i hn; exact List.nodup_cons.2 ⟨hn, h⟩

theorem mem_hashInsert {ids : List Nat} {id x : Nat} : x ∈ hashInsert ids id ↔ x ∈ ids ∨ x = id := by
  unfold hashInsert
  split
  · rename_i hm
    constructor
    · exact .inl
    · rintro (h | rfl) <;> assumption
  · rw [List.mem_cons]; exact or_comm

theorem take_set_succ {ids : List Nat} {len id : Nat} (h : len < ids.length) : (ids.set len id).take (len + 1) = ids.take len ++ [id] := by
  rw [List.take_add_one, List.take_set, List.set_eq_of_length_le (by simp; omega)]
  simp [h]

theorem FSet.wf_add {cap : Nat} {s : FSet} (h : s.WF cap) (id : Nat) : (s.add cap id).WF cap := by
  cases s with
  | small len ids =>
    obtain ⟨h1, h2, h3⟩ := h
    simp only [FSet.add, smallAdd]
    split
    · rename_i len' ids' heq
      split at heq
      · obtain ⟨rfl, rfl⟩ := heq
        exact ⟨h1, h2, h3⟩
      · rename_i hn
        split at heq
        · simp at heq
        · obtain ⟨rfl, rfl⟩ := heq
          refine ⟨by simpa using h1, by omega, ?_⟩
          rw [take_set_succ (by omega), List.nodup_append]
          refine ⟨h3, by simp, ?_⟩
          intro x hx y hy he
          rw [List.mem_singleton] at hy
          exact hn (hy ▸ he ▸ hx)
    · exact nodup_hashInsert h3 id
  | naive ids => exact nodup_hashInsert h id

theorem FSet.mem_add {cap : Nat} {s : FSet} (h : s.WF cap) {id x : Nat} : x ∈ (s.add cap id).members ↔ x ∈ s.members ∨ x = id := by
  cases s with
  | small len ids =>
    obtain ⟨h1, h2, h3⟩ := h
    simp only [FSet.add, smallAdd]
    split
    · rename_i len' ids' heq
      split at heq
      · rename_i hm
        obtain ⟨rfl, rfl⟩ := heq
        simp only [FSet.members]
        constructor
        · exact .inl
        · rintro (h | rfl) <;> assumption
      · split at heq
        · simp at heq
        · obtain ⟨rfl, rfl⟩ := heq
          simp only [FSet.members]
          rw [take_set_succ (by omega), List.mem_append, List.mem_singleton]
    · exact mem_hashInsert
  | naive ids => exact mem_hashInsert

/-- The members after a removal by swapping with the last one. -/
theorem smallRemove_spec {len : Nat} {ids : List Nat} {id : Nat} (hl : len ≤ ids.length) (n : Nat) :
    ∀ i, i + n = len → id ∉ ids.take i →
    (smallRemove len ids id n i).2.length = ids.length ∧
    ((id ∉ ids.take len ∧ smallRemove len ids id n i = (len, ids)) ∨
     (id ∈ ids.take len ∧ ∃ pre post last, ids.take len = pre ++ id :: post ∧ (smallRemove len ids id n i).1 = len - 1 ∧
        ((post = [] ∧ (smallRemove len ids id n i).2.take (len - 1) = pre) ∨
         (∃ mid, post = mid ++ [last] ∧ (smallRemove len ids id n i).2.take (len - 1) = pre ++ last :: mid)))) := by
  induction n with
  | zero =>
    intro i hi hn
    obtain rfl : i = len := by omega
    exact ⟨rfl, .inl ⟨hn, rfl⟩⟩
  | succ n ih =>
    intro i hi hn
    unfold smallRemove
    have hil : i < ids.length := by omega
    have hget : ids.getD i 0 = ids[i] := by simp [List.getD_eq_getElem?_getD, hil]
    rw [hget]
    split
    · rename_i heq
      refine ⟨by simp, .inr ?_⟩
      have hsplit : ids.take len = ids.take i ++ id :: (ids.take len).drop (i + 1) := by
        conv => lhs; rw [← List.take_append_drop i (ids.take len)]
        rw [List.take_take, Nat.min_eq_left (by omega), List.drop_eq_getElem_cons (by simp; omega)]
        simp [heq]
      refine ⟨by rw [hsplit]; simp, ids.take i, (ids.take len).drop (i + 1), ids.getD (len - 1) 0, hsplit, rfl, ?_⟩
      by_cases hlast : i + 1 = len
      · left
        refine ⟨by rw [List.drop_eq_nil_of_le]; simp; omega, ?_⟩
        have : len - 1 = i := by omega
        rw [this, List.take_set, List.set_eq_of_length_le (by simp; omega)]
      · right
        have hgl : ids.getD (len - 1) 0 = ids[len - 1] := by simp [List.getD_eq_getElem?_getD, show len - 1 < ids.length by omega]
        refine ⟨(ids.take (len - 1)).drop (i + 1), ?_, ?_⟩
        · have e : ids.take len = ids.take (len - 1) ++ [ids[len - 1]] := by
            conv => lhs; rw [show len = (len - 1) + 1 by omega]
            rw [List.take_add_one]; simp [show len - 1 < ids.length by omega]
          rw [e, List.drop_append_of_le_length (by simp; omega), hgl]
        · rw [List.take_set]
          apply List.ext_getElem?
          intro j
          rw [List.getElem?_set]
          by_cases hj : i = j
          · subst hj
            rw [if_pos rfl, if_pos (by simp; omega), List.getElem?_append_right (by simp; omega), List.length_take, Nat.min_eq_left (by omega), Nat.sub_self]
            rfl
          · rw [if_neg hj]
            by_cases hji : j < i
            · rw [List.getElem?_append_left (by simp; omega), List.getElem?_take, List.getElem?_take, if_pos hji, if_pos (by omega)]
            · rw [List.getElem?_append_right (by simp; omega), List.length_take, Nat.min_eq_left (by omega)]
              obtain ⟨m, hm⟩ : ∃ m, j - i = m + 1 := ⟨j - i - 1, by omega⟩
              rw [hm, List.getElem?_cons_succ, List.getElem?_drop]
              congr 1
              omega
    · rename_i hne
      refine ih (i + 1) (by omega) ?_
      rw [List.take_add_one, List.mem_append]
      rintro (h | h)
      · exact hn h
      · simp [hil] at h
        exact hne h.symm

theorem remove_perm {cap : Nat} {s : FSet} (h : s.WF cap) (id : Nat) : (s.remove id).WF cap ∧ (s.remove id).members.Perm (s.members.erase id) := by
  cases s with
  | small len ids =>
    obtain ⟨h1, h2, h3⟩ := h
    have hs := smallRemove_spec (id := id) (ids := ids) (len := len) (by omega) len 0 (by omega) (by simp)
    simp only [FSet.remove]
    obtain ⟨hlen, ⟨hn, he⟩ | ⟨hm, pre, post, last, hsp, hl1, hc⟩⟩ := hs
    · rw [he]
      refine ⟨⟨h1, h2, h3⟩, ?_⟩
      simp only [FSet.members]
      rw [List.erase_of_not_mem hn]
    · have hpre : id ∉ pre := by
        intro hp
        rw [hsp, List.nodup_append] at h3
        exact h3.2.2 id hp id (by simp) rfl
      have herase : (ids.take len).erase id = pre ++ post := by
        rw [hsp, List.erase_append_right _ hpre, List.erase_cons_head]
      have hperm : ((smallRemove len ids id len 0).2.take (len - 1)).Perm ((ids.take len).erase id) := by
        rw [herase]
        rcases hc with ⟨rfl, he⟩ | ⟨mid, rfl, he⟩
        · rw [he]; simp
        · rw [he]
          refine List.Perm.append_left _ ?_
          exact (List.perm_append_singleton last mid).symm
      simp only [FSet.members, FSet.WF]
      rw [hl1]
      exact ⟨⟨by omega, by omega, (List.Perm.nodup_iff hperm).2 (h3.erase _)⟩, hperm⟩
  | naive ids => exact ⟨List.Nodup.erase _ h, List.Perm.refl _⟩

theorem FSet.wf_remove {cap : Nat} {s : FSet} (h : s.WF cap) (id : Nat) : (s.remove id).WF cap := (remove_perm h id).1

theorem FSet.mem_remove {cap : Nat} {s : FSet} (h : s.WF cap) {id x : Nat} : x ∈ (s.remove id).members ↔ x ∈ s.members ∧ x ≠ id := by
  rw [(remove_perm h id).2.mem_iff, (FSet.nodup h).mem_erase_iff]
  exact and_comm

end Tycho.Subs
