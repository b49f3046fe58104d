import Verif.McTracker.Model

namespace Tycho.McTracker
open Tycho.Table

/-- `o` is the least number with `P`, and `none` if there is none. -/
def Least (P : Nat → Prop) : Option Nat → Prop
  | some a => P a ∧ ∀ b, P b → a ≤ b
  | none => ∀ b, ¬ P b

theorem least_congr {P Q : Nat → Prop} (h : ∀ x, P x ↔ Q x) (o : Option Nat) (ho : Least P o) : Least Q o := by
  cases o with
  | none => exact fun b hb => ho b ((h b).2 hb)
  | some a => exact ⟨(h a).1 ho.1, fun b hb => ho.2 b ((h b).2 hb)⟩

structure Inv (s : St) : Prop where
  uniq : Uniq s.refs
  count : ∀ m c, get s.refs m = some c → s.handles.count m = c
  gone : ∀ m, get s.refs m = none → m ∉ s.handles
  zero : ∀ m, get s.refs m = some 0 → m ∈ s.removing
  min : Least (fun m => (get s.refs m).isSome) s.min

theorem keys_least (t : Table Nat Nat) : Least (fun m => (get t m).isSome) (t.map (·.1)).min? := by
  have hk : ∀ m, (get t m).isSome ↔ m ∈ t.map (·.1) := by
    intro m
    rw [List.mem_map]
    constructor
    · intro h
      obtain ⟨c, hc⟩ := Option.isSome_iff_exists.1 h
      exact ⟨(m, c), mem_of_get t m c hc, rfl⟩
    · rintro ⟨⟨m', c⟩, h, rfl⟩
      exact get_some_of_mem t m' c h
  cases h : (t.map (·.1)).min? with
  | none =>
    intro b hb
    rw [List.min?_eq_none_iff] at h
    rw [hk, h] at hb
    cases hb
  | some a =>
    rw [List.min?_eq_some_iff] at h
    exact ⟨(hk a).2 h.1, fun b hb => h.2 b ((hk b).1 hb)⟩

theorem isSome_put_old (t : Table Nat Nat) (m c : Nat) (v : Nat) (h : get t m = some c) (x : Nat) :
    (get t x).isSome ↔ (get (put t m v) x).isSome := by
  rw [get_put]
  by_cases e : x = m
  · subst e; simp [h]
  · simp [e]

theorem count_cons_handles (l : List Nat) (m x : Nat) : (m :: l).count x = if x = m then l.count x + 1 else l.count x := by
  rw [List.count_cons]
  by_cases e : x = m
  · simp [e]
  · have : ¬ m = x := fun h => e h.symm
    simp [e, this]

theorem inv_add {s : St} (hi : Inv s) (m c : Nat) (ins : List Nat) (h : get s.refs m = some c) :
    Inv { s with refs := put s.refs m (c + 1), handles := m :: s.handles, inserting := ins } := by
  refine ⟨uniq_put _ _ _ hi.uniq, fun x d hx => ?_, fun x hx => ?_, fun x hx => ?_, least_congr (isSome_put_old _ m c _ h) _ hi.min⟩
  all_goals
    dsimp only at hx ⊢
    rw [get_put] at hx
  · rw [count_cons_handles]
    by_cases e : x = m
    · subst e; rw [if_pos rfl]; rw [if_pos rfl] at hx; cases hx; rw [hi.count _ _ h]
    · rw [if_neg e]; rw [if_neg e] at hx; exact hi.count x d hx
  · by_cases e : x = m
    · rw [if_pos e] at hx; cases hx
    · rw [if_neg e] at hx
      intro hm
      rcases List.mem_cons.1 hm with h | h
      · exact e h
      · exact hi.gone x hx h
  · by_cases e : x = m
    · rw [if_pos e] at hx; cases hx
    · rw [if_neg e] at hx; exact hi.zero x hx

theorem inv_step {s s' : St} (hi : Inv s) (h : Step s s') : Inv s' := by
  cases h with
  | insertRead m =>
    unfold St.insertRead
    split
    · rename_i c h; exact inv_add hi m c s.inserting h
    · exact ⟨hi.uniq, hi.count, hi.gone, hi.zero, hi.min⟩
  | insertWrite m hm =>
    unfold St.insertWrite
    split
    · rename_i h
      have h0 : s.handles.count m = 0 := List.count_eq_zero.2 (hi.gone m h)
      refine ⟨uniq_put _ _ _ hi.uniq, fun x d hx => ?_, fun x hx => ?_, fun x hx => ?_, ?_⟩
      · dsimp only at hx ⊢
        rw [get_put] at hx
        rw [count_cons_handles]
        by_cases e : x = m
        · subst e; rw [if_pos rfl]; rw [if_pos rfl] at hx; cases hx; rw [h0]
        · rw [if_neg e]; rw [if_neg e] at hx; exact hi.count x d hx
      · dsimp only at hx ⊢
        rw [get_put] at hx
        by_cases e : x = m
        · rw [if_pos e] at hx; cases hx
        · rw [if_neg e] at hx
          intro hm
          rcases List.mem_cons.1 hm with h | h
          · exact e h
          · exact hi.gone x hx h
      · dsimp only at hx ⊢
        rw [get_put] at hx
        by_cases e : x = m
        · rw [if_pos e] at hx; cases hx
        · rw [if_neg e] at hx; exact hi.zero x hx
      · have hp : ∀ x, (get (put s.refs m 1) x).isSome ↔ x = m ∨ (get s.refs x).isSome := by
          intro x; rw [get_put]
          by_cases e : x = m
          · simp [e]
          · simp [e]
        apply least_congr (fun x => (hp x).symm)
        have hmin := hi.min
        dsimp only
        cases hs : s.min with
        | none =>
          rw [hs] at hmin
          refine ⟨.inl rfl, fun b hb => ?_⟩
          rcases hb with rfl | hb
          · exact Nat.le_refl _
          · exact absurd hb (hmin b)
        | some a =>
          rw [hs] at hmin
          unfold lower
          dsimp only
          split
          · refine ⟨.inl rfl, fun b hb => ?_⟩
            rcases hb with rfl | hb
            · exact Nat.le_refl _
            · have := hmin.2 b hb; omega
          · refine ⟨.inr hmin.1, fun b hb => ?_⟩
            rcases hb with rfl | hb
            · omega
            · exact hmin.2 b hb
    · rename_i c h; exact inv_add hi m c _ h
  | removeRead m hm =>
    unfold St.removeRead
    split
    · rename_i h; exact absurd hm (hi.gone m h)
    · rename_i c h
      have hc := hi.count m c h
      have hpos : 0 < c := by rw [← hc]; exact List.count_pos_iff.2 hm
      have main : ∀ rem : List Nat, (c = 1 → m ∈ rem) → (∀ x ∈ s.removing, x ∈ rem) →
          Inv { s with refs := put s.refs m (c - 1), handles := s.handles.erase m, removing := rem } := by
        intro rem h1 h2
        refine ⟨uniq_put _ _ _ hi.uniq, fun x d hx => ?_, fun x hx => ?_, fun x hx => ?_, least_congr (isSome_put_old _ m c _ h) _ hi.min⟩
        all_goals
          dsimp only at hx ⊢
          rw [get_put] at hx
        · by_cases e : x = m
          · subst e; rw [if_pos rfl] at hx; cases hx
            rw [List.count_erase_self, hc]
          · rw [if_neg e] at hx
            rw [List.count_erase_of_ne e]
            exact hi.count x d hx
        · by_cases e : x = m
          · rw [if_pos e] at hx; cases hx
          · rw [if_neg e] at hx
            exact fun hm => hi.gone x hx (List.mem_of_mem_erase hm)
        · by_cases e : x = m
          · rw [if_pos e] at hx
            rw [e]; apply h1
            have : c - 1 = 0 := Option.some.inj hx
            omega
          · rw [if_neg e] at hx; exact h2 x (hi.zero x hx)
      dsimp only
      split
      · rename_i h1
        exact main s.removing (fun h => by omega) (fun x hx => hx)
      · exact main (m :: s.removing) (fun _ => List.mem_cons_self) (fun x hx => List.mem_cons_of_mem _ hx)
  | removeWrite m hm =>
    unfold St.removeWrite
    split
    · rename_i h
      have h0 : m ∉ s.handles := List.count_eq_zero.1 (hi.count m 0 h)
      have hg : ∀ x, get (del s.refs (fun k => decide (k = m))) x = if x = m then none else get s.refs x := by
        intro x; rw [get_del]
        by_cases e : x = m <;> simp [e]
      dsimp only
      refine ⟨uniq_del s.refs (fun k => decide (k = m)) hi.uniq, fun x d hx => ?_, fun x hx => ?_, fun x hx => ?_, ?_⟩
      · dsimp only at hx ⊢
        rw [hg] at hx
        by_cases e : x = m
        · rw [if_pos e] at hx; cases hx
        · rw [if_neg e] at hx; exact hi.count x d hx
      · dsimp only at hx ⊢
        rw [hg] at hx
        by_cases e : x = m
        · rw [e]; exact h0
        · rw [if_neg e] at hx; exact hi.gone x hx
      · dsimp only at hx ⊢
        rw [hg] at hx
        by_cases e : x = m
        · rw [if_pos e] at hx; cases hx
        · rw [if_neg e] at hx; exact (List.mem_erase_of_ne e).2 (hi.zero x hx)
      · dsimp only
        split
        · exact keys_least _
        · rename_i hne
          have hmin := hi.min
          have hp : ∀ x, (get (del s.refs (fun k => decide (k = m))) x).isSome ↔ x ≠ m ∧ (get s.refs x).isSome := by
            intro x; rw [hg]
            by_cases e : x = m <;> simp [e]
          apply least_congr (fun x => (hp x).symm)
          cases hs : s.min with
          | none => rw [hs] at hmin; exact fun b hb => hmin b hb.2
          | some a =>
            rw [hs] at hmin hne
            exact ⟨⟨fun e => hne (by rw [e]), hmin.1⟩, fun b hb => hmin.2 b hb.2⟩
    · rename_i h
      refine ⟨hi.uniq, hi.count, hi.gone, fun x hx => ?_, hi.min⟩
      have e : x ≠ m := by rintro rfl; exact h hx
      exact (List.mem_erase_of_ne e).2 (hi.zero x hx)

theorem inv_run {s : St} (h : Run s) : Inv s := by
  induction h with
  | init => exact ⟨uniq_nil, fun m c h => (by cases h), fun m _ h => (by cases h), fun m h => (by cases h), fun b h => (by cases h)⟩
  | step s s' _ h ih => exact inv_step ih h

/-- At every moment, whatever the threads do, the seqno is not above that of any handle. -/
theorem seqno_le {s : St} (h : Run s) (m : Nat) (hm : m ∈ s.handles) : ∃ a, s.seqno = some a ∧ a ≤ m := by
  have hi := inv_run h
  have hk : (get s.refs m).isSome := by
    cases hg : get s.refs m with
    | none => exact absurd hm (hi.gone m hg)
    | some c => rfl
  have hmin := hi.min
  unfold St.seqno
  cases hs : s.min with
  | none => rw [hs] at hmin; exact absurd hk (hmin m)
  | some a => rw [hs] at hmin; exact ⟨a, rfl, hmin.2 m hk⟩

/-- When no drop is half done, the seqno is exactly the least of the handles: old states do not hold the collection back. -/
theorem seqno_exact {s : St} (h : Run s) (hr : s.removing = []) : Least (· ∈ s.handles) s.seqno := by
  have hi := inv_run h
  refine least_congr (fun x => ?_) _ hi.min
  constructor
  · intro hx
    obtain ⟨c, hc⟩ := Option.isSome_iff_exists.1 hx
    have h1 := hi.count x c hc
    by_cases h0 : c = 0
    · subst h0; have := hi.zero x hc; rw [hr] at this; cases this
    · exact List.count_pos_iff.1 (by omega)
  · intro hx
    cases hg : get s.refs x with
    | none => exact absurd hx (hi.gone x hg)
    | some c => rfl

/-- Otherwise it is the seqno of a handle or of one whose drop is half done. -/
theorem seqno_mem {s : St} (h : Run s) (a : Nat) (ha : s.seqno = some a) : a ∈ s.handles ∨ a ∈ s.removing := by
  have hi := inv_run h
  have hmin := hi.min
  rw [show s.min = some a from ha] at hmin
  obtain ⟨c, hc⟩ := Option.isSome_iff_exists.1 hmin.1
  by_cases h0 : c = 0
  · subst h0; exact .inr (hi.zero a hc)
  · have h1 := hi.count a c hc
    exact .inl (List.count_pos_iff.1 (by omega))

/-- Handles appear and disappear only as asked. -/
theorem handles_step {s s' : St} (h : Step s s') :
    s'.handles = s.handles ∨ (∃ m, s'.handles = m :: s.handles) ∨ ∃ m ∈ s.handles, s'.handles = s.handles.erase m := by
  cases h with
  | insertRead m =>
    unfold St.insertRead
    split
    · exact .inr (.inl ⟨m, rfl⟩)
    · exact .inl rfl
  | insertWrite m hm => unfold St.insertWrite; split <;> exact .inr (.inl ⟨m, rfl⟩)
  | removeRead m hm =>
    unfold St.removeRead
    split
    · exact .inr (.inr ⟨m, hm, rfl⟩)
    · dsimp only; split <;> exact .inr (.inr ⟨m, hm, rfl⟩)
  | removeWrite m hm => unfold St.removeWrite; split <;> exact .inl rfl

/-- Both handles are covered by the one `min_safe` returns. -/
theorem minSafe_covers (a b : Option Nat) (m : Nat) (h : a = some m ∨ b = some m) : ∃ x, minSafe a b = some x ∧ x ≤ m := by
  cases a with
  | none =>
    cases b with
    | none => rcases h with h | h <;> cases h
    | some y =>
      rcases h with h | h
      · cases h
      · cases h; exact ⟨m, rfl, Nat.le_refl _⟩
  | some x =>
    cases b with
    | none =>
      rcases h with h | h
      · cases h; exact ⟨m, rfl, Nat.le_refl _⟩
      · cases h
    | some y =>
      unfold minSafe
      dsimp only
      split
      · rename_i hlt
        rcases h with h | h <;> cases h
        · exact ⟨y, rfl, by omega⟩
        · exact ⟨m, rfl, Nat.le_refl _⟩
      · rename_i hlt
        rcases h with h | h <;> cases h
        · exact ⟨m, rfl, Nat.le_refl _⟩
        · exact ⟨x, rfl, by omega⟩

theorem minSafe_one (a b : Option Nat) : minSafe a b = a ∨ minSafe a b = b := by
  cases a with
  | none => cases b <;> exact .inr rfl
  | some x =>
    cases b with
    | none => exact .inl rfl
    | some y =>
      unfold minSafe
      dsimp only
      split
      · exact .inr rfl
      · exact .inl rfl

/-- Zerostates are not tracked, every other state is. -/
theorem tracked_iff (seqno minRef : Nat) (h : minRef < 4294967295) : trackedSeqno seqno minRef = if seqno = 0 then none else some minRef := by
  unfold trackedSeqno
  by_cases e : seqno = 0
  · simp [e]
  · rw [if_neg e, if_neg]; omega

end Tycho.McTracker
