import Verif.KnownPeers.Model
import Mathlib.Data.List.Induction
/-! The memory of the registry is consistent after any history. -/
namespace Tycho.KnownPeers
open Tycho.Table
open Tycho.Table (get)

theorem any_iff {ν : Type} (t : Table Nat ν) (hu : Uniq t) (f : Nat × ν → Bool) :
    t.any f = true ↔ ∃ k v, get t k = some v ∧ f (k, v) = true := by
  rw [List.any_eq_true]
  constructor
  · rintro ⟨e, he, hf⟩
    exact ⟨e.1, e.2, get_of_mem _ hu _ _ he, hf⟩
  · rintro ⟨k, v, hg, hf⟩
    exact ⟨(k, v), mem_of_get _ _ _ hg, hf⟩

/-- Handles, wrappers and inners refer to each other. -/
structure Mem (s : St) : Prop where
  uh : Uniq s.handles
  uw : Uniq s.wraps
  hlt : ∀ h x, get s.handles h = some x → h < s.nextHandle
  wlt : ∀ w i, get s.wraps w = some i → w < s.nextWrap
  hw : ∀ h w, get s.handles h = some (.aff w) → ∃ i, get s.wraps w = some i
  wh : ∀ w i, get s.wraps w = some i → ∃ h, get s.handles h = some (.aff w)
  il : ∀ h i, get s.handles h = some (.simple i) → i < s.nextInner
  wl : ∀ w i, get s.wraps w = some i → i < s.nextInner
  tl : ∀ i ∈ s.temps, i < s.nextInner
  el : ∀ p i, get s.entries p = some (.stored i) → i < s.nextInner

theorem live_iff {s : St} (h : Mem s) (i : Nat) :
    s.live i = true ↔ (∃ k, get s.handles k = some (.simple i)) ∨ (∃ w, get s.wraps w = some i) ∨ i ∈ s.temps := by
  unfold St.live
  rw [Bool.or_eq_true, Bool.or_eq_true, any_iff _ h.uh, any_iff _ h.uw, List.contains_iff_mem, or_assoc]
  refine or_congr ?_ (or_congr ?_ Iff.rfl)
  · constructor
    · rintro ⟨k, v, h1, h2⟩; exact ⟨k, by simpa using (beq_iff_eq.1 h2) ▸ h1⟩
    · rintro ⟨k, h1⟩; exact ⟨k, _, h1, by simp⟩
  · constructor
    · rintro ⟨k, v, h1, h2⟩; exact ⟨k, by simpa using (beq_iff_eq.1 h2) ▸ h1⟩
    · rintro ⟨k, h1⟩; exact ⟨k, _, h1, by simp⟩

theorem shared_iff {s : St} (h : Mem s) (k w : Nat) :
    s.shared k w = true ↔ ∃ j, j ≠ k ∧ get s.handles j = some (.aff w) := by
  unfold St.shared
  rw [any_iff _ h.uh]
  constructor
  · rintro ⟨j, v, h1, h2⟩
    simp only [Bool.and_eq_true, bne_iff_ne, ne_eq, beq_iff_eq] at h2
    exact ⟨j, h2.1, h2.2 ▸ h1⟩
  · rintro ⟨j, h1, h2⟩
    exact ⟨j, _, h2, by simp [h1]⟩

theorem live_lt {s : St} (h : Mem s) {i : Nat} (hl : s.live i = true) : i < s.nextInner := by
  rcases (live_iff h i).1 hl with ⟨k, hk⟩ | ⟨w, hw⟩ | ht
  · exact h.il _ _ hk
  · exact h.wl _ _ hw
  · exact h.tl _ ht

/-! ### The parts of the calls -/

theorem mem_edit {s : St} (h : Mem s) (i : Nat) (f : Inner → Inner) : Mem (s.edit i f) :=
  ⟨h.uh, h.uw, h.hlt, h.wlt, h.hw, h.wh, h.il, h.wl, h.tl, h.el⟩

theorem mem_alloc {s : St} (h : Mem s) (info : Info) (aff : Bool) : Mem (s.alloc info aff) := by
  refine ⟨h.uh, h.uw, h.hlt, h.wlt, h.hw, h.wh, fun k i hk => Nat.lt_succ_of_lt (h.il k i hk),
    fun k i hk => Nat.lt_succ_of_lt (h.wl k i hk), fun i hi => Nat.lt_succ_of_lt (h.tl i hi), fun p i hp => ?_⟩
  simp only [St.alloc, get_put] at hp ⊢
  have := h.el p i
  grind

theorem mem_handleSimple {s : St} (h : Mem s) (i : Nat) (hi : i < s.nextInner) : Mem (s.handleSimple i) := by
  obtain ⟨a, b, c, d, e, f, g, k, l, m⟩ := h
  refine ⟨uniq_put _ _ _ a, b, ?_, d, ?_, ?_, ?_, k, l, m⟩ <;> simp only [St.handleSimple, get_put] <;> grind

theorem mem_handleAff {s : St} (h : Mem s) (i : Nat) (hi : i < s.nextInner) : Mem (s.handleAff i) := by
  obtain ⟨a, b, c, d, e, f, g, k, l, m⟩ := h
  refine ⟨uniq_put _ _ _ a, uniq_put _ _ _ b, ?_, ?_, ?_, ?_, ?_, ?_, l, m⟩ <;> simp only [St.handleAff, get_put]
  · grind
  · grind
  · intro h w hw
    by_cases hwn : w = s.nextWrap
    · exact ⟨i, by simp [hwn]⟩
    · simp only [hwn, if_false]; grind
  · intro w j hw
    by_cases hwn : w = s.nextWrap
    · exact ⟨s.nextHandle, by simp [hwn]⟩
    · simp only [hwn, if_false] at hw
      obtain ⟨h, hh⟩ := f w j hw
      exact ⟨h, by grind⟩
  · grind
  · grind

theorem mem_fromInner {s : St} (h : Mem s) (i : Nat) (aff : Bool) (hi : i < s.nextInner) : Mem (s.fromInner i aff) := by
  unfold St.fromInner
  split
  · exact mem_handleAff h i hi
  · exact mem_handleSimple h i hi

theorem mem_entry {s : St} (h : Mem s) (p : Nat) : Mem { s with entries := put s.entries p .banned } := by
  obtain ⟨a, b, c, d, e, f, g, k, l, m⟩ := h
  refine ⟨a, b, c, d, e, f, g, k, l, ?_⟩
  simp only [get_put]; grind

theorem mem_unentry {s : St} (h : Mem s) (p : Nat) : Mem { s with entries := del s.entries (fun x => decide (x = p)) } := by
  obtain ⟨a, b, c, d, e, f, g, k, l, m⟩ := h
  refine ⟨a, b, c, d, e, f, g, k, l, ?_⟩
  simp only [get_del]; grind

theorem mem_wrap {s : St} (h : Mem s) (k i : Nat) (hk : get s.handles k = some (.simple i)) : Mem (s.wrap k i) := by
  have hi := h.il _ _ hk
  have hlt := h.hlt _ _ hk
  obtain ⟨a, b, c, d, e, f, g, k, l, m⟩ := h
  refine ⟨uniq_put _ _ _ a, uniq_put _ _ _ b, ?_, ?_, ?_, ?_, ?_, ?_, l, m⟩ <;> simp only [St.wrap, get_put]
  · grind
  · grind
  · intro h w hw
    by_cases hwn : w = s.nextWrap
    · exact ⟨i, by simp [hwn]⟩
    · simp only [hwn, if_false]; grind
  · intro w j hw
    by_cases hwn : w = s.nextWrap
    · exact ⟨_, by rw [if_pos rfl, hwn]⟩
    · simp only [hwn, if_false] at hw
      obtain ⟨h, hh⟩ := f w j hw
      exact ⟨h, by grind⟩
  · grind
  · grind

/-- A handle lets its wrapper go and becomes a handle without affinity. -/
theorem mem_simplify {s : St} (h : Mem s) (k w i : Nat) (hk : get s.handles k = some (.aff w))
    (hw : get s.wraps w = some i) : Mem ((s.unwrap k w).toSimple k i) := by
  have hi := h.wl _ _ hw
  have hlt := h.hlt _ _ hk
  have hs := shared_iff h k w
  obtain ⟨a, b, c, d, e, f, g, j, l, m⟩ := h
  unfold St.unwrap
  split
  · rename_i hsh
    obtain ⟨j', hj1, hj2⟩ := hs.1 hsh
    refine ⟨uniq_put _ _ _ a, b, ?_, d, ?_, ?_, ?_, j, l, m⟩ <;> simp only [St.toSimple, get_put] <;> grind
  · rename_i hsh
    rw [hs] at hsh
    refine ⟨uniq_put _ _ _ a, uniq_del _ (fun x => decide (x = w)) b, ?_, ?_, ?_, ?_, ?_, ?_, l, m⟩ <;>
      simp only [St.toSimple, get_put, get_del] <;> grind

/-- A handle goes away together with its wrapper, if it has one that is not shared. -/
theorem mem_forget {s : St} (h : Mem s) (k : Nat)
    (hk : ∀ w, get s.handles k = some (.aff w) → s.shared k w = true) : Mem (s.forget k) := by
  have hs := fun w => shared_iff h k w
  obtain ⟨a, b, c, d, e, f, g, j, l, m⟩ := h
  refine ⟨uniq_del _ (fun x => decide (x = k)) a, b, ?_, d, ?_, ?_, ?_, j, l, m⟩ <;> simp only [St.forget, get_del] <;> grind

theorem mem_forgetAff {s : St} (h : Mem s) (k w : Nat) (hk : get s.handles k = some (.aff w)) (hn : s.shared k w = false) :
    Mem ((s.unwrap k w).forget k) := by
  have hs := shared_iff h k w
  have e' : s.unwrap k w = { s with wraps := del s.wraps (fun x => decide (x = w)) } := by unfold St.unwrap; simp [hn]
  rw [e']
  have hs' : ¬ ∃ j, j ≠ k ∧ get s.handles j = some (.aff w) := by rw [← hs]; simp [hn]
  obtain ⟨a, b, c, d, e, f, g, j, l, m⟩ := h
  refine ⟨uniq_del _ (fun x => decide (x = k)) a, uniq_del _ (fun x => decide (x = w)) b, ?_, ?_, ?_, ?_, ?_, ?_, l, m⟩ <;> simp only [St.forget, get_del] <;> grind

theorem mem_release {s : St} (h : Mem s) (i : Nat) : Mem (s.release i) := by
  unfold St.release
  split
  · exact h
  · split
    · exact h
    · exact ⟨h.uh, h.uw, h.hlt, h.wlt, h.hw, h.wh, h.il, h.wl, h.tl, h.el⟩

theorem mem_new : Mem St.new := by
  constructor <;> simp [St.new, Uniq, Table.get]

theorem find_some {s : St} {p i : Nat} (h : s.find p = some i) : get s.entries p = some (.stored i) ∧ s.live i = true := by
  unfold St.find at h
  split at h
  · split at h
    · simp_all
    · simp at h
  · simp at h

theorem innerOf_lt {s : St} (h : Mem s) {k i : Nat} (hk : (get s.handles k).bind s.innerOf = some i) : s.live i = true := by
  rw [live_iff h]
  cases hg : get s.handles k with
  | none => simp [hg] at hk
  | some x =>
    cases x with
    | simple j => simp [hg, St.innerOf] at hk; subst hk; exact .inl ⟨_, hg⟩
    | aff w => simp [hg, St.innerOf] at hk; exact .inr (.inl ⟨_, hk⟩)

theorem mem_step {s : St} (h : Mem s) (o : Op) : Mem (s.step o) := by
  cases o with
  | insert info aff allow =>
    simp only [St.step, St.insert]
    split
    · exact h
    · exact mem_fromInner (mem_alloc h info aff) _ _ (Nat.lt_succ_self _)
    · rename_i i he
      split
      · split
        · exact h
        · split
          · exact mem_edit h i (fun x => x.update info aff)
          · exact mem_fromInner (mem_edit h _ _) _ _ (h.el _ _ he)
      · exact mem_fromInner (mem_alloc h info aff) _ _ (Nat.lt_succ_self _)
  | update k info =>
    simp only [St.step, St.update]
    split
    · exact h
    · split
      · exact h
      · split
        · exact h
        · exact mem_edit h _ (fun x => x.newer info)
  | ban p =>
    simp only [St.step, St.ban]
    split
    · exact mem_entry h p
    · exact h
    · split
      · exact mem_edit h _ _
      · exact mem_entry h p
  | banHandle k =>
    simp only [St.step, St.banHandle]
    split
    · exact h
    · exact mem_edit h _ _
  | make p aff =>
    simp only [St.step, St.make]
    split
    · exact h
    · rename_i i hf
      have := live_lt h (find_some hf).2
      split
      · split
        · exact h
        · exact mem_handleAff (mem_edit h _ _) _ this
      · exact mem_handleSimple h _ this
  | clone k =>
    simp only [St.step, St.clone]
    split
    · exact h
    · rename_i x hx
      obtain ⟨a, b, c, d, e, f, g, j, l, m⟩ := h
      refine ⟨uniq_put _ _ _ a, b, ?_, d, ?_, ?_, ?_, j, l, m⟩ <;> simp only [get_put] <;> grind
  | upgrade i =>
    simp only [St.step, St.upgrade]
    split
    · rename_i hl
      exact mem_handleSimple h _ (live_lt h hl)
    · exact h
  | increase k =>
    simp only [St.step, St.increase]
    split
    · rename_i i hk
      exact mem_wrap (mem_edit h _ _) k i hk
    · exact h
  | decrease k =>
    simp only [St.step, St.decrease]
    split
    · rename_i w hk
      split
      · rename_i i hw
        exact mem_simplify (mem_edit h i Inner.dec) k w i hk hw
      · exact h
    · exact h
  | drop k =>
    simp only [St.step, St.drop]
    split
    · exact h
    · rename_i i hk
      exact mem_release (mem_forget h k (by intro w hw; rw [hk] at hw; simp at hw)) i
    · rename_i w hk
      split
      · rename_i hs
        refine mem_forget h k (fun w' hw' => ?_)
        rw [hk] at hw'
        simp only [Option.some.injEq, Handle.aff.injEq] at hw'
        exact hw' ▸ hs
      · rename_i hs
        split
        · rename_i i hw
          exact mem_release (mem_forgetAff (mem_edit h i Inner.dec) k w hk (by rw [Bool.not_eq_true] at hs; exact hs)) i
        · exact h
  | finish k =>
    simp only [St.step, St.finish]
    split
    · exact h
    · rename_i p hp
      have := mem_unentry h p
      exact ⟨this.uh, this.uw, this.hlt, this.wlt, this.hw, this.wh, this.il, this.wl, this.tl, this.el⟩
  | peek p =>
    simp only [St.step, St.peek]
    split
    · rename_i i hf
      have := live_lt h (find_some hf).2
      refine ⟨h.uh, h.uw, h.hlt, h.wlt, h.hw, h.wh, h.il, h.wl, fun j hj => ?_, h.el⟩
      rcases List.mem_cons.1 hj with rfl | hj
      · exact this
      · exact h.tl _ hj
    · exact h
  | unpeek i =>
    exact ⟨h.uh, h.uw, h.hlt, h.wlt, h.hw, h.wh, h.il, h.wl, fun j hj => h.tl _ (List.mem_of_mem_erase hj), h.el⟩
  | remove p => exact mem_unentry h p

theorem run_snoc (l : List Op) (o : Op) : St.run (l ++ [o]) = (St.run l).step o := by
  unfold St.run; rw [List.foldl_append]; rfl

theorem mem_run (l : List Op) : Mem (St.run l) := by
  induction l using List.reverseRecOn with
  | nil => exact mem_new
  | append_singleton l o ih => rw [run_snoc]; exact mem_step ih o

end Tycho.KnownPeers
