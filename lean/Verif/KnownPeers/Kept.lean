import Verif.KnownPeers.Counted
/-! The map of the registry and the handles. -/
namespace Tycho.KnownPeers
open Tycho.Table
open Tycho.Table (get)

/-- A step that does not race with a removal owed for the same peer, and uses the calls as intended: an update has the id of
the peer of the handle, and no entry is removed by hand. -/
def CalmAt (s : St) : Op → Prop
  | .insert info _ _ => info.peer ∉ s.pend
  | .ban p => p ∉ s.pend
  | .update h info => ∀ i, (get s.handles h).bind s.innerOf = some i → info.peer = (s.inners i).info.peer
  | .remove _ => False
  | _ => True

/-- A history of such steps. -/
def Calm (l : List Op) : Prop := ∀ l1 o l2, l = l1 ++ o :: l2 → CalmAt (St.run l1) o

/-- The peer of shared data. -/
def St.peerOf (s : St) (i : Nat) : Nat := (s.inners i).info.peer

/-- Living shared data is found through the map; a removal is owed only for an entry that is dead and not a ban. -/
structure Kept (s : St) : Prop where
  here : ∀ i, s.live i = true → get s.entries (s.peerOf i) = some (.stored i) ∧ s.peerOf i ∉ s.pend
  dead : ∀ p ∈ s.pend, ∃ i, get s.entries p = some (.stored i)
  own : ∀ p i, get s.entries p = some (.stored i) → s.peerOf i = p
  once : s.pend.Nodup

variable {s t : St}

theorem kept_sub (h : Kept s) (he : t.entries = s.entries) (hp : t.pend = s.pend) (hi : ∀ i, t.peerOf i = s.peerOf i)
    (hl : ∀ j, t.live j = true → s.live j = true) : Kept t := by
  refine ⟨fun i hlv => ?_, fun p hp' => ?_, fun p i hg => ?_, ?_⟩
  · rw [he, hp, hi]; exact h.here i (hl i hlv)
  · rw [he]; exact h.dead p (hp ▸ hp')
  · rw [hi]; exact h.own p i (he ▸ hg)
  · rw [hp]; exact h.once

/-! ### Who lives -/

theorem live_edit (s : St) (i : Nat) (f : Inner → Inner) (j : Nat) : (s.edit i f).live j = s.live j := rfl

theorem live_handleSimple (h : Mem s) (i j : Nat) (hi : i < s.nextInner) :
    (s.handleSimple i).live j = true ↔ s.live j = true ∨ j = i := by
  rw [live_iff (mem_handleSimple h i hi), live_iff h]
  simp only [St.handleSimple, get_put]
  have := fun k x => h.hlt k x
  constructor
  · rintro (⟨k, hk⟩ | hw)
    · split at hk
      · simp at hk; exact .inr hk.symm
      · exact .inl (.inl ⟨k, hk⟩)
    · exact .inl (.inr hw)
  · rintro ((⟨k, hk⟩ | hw) | rfl)
    · exact .inl ⟨k, by rw [if_neg (by have := h.hlt _ _ hk; omega)]; exact hk⟩
    · exact .inr hw
    · exact .inl ⟨s.nextHandle, by simp⟩

theorem live_handleAff (h : Mem s) (i j : Nat) (hi : i < s.nextInner) :
    (s.handleAff i).live j = true ↔ s.live j = true ∨ j = i := by
  rw [live_iff (mem_handleAff h i hi), live_iff h]
  simp only [St.handleAff, get_put]
  constructor
  · rintro (⟨k, hk⟩ | ⟨w, hw⟩ | ht)
    · split at hk
      · simp at hk
      · exact .inl (.inl ⟨k, hk⟩)
    · split at hw
      · simp at hw; exact .inr hw.symm
      · exact .inl (.inr (.inl ⟨w, hw⟩))
    · exact .inl (.inr (.inr ht))
  · rintro ((⟨k, hk⟩ | ⟨w, hw⟩ | ht) | rfl)
    · exact .inl ⟨k, by rw [if_neg (by have := h.hlt _ _ hk; omega)]; exact hk⟩
    · exact .inr (.inl ⟨w, by rw [if_neg (by have := h.wlt _ _ hw; omega)]; exact hw⟩)
    · exact .inr (.inr ht)
    · exact .inr (.inl ⟨s.nextWrap, by simp⟩)

theorem live_fromInner (h : Mem s) (i j : Nat) (aff : Bool) (hi : i < s.nextInner) :
    (s.fromInner i aff).live j = true ↔ s.live j = true ∨ j = i := by
  cases aff
  · exact live_handleSimple h i j hi
  · exact live_handleAff h i j hi

theorem live_clone (h : Mem s) (k : Nat) (x : Handle) (hk : get s.handles k = some x) (j : Nat) :
    ((s.clone k).1).live j = true ↔ s.live j = true := by
  have hm := mem_step h (.clone k)
  simp only [St.step] at hm
  rw [live_iff hm, live_iff h]
  simp only [St.clone, hk, get_put]
  constructor
  · rintro (⟨q, hq⟩ | hw)
    · split at hq
      · exact .inl ⟨k, by rw [hk, hq]⟩
      · exact .inl ⟨q, hq⟩
    · exact .inr hw
  · rintro (⟨q, hq⟩ | hw)
    · exact .inl ⟨q, by rw [if_neg (by have := h.hlt _ _ hq; omega)]; exact hq⟩
    · exact .inr hw

theorem live_wrap (h : Mem s) (k i : Nat) (hk : get s.handles k = some (.simple i)) (j : Nat) :
    (s.wrap k i).live j = true ↔ s.live j = true := by
  rw [live_iff (mem_wrap h k i hk), live_iff h]
  simp only [St.wrap, get_put]
  constructor
  · rintro (⟨q, hq⟩ | ⟨w, hw⟩ | ht)
    · split at hq
      · simp at hq
      · exact .inl ⟨q, hq⟩
    · split at hw
      · simp at hw; subst hw; exact .inl ⟨k, hk⟩
      · exact .inr (.inl ⟨w, hw⟩)
    · exact .inr (.inr ht)
  · rintro (⟨q, hq⟩ | ⟨w, hw⟩ | ht)
    · by_cases hqk : q = k
      · subst hqk; rw [hk] at hq; simp at hq; subst hq
        exact .inr (.inl ⟨s.nextWrap, by simp⟩)
      · exact .inl ⟨q, by rw [if_neg hqk]; exact hq⟩
    · exact .inr (.inl ⟨w, by rw [if_neg (by have := h.wlt _ _ hw; omega)]; exact hw⟩)
    · exact .inr (.inr ht)

theorem live_simplify (h : Mem s) (k w i : Nat) (hk : get s.handles k = some (.aff w)) (hw : get s.wraps w = some i) (j : Nat) :
    ((s.unwrap k w).toSimple k i).live j = true ↔ s.live j = true := by
  rw [live_iff (mem_simplify h k w i hk hw), live_iff h]
  have hsub : ∀ x y, get (s.unwrap k w).wraps x = some y → get s.wraps x = some y := by
    intro x y; unfold St.unwrap; split
    · exact id
    · simp only [get_del]; split
      · simp
      · exact id
  have hsup : ∀ x y, get s.wraps x = some y → x = w ∨ get (s.unwrap k w).wraps x = some y := by
    intro x y hx
    by_cases e : x = w
    · exact .inl e
    · right; unfold St.unwrap; split
      · exact hx
      · simp [get_del, e, hx]
  have hu : (s.unwrap k w).handles = s.handles := by unfold St.unwrap; split <;> rfl
  have hut : (s.unwrap k w).temps = s.temps := by unfold St.unwrap; split <;> rfl
  simp only [St.toSimple, hu, hut, get_put]
  constructor
  · rintro (⟨q, hq⟩ | ⟨x, hx⟩ | ht)
    · split at hq
      · simp at hq; subst hq; exact .inr (.inl ⟨w, hw⟩)
      · exact .inl ⟨q, hq⟩
    · exact .inr (.inl ⟨x, hsub _ _ hx⟩)
    · exact .inr (.inr ht)
  · rintro (⟨q, hq⟩ | ⟨x, hx⟩ | ht)
    · exact .inl ⟨q, by rw [if_neg (by rintro rfl; rw [hk] at hq; simp at hq)]; exact hq⟩
    · rcases hsup _ _ hx with rfl | hx'
      · rw [hw] at hx; simp at hx; subst hx; exact .inl ⟨k, by simp⟩
      · exact .inr (.inl ⟨x, hx'⟩)
    · exact .inr (.inr ht)

/-- What lives after a handle was dropped: all but possibly the data it held. -/
theorem live_forget (h : Mem s) (k : Nat) (hm : Mem (s.forget k)) (j : Nat) :
    ((s.forget k).live j = true → s.live j = true) ∧
    (s.live j = true → get s.handles k ≠ some (.simple j) → (s.forget k).live j = true) := by
  rw [live_iff hm, live_iff h]
  simp only [St.forget, get_del]
  constructor
  · rintro (⟨q, hq⟩ | hw)
    · split at hq
      · simp at hq
      · exact .inl ⟨q, hq⟩
    · exact .inr hw
  · rintro (⟨q, hq⟩ | hw) hn
    · exact .inl ⟨q, by rw [if_neg (by simp only [decide_eq_true_eq]; rintro rfl; exact hn hq)]; exact hq⟩
    · exact .inr hw

theorem live_forgetAff (h : Mem s) (k w i : Nat) (hk : get s.handles k = some (.aff w)) (hs : s.shared k w = false)
    (hw : get s.wraps w = some i) (j : Nat) :
    (((s.unwrap k w).forget k).live j = true → s.live j = true) ∧
    (s.live j = true → j ≠ i → ((s.unwrap k w).forget k).live j = true) := by
  have hm := mem_forgetAff h k w hk hs
  have e : s.unwrap k w = { s with wraps := del s.wraps (fun x => decide (x = w)) } := by unfold St.unwrap; simp [hs]
  rw [e] at hm ⊢
  rw [live_iff hm, live_iff h]
  simp only [St.forget, get_del]
  constructor
  · rintro (⟨q, hq⟩ | ⟨x, hx⟩ | ht)
    · split at hq
      · simp at hq
      · exact .inl ⟨q, hq⟩
    · split at hx
      · simp at hx
      · exact .inr (.inl ⟨x, hx⟩)
    · exact .inr (.inr ht)
  · rintro (⟨q, hq⟩ | ⟨x, hx⟩ | ht) hn
    · refine .inl ⟨q, ?_⟩
      rw [if_neg (by simp only [decide_eq_true_eq]; rintro rfl; rw [hk] at hq; simp at hq)]; exact hq
    · refine .inr (.inl ⟨x, ?_⟩)
      rw [if_neg (by simp only [decide_eq_true_eq]; rintro rfl; rw [hw] at hx; simp at hx; exact hn hx.symm)]; exact hx
    · exact .inr (.inr ht)

end Tycho.KnownPeers
