import Verif.KnownPeers.Inv
/-! Affinity is what the handles say. -/
namespace Tycho.KnownPeers
open Tycho.Table
open Tycho.Table (get)

/-- The shared data a step bans. -/
def bannedBy (s : St) : Op → Option Nat
  | .ban p => s.find p
  | .banHandle h => (get s.handles h).bind s.innerOf
  | _ => none

/-- The shared data was banned in the history. -/
def Bans (l : List Op) (i : Nat) : Prop := ∃ l1 o l2, l = l1 ++ o :: l2 ∧ bannedBy (St.run l1) o = some i

/-- The shared data of an insertion with affinity that is rejected because the info is outdated. -/
def rejects (s : St) : Op → Option Nat
  | .insert info true false => (s.find info.peer).bind (fun i =>
      if (s.inners i).isBanned = false ∧ info.created < (s.inners i).info.created then some i else none)
  | _ => none

/-- Those of a history, one for each rejection. -/
def rejected (l : List Op) : List Nat :=
  (l.foldl (fun x o => (x.1.step o, x.2 ++ (rejects x.1 o).toList)) (St.new, [])).2

/-- Affinity is never decreased through a handle that has clones. -/
def Careful (l : List Op) : Prop := ∀ l1 h l2 w, l = l1 ++ Op.decrease h :: l2 →
  get (St.run l1).handles h = some (.aff w) → (St.run l1).shared h w = false

theorem rejected_fst (l : List Op) :
    (l.foldl (fun (x : St × List Nat) o => (x.1.step o, x.2 ++ (rejects x.1 o).toList)) (St.new, [])).1 = St.run l := by
  induction l using List.reverseRecOn with
  | nil => rfl
  | append_singleton l o ih => rw [List.foldl_append, run_snoc, ← ih]; rfl

theorem rejected_snoc (l : List Op) (o : Op) : rejected (l ++ [o]) = rejected l ++ (rejects (St.run l) o).toList := by
  unfold rejected
  rw [List.foldl_append, ← rejected_fst l]; rfl

theorem bans_snoc (l : List Op) (o : Op) (i : Nat) : Bans (l ++ [o]) i ↔ Bans l i ∨ bannedBy (St.run l) o = some i := by
  constructor
  · rintro ⟨l1, o', l2, he, hb⟩
    rcases List.eq_nil_or_concat l2 with rfl | ⟨l3, x, rfl⟩
    · have := List.append_inj' (t₁ := [o]) (t₂ := [o']) he rfl
      obtain ⟨h1, h2⟩ := this
      simp only [List.cons.injEq, and_true] at h2
      exact .inr (h1 ▸ h2 ▸ hb)
    · rw [List.concat_eq_append, ← List.cons_append, ← List.append_assoc] at he
      have := List.append_inj' he rfl
      exact .inl ⟨l1, o', l3, this.1, hb⟩
  · rintro (⟨l1, o', l2, he, hb⟩ | hb)
    · exact ⟨l1, o', l2 ++ [o], by rw [he]; simp, hb⟩
    · exact ⟨l, o, [], rfl, hb⟩

theorem careful_init {l : List Op} {o : Op} (h : Careful (l ++ [o])) : Careful l := by
  intro l1 k l2 w he
  exact h l1 k (l2 ++ [o]) w (by rw [he]; simp)

/-! ### Counting wrappers -/

/-- The number of living wrappers of shared data. -/
def St.wrappers (s : St) (i : Nat) : Nat := s.wraps.countP (fun e => decide (e.2 = i))

theorem del_absent (t : Table Nat Nat) (k : Nat) (h : get t k = none) : del t (fun x => decide (x = k)) = t := by
  unfold del
  rw [List.filter_eq_self]
  intro e he
  have := get_some_of_mem t e.1 e.2 he
  simp only [Bool.not_eq_true', decide_eq_false_iff_not]
  intro hek
  rw [hek, h] at this
  simp at this

theorem count_put (t : Table Nat Nat) (k v i : Nat) (h : get t k = none) :
    (put t k v).countP (fun e => decide (e.2 = i)) = t.countP (fun e => decide (e.2 = i)) + if v = i then 1 else 0 := by
  unfold put
  rw [del_absent t k h, List.countP_cons]
  simp

theorem count_del (t : Table Nat Nat) (hu : Uniq t) (k v i : Nat) (h : get t k = some v) :
    (del t (fun x => decide (x = k))).countP (fun e => decide (e.2 = i)) + (if v = i then 1 else 0) =
      t.countP (fun e => decide (e.2 = i)) := by
  induction t with
  | nil => simp [Table.get] at h
  | cons e t ih =>
    unfold Uniq at hu ih
    rw [List.map_cons, List.nodup_cons] at hu
    by_cases hk : e.1 = k
    · have hn : get t k = none := by
        cases hg : get t k with
        | none => rfl
        | some x => exact absurd (hk ▸ List.mem_map_of_mem (f := (·.1)) (mem_of_get _ _ _ hg)) hu.1
      have hv : e.2 = v := by simpa [Table.get, hk] using h
      have : del (e :: t) (fun x => decide (x = k)) = del t (fun x => decide (x = k)) := by simp [del, hk]
      rw [this, del_absent t k hn, List.countP_cons]
      simp [hv]
    · have hg : get t k = some v := by simpa [Table.get, hk] using h
      have : del (e :: t) (fun x => decide (x = k)) = e :: del t (fun x => decide (x = k)) := by simp [del, hk]
      rw [this, List.countP_cons, List.countP_cons, ← ih hu.2 hg]
      omega

/-- What the counters say: `B` are banned, `R` were rejected, `n` steps were made. -/
structure Counted (B : Nat → Prop) (R : List Nat) (n : Nat) (s : St) : Prop where
  ban : ∀ i, B i → i < s.nextInner ∧ (s.inners i).aff = banned
  free : ∀ i, i < s.nextInner → ¬ B i → (s.inners i).aff = s.wrappers i + R.count i
  room : s.wraps.length + R.length ≤ n
  lim : ∀ i ∈ R, i < s.nextInner

variable {B : Nat → Prop} {R : List Nat} {n : Nat} {s t : St}

/-- Not banned means that the counter is below the mark. -/
theorem below (h : Counted B R n s) (hn : n < banned) (i : Nat) (hi : i < s.nextInner) (hb : ¬ B i) :
    (s.inners i).aff < banned := by
  rw [h.free i hi hb]
  have h1 : s.wrappers i ≤ s.wraps.length := List.countP_le_length
  have h2 : R.count i ≤ R.length := List.count_le_length
  have := h.room
  omega

theorem counted_same (h : Counted B R n s) (hw : t.wraps = s.wraps) (hn : t.nextInner = s.nextInner)
    (ha : ∀ i, (t.inners i).aff = (s.inners i).aff) : Counted B R (n + 1) t := by
  refine ⟨fun i hi => ?_, fun i hi hb => ?_, ?_, fun i hi => hn ▸ h.lim i hi⟩
  · rw [hn, ha]; exact h.ban i hi
  · rw [ha, h.free i (hn ▸ hi) hb]; unfold St.wrappers; rw [hw]
  · rw [hw]; have := h.room; omega

theorem counted_alloc (h : Counted B R n s) (hn : t.nextInner = s.nextInner + 1)
    (hw : t.wraps = s.wraps) (hm : Mem s) (ha : ∀ i, i ≠ s.nextInner → (t.inners i).aff = (s.inners i).aff)
    (h0 : (t.inners s.nextInner).aff = 0) : Counted B R (n + 1) t := by
  have hz : s.wrappers s.nextInner = 0 := by
    unfold St.wrappers
    rw [List.countP_eq_zero]
    intro e he hd
    have := hm.wl e.1 e.2 (get_of_mem _ hm.uw _ _ he)
    simp only [decide_eq_true_eq] at hd
    omega
  have hc : R.count s.nextInner = 0 := by
    rw [List.count_eq_zero]
    intro hm; have := h.lim _ hm; omega
  refine ⟨fun i hi => ?_, fun i hi hb => ?_, ?_, fun i hi => ?_⟩
  · have h1 := h.ban i hi
    rw [hn, ha i (by omega)]
    exact ⟨by omega, h1.2⟩
  · by_cases he : i = s.nextInner
    · subst he
      unfold St.wrappers at *
      rw [h0, hw, hz, hc]
    · rw [ha i he, h.free i (by omega) hb]; unfold St.wrappers; rw [hw]
  · rw [hw]; have := h.room; omega
  · have := h.lim i hi; omega

/-- A new wrapper and an increased counter. -/
theorem counted_gain (h : Counted B R n s) (hl : n < banned) (hm : Mem s) (i : Nat) (hi : i < s.nextInner)
    (hn : t.nextInner = s.nextInner) (hw : t.wraps = put s.wraps s.nextWrap i)
    (ha : ∀ j, j ≠ i → (t.inners j).aff = (s.inners j).aff) (hai : (t.inners i).aff = ((s.inners i).inc).aff) :
    Counted B R (n + 1) t := by
  have hg : get s.wraps s.nextWrap = none := by
    cases hg : get s.wraps s.nextWrap with
    | none => rfl
    | some x => exact absurd (hm.wlt _ _ hg) (Nat.lt_irrefl _)
  have hc : ∀ j, t.wrappers j = s.wrappers j + if i = j then 1 else 0 := by
    intro j; unfold St.wrappers; rw [hw]; exact count_put _ _ _ _ hg
  have hlen : t.wraps.length = s.wraps.length + 1 := by
    rw [hw]; unfold put; rw [del_absent _ _ hg]; rfl
  refine ⟨fun j hj => ?_, fun j hj hb => ?_, ?_, fun j hj => hn ▸ h.lim j hj⟩
  · rw [hn]
    obtain ⟨h1, h2⟩ := h.ban j hj
    refine ⟨h1, ?_⟩
    by_cases he : j = i
    · subst he; rw [hai]; unfold Inner.inc; simp [h2]
    · rw [ha j he, h2]
  · rw [hc]
    have hf := h.free j (hn ▸ hj) hb
    have hbel := below h hl j (hn ▸ hj) hb
    by_cases he : j = i
    · subst he; rw [hai]; unfold Inner.inc
      rw [if_neg (by omega)]
      simp only [if_true]
      omega
    · rw [ha j he, hf, if_neg (Ne.symm he)]
      omega
  · have := h.room; omega

/-- A wrapper is gone and the counter decreased. -/
theorem counted_loss (h : Counted B R n s) (hl : n < banned) (hm : Mem s) (i w : Nat)
    (hg : get s.wraps w = some i)
    (hn : t.nextInner = s.nextInner) (hw : t.wraps = del s.wraps (fun x => decide (x = w)))
    (ha : ∀ j, j ≠ i → (t.inners j).aff = (s.inners j).aff) (hai : (t.inners i).aff = ((s.inners i).dec).aff) :
    Counted B R (n + 1) t := by
  have hc : ∀ j, t.wrappers j + (if i = j then 1 else 0) = s.wrappers j := by
    intro j; unfold St.wrappers; rw [hw]; exact count_del _ hm.uw _ _ _ hg
  have hlen : t.wraps.length ≤ s.wraps.length := by
    rw [hw]; unfold del; exact List.length_filter_le _ _
  refine ⟨fun j hj => ?_, fun j hj hb => ?_, ?_, fun j hj => hn ▸ h.lim j hj⟩
  · rw [hn]
    obtain ⟨h1, h2⟩ := h.ban j hj
    refine ⟨h1, ?_⟩
    by_cases he : j = i
    · subst he; rw [hai]; unfold Inner.dec; simp [h2]
    · rw [ha j he, h2]
  · have hf := h.free j (hn ▸ hj) hb
    have hbel := below h hl j (hn ▸ hj) hb
    have hcj := hc j
    by_cases he : j = i
    · subst he; rw [hai]; unfold Inner.dec
      simp only [if_true] at hcj
      rw [if_neg (by omega), if_neg (by omega)]
      simp only
      omega
    · rw [ha j he, hf]
      rw [if_neg (Ne.symm he)] at hcj
      omega
  · have := h.room; omega

/-- A rejection. -/
theorem counted_reject (h : Counted B R n s) (hl : n < banned) (i : Nat) (hi : i < s.nextInner)
    (hn : t.nextInner = s.nextInner) (hw : t.wraps = s.wraps)
    (ha : ∀ j, j ≠ i → (t.inners j).aff = (s.inners j).aff) (hai : (t.inners i).aff = ((s.inners i).inc).aff) :
    Counted B (R ++ [i]) (n + 1) t := by
  refine ⟨fun j hj => ?_, fun j hj hb => ?_, ?_, fun j hj => ?_⟩
  · rw [hn]
    obtain ⟨h1, h2⟩ := h.ban j hj
    refine ⟨h1, ?_⟩
    by_cases he : j = i
    · subst he; rw [hai]; unfold Inner.inc; simp [h2]
    · rw [ha j he, h2]
  · have hf := h.free j (hn ▸ hj) hb
    have hbel := below h hl j (hn ▸ hj) hb
    have hwr : t.wrappers j = s.wrappers j := by unfold St.wrappers; rw [hw]
    rw [hwr, List.count_append, List.count_singleton]
    by_cases he : j = i
    · subst he; rw [hai]; unfold Inner.inc
      rw [if_neg (by omega)]
      simp only [beq_self_eq_true, if_true]
      omega
    · rw [ha j he, hf, if_neg (by simpa using Ne.symm he)]
      omega
  · rw [hw, List.length_append]; have := h.room; simp; omega
  · rw [hn]
    rcases List.mem_append.1 hj with hj | hj
    · exact h.lim j hj
    · simp only [List.mem_singleton] at hj; omega

/-- A ban. -/
theorem counted_ban (h : Counted B R n s) (i : Nat) (hi : i < s.nextInner)
    (hn : t.nextInner = s.nextInner) (hw : t.wraps = s.wraps)
    (ha : ∀ j, j ≠ i → (t.inners j).aff = (s.inners j).aff) (hai : (t.inners i).aff = banned) :
    Counted (fun j => B j ∨ some i = some j) R (n + 1) t := by
  refine ⟨fun j hj => ?_, fun j hj hb => ?_, ?_, fun j hj => hn ▸ h.lim j hj⟩
  · rw [hn]
    by_cases he : j = i
    · subst he; exact ⟨hi, hai⟩
    · rcases hj with hj | hj
      · rw [ha j he]; exact h.ban j hj
      · exact absurd (Option.some.inj hj).symm he
  · have he : j ≠ i := fun e => hb (.inr (by rw [e]))
    rw [ha j he, h.free j (hn ▸ hj) (fun hB => hb (.inl hB))]
    unfold St.wrappers; rw [hw]
  · rw [hw]; have := h.room; omega

theorem edit_other (s : St) (i : Nat) (f : Inner → Inner) (j : Nat) (h : j ≠ i) : (s.edit i f).inners j = s.inners j := by
  simp [St.edit, h]

theorem edit_same (s : St) (i : Nat) (f : Inner → Inner) : (s.edit i f).inners i = f (s.inners i) := by
  simp [St.edit]

theorem newer_aff (x : Inner) (info : Info) : (x.newer info).aff = x.aff := by
  unfold Inner.newer; split <;> rfl

theorem release_wraps (s : St) (i : Nat) : (s.release i).wraps = s.wraps := by
  unfold St.release; split
  · rfl
  · split <;> rfl

theorem release_inners (s : St) (i : Nat) : (s.release i).inners = s.inners := by
  unfold St.release; split
  · rfl
  · split <;> rfl

theorem release_next (s : St) (i : Nat) : (s.release i).nextInner = s.nextInner := by
  unfold St.release; split
  · rfl
  · split <;> rfl

end Tycho.KnownPeers
