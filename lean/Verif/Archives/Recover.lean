import Verif.Archives.Inv
import Mathlib.Tactic.ByContra

/-! The start of the node: what `recover` reads from the events. -/
namespace Tycho.Archives

variable {w : World}

structure ROk (d : Disk) (k : Nat) (r : Rec) : Prop where
  items : ∀ a, r.items a = true ↔ d.ev.started a = true ∧ a < k
  queue : ∀ a, a ∈ r.queue ↔ a < k ∧ d.ev.commit a = true ∧ d.ev.committed a = false
  sorted : r.queue.Pairwise (· < ·)
  overOf : ∀ x, r.over = some x → ∃ a, a < k ∧ d.ev.over a = some x
  over : ∀ p x, p < k → d.ev.over p = some x → p ≤ x → (∀ a, p < a → a < k → d.ev.any a = false) → r.over = some x

theorem resetOver_some {o : Option Nat} {a x : Nat} (h : resetOver o a = some x) : o = some x := by
  unfold resetOver at h
  split at h
  · split at h
    · cases h
    · exact h
  · cases h

theorem any_false {e : Events} {a : Nat} (h : e.any a = false) : e.started a = false ∧ e.over a = none ∧ e.commit a = false ∧ e.committed a = false := by
  simpa [Events.any, and_assoc] using h

/-- the override after the events of `a` -/
theorem over_step {d : Disk} {o o' : Option Nat} {a : Nat}
    (h : o' = (if d.ev.commit a || d.ev.committed a then resetOver (match d.ev.over a with | some y => some y | none => resetOver o a) a
      else (match d.ev.over a with | some y => some y | none => resetOver o a))) :
    (∀ x, o' = some x → o = some x ∨ d.ev.over a = some x) ∧ ∀ x, d.ev.over a = some x → a ≤ x → o' = some x := by
  constructor
  · intro x hx
    rw [h] at hx
    have : (match d.ev.over a with | some y => some y | none => resetOver o a) = some x := by
      split at hx
      · exact resetOver_some hx
      · exact hx
    split at this
    · rename_i y hy; right; rw [hy]; exact this
    · left; exact resetOver_some this
  · intro x hx hle
    rw [h, hx]
    have : ¬ x < a := by omega
    simp [resetOver, this]

theorem recStep_ok {d : Disk} {k : Nat} {r r' : Rec} (h : ROk d k r) (hr : recStep d r k = some r') : ROk d (k + 1) r' := by
  unfold recStep at hr
  split at hr
  · rename_i hany
    simp only at hr
    generalize hI : (if d.ev.started k = true then add r.items k else r.items) = I at hr
    generalize hQ : (if d.ev.commit k = true then r.queue ++ [k] else r.queue) = Q at hr
    split at hr
    · cases hr
    · rename_i hc
      have hits : ∀ a, I a = true ↔ d.ev.started a = true ∧ a < k + 1 := by
        intro a
        rw [← hI]
        split
        · rename_i hs
          rw [add_true, h.items]
          constructor
          · rintro (rfl | ⟨h1, h2⟩)
            · exact ⟨hs, by omega⟩
            · exact ⟨h1, by omega⟩
          · rintro ⟨h1, h2⟩
            by_cases e : a = k
            · exact .inl e
            · exact .inr ⟨h1, by omega⟩
        · rename_i hs
          rw [h.items]
          constructor
          · rintro ⟨h1, h2⟩; exact ⟨h1, by omega⟩
          · rintro ⟨h1, h2⟩
            by_cases e : a = k
            · subst e; exact absurd h1 hs
            · exact ⟨h1, by omega⟩
      have hover : ∀ o', o' = (if d.ev.commit k || d.ev.committed k then resetOver (match d.ev.over k with | some y => some y | none => resetOver r.over k) k
          else (match d.ev.over k with | some y => some y | none => resetOver r.over k)) →
          (∀ x, o' = some x → ∃ a, a < k + 1 ∧ d.ev.over a = some x) ∧
          ∀ p x, p < k + 1 → d.ev.over p = some x → p ≤ x → (∀ a, p < a → a < k + 1 → d.ev.any a = false) → o' = some x := by
        intro o' ho
        obtain ⟨g1, g2⟩ := over_step ho
        refine ⟨fun x hx => ?_, fun p x h1 h2 h3 h4 => ?_⟩
        · rcases g1 x hx with g | g
          · obtain ⟨a, h1, h2⟩ := h.overOf x g
            exact ⟨a, by omega, h2⟩
          · exact ⟨k, by omega, g⟩
        · by_cases e : p = k
          · subst e; exact g2 x h2 h3
          · rw [h4 k (by omega) (by omega)] at hany; cases hany
      have hqmem : ∀ a, a ∈ Q ↔
          (a < k ∧ d.ev.commit a = true ∧ d.ev.committed a = false) ∨ (a = k ∧ d.ev.commit k = true) := by
        intro a
        rw [← hQ]
        split
        · rename_i hck; simp [h.queue, hck]
        · rename_i hck; simp [h.queue, hck]
      have hqs : Q.Pairwise (· < ·) := by
        rw [← hQ]
        split
        · refine List.pairwise_append.2 ⟨h.sorted, by simp, fun a ha b hb => ?_⟩
          obtain ⟨h1, _⟩ := (h.queue a).1 ha
          simp only [List.mem_singleton] at hb
          omega
        · exact h.sorted
      split at hr
      · rename_i hcd
        split at hr
        · rename_i hq
          obtain ⟨hq, hcas⟩ := hq
          injection hr with hr
          subst hr
          obtain ⟨o1, o2⟩ := hover _ rfl
          refine ⟨hits, fun a => ?_, List.Pairwise.nil, o1, o2⟩
          simp only [List.not_mem_nil, false_iff, not_and, Bool.not_eq_false]
          intro h1 h2
          by_cases e : a = k
          · rw [e]; exact hcd
          · by_contra hx
            have := (hqmem a).2 (.inl ⟨by omega, h2, by simpa using hx⟩)
            rw [hq] at this
            simp only [List.mem_singleton] at this
            exact e this
        · cases hr
      · rename_i hcd
        injection hr with hr
        subst hr
        obtain ⟨o1, o2⟩ := hover _ rfl
        refine ⟨hits, fun a => ?_, hqs, o1, o2⟩
        rw [hqmem]
        constructor
        · rintro (⟨h1, h2, h3⟩ | ⟨rfl, h2⟩)
          · exact ⟨by omega, h2, h3⟩
          · exact ⟨by omega, h2, by simpa using hcd⟩
        · rintro ⟨h1, h2, h3⟩
          by_cases e : a = k
          · subst e; exact .inr ⟨rfl, h2⟩
          · exact .inl ⟨by omega, h2, h3⟩
  · rename_i hany
    injection hr with hr
    subst hr
    obtain ⟨e1, e2, e3, e4⟩ := any_false (by simpa using hany)
    refine ⟨fun a => ?_, fun a => ?_, h.sorted, fun x hx => ?_, fun p x h1 h2 h3 h4 => ?_⟩
    · rw [h.items]
      constructor
      · rintro ⟨h1, h2⟩; exact ⟨h1, by omega⟩
      · rintro ⟨h1, h2⟩
        by_cases e : a = k
        · subst e; rw [e1] at h1; cases h1
        · exact ⟨h1, by omega⟩
    · rw [h.queue]
      constructor
      · rintro ⟨h1, h2⟩; exact ⟨by omega, h2⟩
      · rintro ⟨h1, h2⟩
        by_cases e : a = k
        · subst e; rw [e3] at h2; cases h2.1
        · exact ⟨by omega, h2⟩
    · obtain ⟨a, h1, h2⟩ := h.overOf x hx
      exact ⟨a, by omega, h2⟩
    · by_cases e : p = k
      · subst e; rw [e2] at h2; cases h2
      · exact h.over p x (by omega) h2 h3 (fun a h5 h6 => h4 a h5 (by omega))

theorem recAll_ok {d : Disk} : ∀ {k : Nat} {r : Rec}, recAll d k = some r → ROk d k r := by
  intro k
  induction k with
  | zero =>
    intro r hr
    simp only [recAll, Option.some.injEq] at hr
    subst hr
    constructor <;> simp
  | succ k ih =>
    intro r hr
    simp only [recAll] at hr
    split at hr
    · cases hr
    · rename_i r0 h0
      exact recStep_ok (ih h0) hr

/-- the events are read without an error -/
theorem recAll_some {d : Disk} {n low : Nat} {st : Nat → Prop} (h : DInv w d n low false st) (k : Nat) : ∃ r, recAll d k = some r := by
  induction k with
  | zero => exact ⟨_, rfl⟩
  | succ k ih =>
    obtain ⟨r, hr⟩ := ih
    have hk := recAll_ok hr
    simp only [recAll, hr]
    unfold recStep
    split
    · simp only
      rw [if_neg]
      · split
        · rename_i hcd
          obtain ⟨hc, hcas⟩ := h.committed k hcd
          have hq : r.queue = [] := by
            rw [List.eq_nil_iff_forall_not_mem]
            intro a ha
            obtain ⟨h1, h2, h3⟩ := (hk.queue a).1 ha
            rw [h.inOrder rfl a k hcd ((h.commit a).1 h2).1 h1] at h3
            cases h3
          rw [if_pos ⟨by rw [if_pos hc, hq]; rfl, hcas⟩]
          exact ⟨_, rfl⟩
        · exact ⟨_, rfl⟩
      · intro hc
        simp only [Bool.and_eq_true, Bool.not_eq_true'] at hc
        obtain ⟨hc, hi⟩ := hc
        have hs := ((h.commit k).1 hc).1
        rw [if_pos hs] at hi
        simp [add] at hi
    · exact ⟨_, rfl⟩

theorem any_of {d : Disk} {n low : Nat} {gap : Bool} {st : Nat → Prop} (h : DInv w d n low gap st) {a : Nat} (ha : d.ev.any a = true) :
    d.ev.started a = true ∨ ∃ m, w.s ≤ m ∧ m ≤ n ∧ w.key m = true ∧ arch w m = a := by
  simp only [Events.any, Bool.or_eq_true] at ha
  rcases ha with ((h1 | h1) | h1) | h1
  · exact .inl h1
  · obtain ⟨x, hx⟩ := Option.isSome_iff_exists.1 h1
    obtain ⟨_, m, g1, g2, g3, g4, _⟩ := h.overOf a x hx
    exact .inr ⟨m, g1, g2, g3, g4⟩
  · exact .inl ((h.commit a).1 h1).1
  · exact .inl ((h.commit a).1 (h.committed a h1).1).1

/-- ids of archives up to `n`, above the archive of the previous block -/
theorem last_arch {n m a : Nat} (hm : w.s ≤ m) (hmn : m ≤ n) (h : arch w m = a) (hlt : w.s < n → arch w (n - 1) < a) (hs : w.s < n) : m = n ∧ a = n := by
  have h1 : m = n := by
    by_contra hne
    have := arch_mono (w := w) hm (show m ≤ n - 1 by omega)
    have := hlt hs
    omega
  subst h1
  refine ⟨rfl, ?_⟩
  obtain ⟨k, rfl⟩ : ∃ k, m = k + 1 := ⟨m - 1, by omega⟩
  rcases arch_step (w := w) (n := k) (by omega) with e | e
  · have := hlt hs; simp only [Nat.add_sub_cancel] at this; omega
  · omega

theorem recover_inv {d : Disk} {n low : Nat} {gap : Bool} {st : Nat → Prop} (h : DInv w d n low gap st) (hn : n < w.top) {m : Mem}
    (hr : recover d w.top low = some m) : MInv w d n low gap m := by
  unfold recover at hr
  split at hr
  · cases hr
  · rename_i r h0
    injection hr with hr
    subst hr
    have hk := recAll_ok h0
    have hit : ∀ a, r.items a = true ↔ d.ev.started a = true := by
      intro a
      rw [hk.items]
      refine ⟨fun g => g.1, fun g => ⟨g, ?_⟩⟩
      have := started_le h g
      have := (arch_bounds (w := w) n h.ns).2.1
      omega
    constructor <;> simp only [ne_eq, not_true_eq_false, or_self, false_implies, implies_true, List.map_nil, List.nodup_nil, List.not_mem_nil, reduceCtorEq,
      Nat.le_refl, false_and, exists_false, and_false, or_false]
    · exact h.lowS
    · intro a ha
      exact h.startedOf a ((hit a).1 ha)
    · intro a ha _
      exact (hit a).2 ha
    · intro a ha
      exact (hit a).1 ha
    · refine ⟨fun hkn x hx => ?_, fun hkn hx => ?_, fun hkn hs hkp => ?_⟩
      · obtain ⟨a, _, hx⟩ := hk.overOf x hx
        obtain ⟨_, m, h1, h2, h3, h4, h5⟩ := h.overOf a x hx
        have : m ≠ n := by rintro rfl; rw [hkn] at h3; cases h3
        omega
      · obtain ⟨a, _, hx⟩ := hk.overOf n hx
        obtain ⟨_, m, h1, h2, h3, h4, h5⟩ := h.overOf a n hx
        have : n - 1 = m := by omega
        rw [this]
        exact ⟨by omega, h3⟩
      · by_cases hin : d.ev.started n = true
        · exact .inr ((hit n).2 hin)
        · left
          by_cases hl : low ≤ arch w (n - 1)
          · have hb := arch_bounds (w := w) (n - 1) (by omega)
            refine hk.over (arch w (n - 1)) n (by omega) (h.over hs hkp hkn hl) (by omega) (fun a h1 h2 => ?_)
            by_contra hany
            rcases any_of h (by simpa using hany) with g | ⟨m, g1, g2, g3, g4⟩
            · obtain ⟨_, m, g1, g2, g3⟩ := h.startedOf a g
              obtain ⟨_, rfl⟩ := last_arch g1 g2 g3 (fun _ => h1) hs
              exact hin g
            · obtain ⟨rfl, rfl⟩ := last_arch g1 g2 g4 (fun _ => h1) hs
              rw [hkn] at g3; cases g3
          · rcases h.lowS with h0 | h0
            · omega
            · obtain ⟨_, m, g1, g2, g3⟩ := h.startedOf low h0
              obtain ⟨_, e⟩ := last_arch g1 g2 g3 (fun _ => by omega) hs
              rw [e] at h0
              exact absurd h0 hin
    · intro a ha
      obtain ⟨_, h1, h2⟩ := (hk.queue a).1 ha
      exact ⟨(h.startedOf a ((h.commit a).1 h1).1).1, h1, h2⟩
    · exact hk.sorted
    · intro a h1 h2
      refine .inl ((hk.queue a).2 ⟨?_, h1, h2⟩)
      have := commit_lt h h1
      have := (arch_bounds (w := w) n h.ns).2.1
      omega

end Tycho.Archives
