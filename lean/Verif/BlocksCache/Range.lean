import Verif.BlocksCache.Sent
/-! The reported range of applied master blocks, the last collated id, and the funds of the shards. -/
namespace Tycho.BlocksCache
open Tycho.Table
open Tycho.Table (get)

/-! ### The range -/

/-- The seqnos of the applied master blocks waiting to be synced to, after one more operation: an accepted master block
is appended; an own master block that was stored, and a taken out applied master block, drop everything up to them. -/
def waiting1 (c : Cache) (A : List Nat) : Op → List Nat
  | .collated b => match (c.storeCollated b).2 with
    | .ok _ false => if b.id.shard = 0 then A.filter (fun x => decide (b.id.seqno < x)) else A
    | _ => A
  | .received b => match (c.storeReceived b).2 with
    | .ok _ _ => if b.id.shard = 0 then A ++ [b.id.seqno] else A
    | _ => A
  | .pop f _ => match (c.popFront f).2 with
    | some (g, _) => A.filter (fun x => decide (g.master.id.seqno < x))
    | none => A
  | .commit i _ => match (c.extract i).2 with
    | some g => if g.master.applied then A.filter (fun x => decide (i.seqno < x)) else A
    | none => A
  | _ => A

/-- The same over a history. -/
def waitingFrom (c : Cache) (A : List Nat) : List Op → List Nat
  | [] => A
  | o :: os => waitingFrom (step c o) (waiting1 c A o) os

/-- The applied master blocks waiting after a history. -/
def waiting (z : Nat) (ops : List Op) : List Nat := waitingFrom (Cache.init z) [] ops

theorem waitingFrom_append (c : Cache) (A : List Nat) (a b : List Op) :
    waitingFrom c A (a ++ b) = waitingFrom (a.foldl step c) (waitingFrom c A a) b := by
  induction a generalizing c A with
  | nil => rfl
  | cons o a ih => simp [waitingFrom, ih]

theorem waiting_snoc (z : Nat) (ops : List Op) (o : Op) :
    waiting z (ops ++ [o]) = waiting1 (run z ops) (waiting z ops) o := by
  unfold waiting; rw [waitingFrom_append]; rfl

/-- The relation between the range and the waiting seqnos. -/
structure RangeOf (r : Option (Nat × Nat)) (A : List Nat) : Prop where
  none : r = none → A = []
  last : ∀ a b, r = some (a, b) → A.getLast? = some b
  lo : ∀ a b, r = some (a, b) → ∀ x ∈ A, a ≤ x
  inc : A.Pairwise (· < ·)

theorem rangeOf_nil : RangeOf none [] := ⟨fun _ => rfl, by simp, by simp, by simp⟩

theorem mem_le_last {A : List Nat} (h : A.Pairwise (· < ·)) {b : Nat} (hb : A.getLast? = some b) : ∀ x ∈ A, x ≤ b := by
  intro x hx
  obtain ⟨l, rfl⟩ := List.getLast?_eq_some_iff.mp hb
  rw [List.pairwise_append] at h
  rcases List.mem_append.mp hx with hx | hx
  · exact Nat.le_of_lt (h.2.2 x hx b (by simp))
  · simp at hx; omega

theorem rangeOf_cut {r : Option (Nat × Nat)} {A : List Nat} (h : RangeOf r A) (n : Nat) :
    RangeOf (startPast r n) (A.filter (fun x => decide (n < x))) := by
  have hinc : (A.filter (fun x => decide (n < x))).Pairwise (· < ·) := h.inc.sublist List.filter_sublist
  cases r with
  | none =>
    have := h.none rfl
    subst this
    exact rangeOf_nil
  | some ab =>
    obtain ⟨a, b⟩ := ab
    have hl := h.last a b rfl
    have hle := mem_le_last h.inc hl
    have hlo := h.lo a b rfl
    have hbm : b ∈ A := List.mem_of_getLast? hl
    have hlast : n < b → (A.filter (fun x => decide (n < x))).getLast? = some b := by
      intro hlt
      obtain ⟨l, rfl⟩ := List.getLast?_eq_some_iff.mp hl
      rw [List.filter_append, List.getLast?_append]
      simp [hlt]
    unfold startPast
    simp only
    split
    · split
      · refine ⟨by simp, ?_, ?_, hinc⟩
        · intro a' b' heq
          cases heq
          exact hlast (by omega)
        · intro a' b' heq x hx
          cases heq
          have := (List.mem_filter.mp hx).2
          simp at this; omega
      · rename_i hnb
        refine ⟨?_, by simp, by simp, hinc⟩
        intro _
        rw [List.filter_eq_nil_iff]
        intro x hx
        have := hle x hx
        simp; omega
    · rename_i hna
      have hall : A.filter (fun x => decide (n < x)) = A := by
        rw [List.filter_eq_self]
        intro x hx
        have := hlo x hx
        simp; omega
      rw [hall]
      exact h

theorem rangeOf_add {r : Option (Nat × Nat)} {A : List Nat} (h : RangeOf r A) (n : Nat) (hn : ∀ x ∈ A, x < n) :
    RangeOf (endAt r n) (A ++ [n]) := by
  have hinc : (A ++ [n]).Pairwise (· < ·) := by
    rw [List.pairwise_append]
    exact ⟨h.inc, by simp, by intro x hx y hy; simp at hy; subst hy; exact hn x hx⟩
  cases r with
  | none =>
    have := h.none rfl
    subst this
    refine ⟨by simp [endAt], ?_, ?_, hinc⟩
    · intro a b heq; cases heq; simp
    · intro a b heq x hx; cases heq; simp at hx; omega
  | some ab =>
    obtain ⟨a, b⟩ := ab
    refine ⟨by simp [endAt], ?_, ?_, hinc⟩
    · intro a' b' heq; cases heq; simp
    · intro a' b' heq x hx
      cases heq
      rcases List.mem_append.mp hx with hx | hx
      · exact h.lo a b rfl x hx
      · simp at hx; subst hx
        have hl := List.mem_of_getLast? (h.last a b rfl)
        have := hn b hl
        have := h.lo a b rfl b hl
        omega

theorem afterPop_range (r : Cache × Option (Subgraph × Bool)) (g : Bool) : (Cache.afterPop r g).range = r.1.range := by
  unfold Cache.afterPop
  split
  · split
    · exact (setGc_fields _ _).2.2.2.1
    · rfl
  · rfl

theorem range_step {c : Cache} (h : Inv c) (o : Op) (A : List Nat) (hr : RangeOf c.range A)
    (hs : ∀ x ∈ A, Below x (c.synced 0)) :
    RangeOf (step c o).range (waiting1 c A o) ∧ ∀ x ∈ waiting1 c A o, Below x ((step c o).synced 0) := by
  have mono : ∀ x, Below x (c.synced 0) → Below x ((step c o).synced 0) :=
    fun x hx => (synced_step h o 0 x).mpr (Or.inl hx)
  cases o with
  | collated b =>
    simp only [step, waiting1] at mono ⊢
    rcases collated_cases c b with ⟨e0, st, r, h1, h2, h3, h4⟩ | ⟨e0, cl, h1, h2, h3, h4, h5⟩ |
      ⟨e0, cl, h1, h2, h3, h4, h5⟩ | ⟨h1, h2, h3⟩
    · rw [h3] ; rw [h4] at mono ⊢
      exact ⟨hr, fun x hx => mono x (hs x hx)⟩
    · rw [h4] ; rw [h5] at mono ⊢
      exact ⟨hr, fun x hx => mono x (hs x hx)⟩
    · rw [h4] ; rw [h5] at mono ⊢
      simp only [onCollated_range, onCollated_synced] at mono ⊢
      by_cases hz : b.id.shard = 0
      · simp only [hz, if_true]
        exact ⟨rangeOf_cut hr _, fun x hx => mono x (hs x (List.mem_filter.mp hx).1)⟩
      · simp only [hz, if_false]
        exact ⟨hr, fun x hx => mono x (hs x hx)⟩
    · rw [h2] ; rw [h3] at mono ⊢
      simp only [onCollated_range, onCollated_synced] at mono ⊢
      by_cases hz : b.id.shard = 0
      · simp only [hz, if_true]
        exact ⟨rangeOf_cut hr _, fun x hx => mono x (hs x (List.mem_filter.mp hx).1)⟩
      · simp only [hz, if_false]
        exact ⟨hr, fun x hx => mono x (hs x hx)⟩
  | received b =>
    simp only [step, waiting1] at mono ⊢
    rcases received_cases h b with ⟨_, h2, h3⟩ | ⟨h1, h2, _, _, _, hrg, h5⟩
    · rw [h2]; rw [h3] at mono ⊢
      exact ⟨hr, fun x hx => mono x (hs x hx)⟩
    · have hok : ∃ rc mm, (c.storeReceived b).2 = .ok rc mm := by
        rcases h5 with ⟨_, h7, _⟩ | ⟨_, _, _, _, _, h7, _⟩ | ⟨_, _, _, _, _, h7, _⟩ <;> exact ⟨_, _, h7⟩
      obtain ⟨rc, mm, hok⟩ := hok
      rw [hok, hrg]
      simp only
      by_cases hz : b.id.shard = 0
      · simp only [hz, if_true]
        refine ⟨rangeOf_add hr _ ?_, ?_⟩
        · intro x hx
          obtain ⟨m, hm, hxm⟩ := hs x hx
          by_cases hlt : x < b.id.seqno
          · exact hlt
          · exact absurd ⟨m, by rw [hz]; exact hm, by omega⟩ h1
        · intro x hx
          rcases List.mem_append.mp hx with hx | hx
          · exact mono x (hs x hx)
          · simp at hx; subst hx
            rw [h2, hz]
            exact ⟨b.id.seqno, by simp [upd], Nat.le_refl _⟩
      · simp only [hz, if_false]
        exact ⟨hr, fun x hx => mono x (hs x hx)⟩
  | validation i v =>
    have : (c.storeValidation i v).1.range = c.range := by
      unfold Cache.storeValidation
      split
      · rfl
      · split
        · rfl
        · split
          · rfl
          · split <;> rfl
    simp only [step, waiting1] at mono ⊢
    rw [this]
    exact ⟨hr, fun x hx => mono x (hs x hx)⟩
  | pop f g =>
    simp only [step, waiting1] at mono ⊢
    rw [afterPop_range]
    rcases popFront_cases h f with ⟨hp, _⟩ | ⟨n, x, hf, hx, ha, hn, hp⟩
    · rw [hp] at mono ⊢
      exact ⟨hr, fun x hx => mono x (hs x hx)⟩
    · rw [hp] at mono ⊢
      simp only
      have hm : ((c.takeFront n x).subgraph x).2.master = x := rfl
      rw [(front_shrunk h hx ha).range, hm]
      exact ⟨rangeOf_cut hr _, fun x hx => mono x (hs x (List.mem_filter.mp hx).1)⟩
  | commit i d =>
    simp only [step, waiting1] at mono ⊢
    rcases commit_cases c i d with ⟨hn, hp⟩ | ⟨x, hx, hp⟩
    · have : (c.extract i).2 = none := by unfold Cache.extract; rw [hn]
      rw [this]
      rw [hp] at mono ⊢
      exact ⟨hr, fun x hx => mono x (hs x hx)⟩
    · have : (c.extract i).2 = some ((c.takeForSync i x).subgraph x).2 := by unfold Cache.extract; rw [hx]
      rw [this]
      rw [hp] at mono ⊢
      have hm : ((c.takeForSync i x).subgraph x).2.master = x := rfl
      have hrg : (((c.takeForSync i x).subgraph x).1.setGc x.topKeys).gc.range =
          if x.applied then startPast c.range i.seqno else c.range := by
        have h1 : (((c.takeForSync i x).subgraph x).1.setGc x.topKeys).gc.range =
          (((c.takeForSync i x).subgraph x).1.setGc x.topKeys).range := rfl
        rw [h1, (setGc_fields _ _).2.2.2.1, (sync_shrunk h i hx).range]
        rfl
      simp only [hm]
      rw [hrg]
      by_cases ha : x.applied = true
      · simp only [ha, if_true]
        exact ⟨rangeOf_cut hr _, fun x hx => mono x (hs x (List.mem_filter.mp hx).1)⟩
      · simp only [ha]
        exact ⟨hr, fun x hx => mono x (hs x hx)⟩
  | gc => exact ⟨hr, fun x hx => mono x (hs x hx)⟩
  | removeNext ks =>
    have : (c.removeNext ks).range = c.range := by
      unfold Cache.removeNext
      have : ∀ c : Cache, (ks.foldl Cache.removeNext1 c).range = c.range := by
        clear mono
        induction ks with
        | nil => intro c; rfl
        | cons k ks ih => intro c; simp only [List.foldl_cons]; rw [ih]; rfl
      exact this c
    simp only [step, waiting1] at mono ⊢
    rw [this]
    exact ⟨hr, fun x hx => mono x (hs x hx)⟩
  | takeTops n shs =>
    simp only [step, waiting1] at mono ⊢
    rw [(takeTops_fields c n shs).2.2.2.1]
    exact ⟨hr, fun x hx => mono x (hs x hx)⟩
  | resetTops => exact ⟨hr, fun x hx => mono x (hs x hx)⟩

theorem range_run (z : Nat) (ops : List Op) (hw : ∀ o ∈ ops, o.Wf) :
    RangeOf (run z ops).range (waiting z ops) ∧ ∀ x ∈ waiting z ops, Below x ((run z ops).synced 0) := by
  refine hist_ind (P := fun ops => RangeOf (run z ops).range (waiting z ops) ∧
    ∀ x ∈ waiting z ops, Below x ((run z ops).synced 0)) z ?_ ?_ ops hw
  · exact ⟨rangeOf_nil, by simp [waiting, waitingFrom]⟩
  · intro ops o _ ho hI ih
    rw [run_snoc, waiting_snoc]
    exact range_step hI o _ ih.1 ih.2

/-- The reported range: absent exactly when no applied master block waits; otherwise its end is the last waiting block
and no waiting block is below its start. -/
theorem range_bounds (z : Nat) (ops : List Op) (hw : ∀ o ∈ ops, o.Wf) :
    ((run z ops).range = none ↔ waiting z ops = []) ∧
    ∀ a b, (run z ops).range = some (a, b) → (waiting z ops).getLast? = some b ∧
      (∀ x ∈ waiting z ops, a ≤ x ∧ x ≤ b) ∧ a ≤ b ∧ (waiting z ops).Pairwise (· < ·) := by
  obtain ⟨h, _⟩ := range_run z ops hw
  refine ⟨⟨h.none, ?_⟩, ?_⟩
  · intro hA
    cases hr : (run z ops).range with
    | none => rfl
    | some ab =>
      have := h.last ab.1 ab.2 hr
      rw [hA] at this; cases this
  · intro a b hr
    have hl := h.last a b hr
    have hle := mem_le_last h.inc hl
    refine ⟨hl, fun x hx => ⟨h.lo a b hr x hx, hle x hx⟩, h.lo a b hr b (List.mem_of_getLast? hl), h.inc⟩

/-- Master blocks arrive one after another: every accepted one directly follows the last one still waiting. -/
def Consecutive (z : Nat) (ops : List Op) : Prop :=
  ∀ pre b post, ops = pre ++ .received b :: post → b.id.shard = 0 → accepts (run z pre) (.received b) = some b.id →
    ∀ x, (waiting z pre).getLast? = some x → b.id.seqno = x + 1

theorem range'_cut (a k n : Nat) (hn : a ≤ n) (hk : n < a + k) :
    (List.range' a k).filter (fun x => decide (n < x)) = List.range' (n + 1) (a + k - (n + 1)) := by
  have hsplit : List.range' a k = List.range' a (n + 1 - a) ++ List.range' (n + 1) (a + k - (n + 1)) := by
    have := List.range'_append_1 (s := a) (m := n + 1 - a) (n := a + k - (n + 1))
    rw [show a + (n + 1 - a) = n + 1 by omega] at this
    rw [this]; congr 1; omega
  rw [hsplit, List.filter_append]
  have h1 : (List.range' a (n + 1 - a)).filter (fun x => decide (n < x)) = [] := by
    rw [List.filter_eq_nil_iff]; intro x hx; rw [List.mem_range'_1] at hx; simp; omega
  have h2 : (List.range' (n + 1) (a + k - (n + 1))).filter (fun x => decide (n < x)) = List.range' (n + 1) (a + k - (n + 1)) := by
    rw [List.filter_eq_self]; intro x hx; rw [List.mem_range'_1] at hx; simp; omega
  rw [h1, h2]; simp

/-- `A` is a block of consecutive seqnos and the range is exactly it. -/
def Whole (r : Option (Nat × Nat)) (A : List Nat) : Prop := match r with
  | none => A = []
  | some (a, b) => a ≤ b ∧ A = List.range' a (b + 1 - a)

theorem whole_cut {r : Option (Nat × Nat)} {A : List Nat} (h : Whole r A) (n : Nat) :
    Whole (startPast r n) (A.filter (fun x => decide (n < x))) := by
  cases r with
  | none => simp [Whole] at h; subst h; simp [startPast, Whole]
  | some ab =>
    obtain ⟨a, b⟩ := ab
    simp only [Whole] at h
    obtain ⟨hab, rfl⟩ := h
    unfold startPast
    simp only
    split
    · split
      · rename_i hna hnb
        simp only [Whole]
        refine ⟨hnb, ?_⟩
        rw [range'_cut a (b + 1 - a) n hna (by omega)]
        congr 1; omega
      · simp only [Whole]
        rw [List.filter_eq_nil_iff]; intro x hx; rw [List.mem_range'_1] at hx; simp; omega
    · simp only [Whole]
      refine ⟨hab, ?_⟩
      rw [List.filter_eq_self]; intro x hx; rw [List.mem_range'_1] at hx; simp; omega

theorem whole_add {r : Option (Nat × Nat)} {A : List Nat} (h : Whole r A) (n : Nat)
    (hn : ∀ x, A.getLast? = some x → n = x + 1) : Whole (endAt r n) (A ++ [n]) := by
  cases r with
  | none => simp [Whole] at h; subst h; simp [endAt, Whole]
  | some ab =>
    obtain ⟨a, b⟩ := ab
    simp only [Whole] at h
    obtain ⟨hab, rfl⟩ := h
    have hl : (List.range' a (b + 1 - a)).getLast? = some b := by
      rw [show b + 1 - a = (b - a) + 1 by omega, List.range'_concat]
      simp; omega
    have := hn b hl
    subst this
    simp only [endAt, Whole]
    refine ⟨by omega, ?_⟩
    rw [show b + 1 + 1 - a = (b + 1 - a) + 1 by omega, List.range'_concat]
    congr 2
    omega

/-- When master blocks arrive one after another, the reported range is exactly the seqnos of the waiting applied master
blocks. -/
theorem range_exact (z : Nat) (ops : List Op) (hw : ∀ o ∈ ops, o.Wf) (hc : Consecutive z ops) :
    match (run z ops).range with
    | none => waiting z ops = []
    | some (a, b) => a ≤ b ∧ waiting z ops = List.range' a (b + 1 - a) := by
  suffices h : Consecutive z ops → Whole (run z ops).range (waiting z ops) from h hc
  refine hist_ind (P := fun ops => Consecutive z ops → Whole (run z ops).range (waiting z ops)) z ?_ ?_ ops hw
  · intro _; simp [waiting, waitingFrom, run, Cache.init, Whole]
  · intro ops o _ ho h ih hc
    have ih := ih (fun pre b post heq => hc pre b (post ++ [o]) (by rw [heq]; simp))
    rw [run_snoc, waiting_snoc]
    have hlast := hc ops
    generalize waiting z ops = A at ih hlast
    generalize run z ops = c at h ih hlast
    cases o with
    | collated b =>
      simp only [step, waiting1]
      rcases collated_cases c b with ⟨e0, st, r, h1, h2, h3, h4⟩ | ⟨e0, cl, h1, h2, h3, h4, h5⟩ |
        ⟨e0, cl, h1, h2, h3, h4, h5⟩ | ⟨h1, h2, h3⟩
      · rw [h3, h4]; exact ih
      · rw [h4, h5]; exact ih
      · rw [h4, h5]
        simp only [onCollated_range]
        split
        · exact whole_cut ih _
        · exact ih
      · rw [h2, h3]
        simp only [onCollated_range]
        split
        · exact whole_cut ih _
        · exact ih
    | received b =>
      simp only [step, waiting1]
      rcases received_cases h b with ⟨_, h2, h3⟩ | ⟨h1, h2, _, _, _, hrg, h5⟩
      · rw [h2, h3]; exact ih
      · have hok : ∃ rc mm, (c.storeReceived b).2 = .ok rc mm := by
          rcases h5 with ⟨_, h7, _⟩ | ⟨_, _, _, _, _, h7, _⟩ | ⟨_, _, _, _, _, h7, _⟩ <;> exact ⟨_, _, h7⟩
        obtain ⟨rc, mm, hok⟩ := hok
        have hacc : accepts c (.received b) = some b.id := by simp only [accepts]; rw [hok]
        rw [hok, hrg]
        simp only
        by_cases hz : b.id.shard = 0
        · simp only [hz, if_true]
          exact whole_add ih _ (hlast b [] rfl hz hacc)
        · simp only [hz, if_false]
          exact ih
    | validation i v =>
      have : (c.storeValidation i v).1.range = c.range := by
        unfold Cache.storeValidation
        split
        · rfl
        · split
          · rfl
          · split
            · rfl
            · split <;> rfl
      simp only [step, waiting1]
      rw [this]; exact ih
    | pop f g =>
      simp only [step, waiting1]
      rw [afterPop_range]
      rcases popFront_cases h f with ⟨hp, _⟩ | ⟨n, x, hf, hx, ha, hn, hp⟩
      · rw [hp]; exact ih
      · rw [hp]
        simp only
        have hm : ((c.takeFront n x).subgraph x).2.master = x := rfl
        rw [(front_shrunk h hx ha).range, hm]
        exact whole_cut ih _
    | commit i d =>
      simp only [step, waiting1]
      rcases commit_cases c i d with ⟨hn, hp⟩ | ⟨x, hx, hp⟩
      · have : (c.extract i).2 = none := by unfold Cache.extract; rw [hn]
        rw [this, hp]; exact ih
      · have : (c.extract i).2 = some ((c.takeForSync i x).subgraph x).2 := by unfold Cache.extract; rw [hx]
        rw [this, hp]
        have hm : ((c.takeForSync i x).subgraph x).2.master = x := rfl
        have hrg : (((c.takeForSync i x).subgraph x).1.setGc x.topKeys).gc.range =
            if x.applied then startPast c.range i.seqno else c.range := by
          have h1 : (((c.takeForSync i x).subgraph x).1.setGc x.topKeys).gc.range =
            (((c.takeForSync i x).subgraph x).1.setGc x.topKeys).range := rfl
          rw [h1, (setGc_fields _ _).2.2.2.1, (sync_shrunk h i hx).range]
          rfl
        simp only [hm]
        rw [hrg]
        by_cases ha : x.applied = true
        · simp only [ha, if_true]; exact whole_cut ih _
        · simp only [ha]; exact ih
    | gc => exact ih
    | removeNext ks =>
      have : (c.removeNext ks).range = c.range := by
        unfold Cache.removeNext
        have : ∀ c : Cache, (ks.foldl Cache.removeNext1 c).range = c.range := by
          clear hc hlast ho
          induction ks with
          | nil => intro c; rfl
          | cons k ks ih => intro c; simp only [List.foldl_cons]; rw [ih]; rfl
        exact this c
      simp only [step, waiting1]
      rw [this]; exact ih
    | takeTops n shs =>
      simp only [step, waiting1]
      rw [(takeTops_fields c n shs).2.2.2.1]; exact ih
    | resetTops => exact ih

end Tycho.BlocksCache
