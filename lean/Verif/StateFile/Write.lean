import Verif.StateFile.Model
import Mathlib.Data.List.Forall2
/-! The walk of the writer: every reachable cell once, children before parents. -/
namespace Tycho.StateFile
open Tycho.Bytes Tycho.Codec Tycho.Table

/-- `b` is in the tree of `a`. -/
inductive Reach (cell : Nat → Option (Body × List Nat)) : Nat → Nat → Prop
  | refl (a : Nat) : Reach cell a a
  | step {a h c : Nat} {b : Body} {refs : List Nat} : Reach cell a h → cell h = some (b, refs) → c ∈ refs → Reach cell a c

theorem Reach.head {cell : Nat → Option (Body × List Nat)} {a h c : Nat} {b : Body} {refs : List Nat} (h1 : cell a = some (b, refs))
    (h2 : h ∈ refs) (h3 : Reach cell h c) : Reach cell a c := by
  induction h3 with
  | refl => exact .step (.refl a) h1 h2
  | step _ h5 h6 ih => exact .step ih h5 h6

theorem Reach.trans {cell : Nat → Option (Body × List Nat)} {a h c : Nat} (h1 : Reach cell a h) (h3 : Reach cell h c) : Reach cell a c := by
  induction h3 with
  | refl => exact h1
  | step _ h5 h6 ih => exact .step ih h5 h6

/-- The tree of `root` is in the database, and it is a tree: no cell is below itself. -/
structure Dag (cell : Nat → Option (Body × List Nat)) (rank : Nat → Nat) (root : Nat) : Prop where
  here : ∀ h, Reach cell root h → (cell h).isSome
  down : ∀ h b refs c, Reach cell root h → cell h = some (b, refs) → c ∈ refs → rank c < rank h

theorem Dag.le {cell : Nat → Option (Body × List Nat)} {rank : Nat → Nat} {root : Nat} (hd : Dag cell rank root) {a b : Nat}
    (ha : Reach cell root a) (hr : Reach cell a b) : rank b ≤ rank a := by
  induction hr with
  | refl => exact Nat.le_refl _
  | step h4 h5 h6 ih => have := hd.down _ _ _ _ (ha.trans h4) h5 h6; omega

/-- The numbers of cells. -/
structure IInv (indices : Table Nat (Nat × Bool)) (ri : Nat) (remap : Table Nat Nat) (order : List Nat) : Prop where
  inj : ∀ h h' i w w', get indices h = some (i, w) → get indices h' = some (i, w') → h = h'
  le : ∀ h i w, get indices h = some (i, w) → i ≤ ri
  written : ∀ h i w, get indices h = some (i, w) → (w = true ↔ h ∈ order)
  known : ∀ h ∈ order, (get indices h).isSome
  pos : ∀ h i w, get indices h = some (i, w) → get remap i = if h ∈ order then some (order.idxOf h) else none
  keys : ∀ i, (get remap i).isSome → i ≤ ri

/-- `b` has the numbers of `a`. -/
def Ext (a b : Table Nat (Nat × Bool)) : Prop := ∀ h i w, get a h = some (i, w) → ∃ w', get b h = some (i, w')

theorem Ext.refl (a : Table Nat (Nat × Bool)) : Ext a a := fun _ _ w h => ⟨w, h⟩
theorem Ext.trans {a b c : Table Nat (Nat × Bool)} (h1 : Ext a b) (h2 : Ext b c) : Ext a c := by
  intro h i w hh
  obtain ⟨w', hw⟩ := h1 h i w hh
  exact h2 h i w' hw

/-- The number of a cell. -/
def Has (t : Table Nat (Nat × Bool)) (c i : Nat) : Prop := ∃ w, get t c = some (i, w)

theorem Has.ext {a b : Table Nat (Nat × Bool)} {c i : Nat} (h : Has a c i) (he : Ext a b) : Has b c i := by
  obtain ⟨w, hw⟩ := h
  exact he c i w hw

/-- What the loop over references keeps. -/
structure RInv (t0 : Table Nat (Nat × Bool)) (remap : Table Nat Nat) (order : List Nat) (r : Refs) (done : List Nat) : Prop where
  inv : IInv r.indices r.remapIndex remap order
  ext : Ext t0 r.indices
  ids : List.Forall₂ (Has r.indices) done r.ids
  load : ∀ p ∈ r.load, Has r.indices p.2 p.1 ∧ p.2 ∈ done
  all : ∀ c ∈ done, c ∈ order ∨ c ∈ r.load.map (·.2)
  len : r.load.length ≤ done.length
  new : ∀ p ∈ r.load, p.2 ∉ order

theorem addRef_inv {t0 : Table Nat (Nat × Bool)} {remap : Table Nat Nat} {order : List Nat} {r : Refs} {done : List Nat}
    (hi : RInv t0 remap order r done) (h : Nat) : RInv t0 remap order (addRef r h) (done ++ [h]) := by
  obtain ⟨hv, hx, hids, hload, hall, hlen, hnew⟩ := hi
  unfold addRef
  cases hg : get r.indices h with
  | none =>
    simp only []
    have hno : h ∉ order := by
      intro hm
      have := hv.known h hm
      rw [hg] at this; simp at this
    have hext : Ext r.indices (put r.indices h (r.remapIndex + 1, false)) := by
      intro h' i w hh
      refine ⟨w, ?_⟩
      rw [get_put]
      by_cases he : h' = h
      · subst he; rw [hg] at hh; simp at hh
      · rw [if_neg he]; exact hh
    refine ⟨⟨?_, ?_, ?_, ?_, ?_, ?_⟩, hx.trans hext, ?_, ?_, ?_, ?_, ?_⟩
    · intro a b i w w' ha hb
      simp only [get_put] at ha hb
      split at ha
      · next h1 =>
        split at hb
        · next h2 => rw [h1, h2]
        · injection ha with ha
          injection ha with ha1 ha2
          have := hv.le b i w' hb
          omega
      · split at hb
        · injection hb with hb
          injection hb with hb1 hb2
          have := hv.le a i w ha
          omega
        · exact hv.inj a b i w w' ha hb
    · intro a i w ha
      simp only [get_put] at ha
      split at ha
      · injection ha with ha
        injection ha with ha1 ha2
        change i ≤ r.remapIndex + 1
        omega
      · have := hv.le a i w ha
        change i ≤ r.remapIndex + 1
        omega
    · intro a i w ha
      simp only [get_put] at ha
      split at ha
      · next h1 =>
        injection ha with ha
        injection ha with ha1 ha2
        subst ha2 h1
        simp [hno]
      · exact hv.written a i w ha
    · intro a ha
      simp only [get_put]
      split
      · rfl
      · exact hv.known a ha
    · intro a i w ha
      simp only [get_put] at ha
      split at ha
      · next h1 =>
        injection ha with ha
        injection ha with ha1 ha2
        subst h1
        rw [if_neg hno, ← ha1]
        cases hr : get remap (r.remapIndex + 1) with
        | none => rfl
        | some k =>
          have := hv.keys (r.remapIndex + 1) (by rw [hr]; rfl)
          omega
      · exact hv.pos a i w ha
    · intro i hk
      have := hv.keys i hk
      change i ≤ r.remapIndex + 1
      omega
    · refine List.rel_append (hids.imp ?_) (.cons ⟨false, by rw [get_put, if_pos rfl]⟩ .nil)
      intro a b hab
      exact hab.ext hext
    · intro p hp
      rcases List.mem_append.1 hp with hp | hp
      · obtain ⟨h1, h2⟩ := hload p hp
        exact ⟨h1.ext hext, List.mem_append.2 (Or.inl h2)⟩
      · obtain rfl := List.mem_singleton.1 hp
        exact ⟨⟨false, by rw [get_put, if_pos rfl]⟩, by simp⟩
    · intro c hc
      rcases List.mem_append.1 hc with hc | hc
      · rcases hall c hc with h1 | h1
        · exact Or.inl h1
        · right; simp only [List.map_append, List.mem_append]; exact Or.inl h1
      · obtain rfl := List.mem_singleton.1 hc
        right; simp
    · simp only [List.length_append, List.length_singleton]; omega
    · intro p hp
      rcases List.mem_append.1 hp with hp | hp
      · exact hnew p hp
      · obtain rfl := List.mem_singleton.1 hp
        exact hno
  | some q =>
    obtain ⟨i, w⟩ := q
    have hw := hv.written h i w hg
    simp only []
    cases w with
    | true =>
      simp only [if_true]
      have hm : h ∈ order := hw.1 rfl
      refine ⟨hv, hx, ?_, ?_, ?_, ?_, hnew⟩
      · exact List.rel_append hids (.cons ⟨true, hg⟩ .nil)
      · intro p hp
        obtain ⟨h1, h2⟩ := hload p hp
        exact ⟨h1, List.mem_append.2 (Or.inl h2)⟩
      · intro c hc
        rcases List.mem_append.1 hc with hc | hc
        · exact hall c hc
        · obtain rfl := List.mem_singleton.1 hc
          exact Or.inl hm
      · simp only [List.length_append]; omega
    | false =>
      simp only [Bool.false_eq_true, if_false]
      have hm : h ∉ order := by intro h1; have := hw.2 h1; simp at this
      refine ⟨hv, hx, ?_, ?_, ?_, ?_, ?_⟩
      · exact List.rel_append hids (.cons ⟨false, hg⟩ .nil)
      · intro p hp
        rcases List.mem_append.1 hp with hp | hp
        · obtain ⟨h1, h2⟩ := hload p hp
          exact ⟨h1, List.mem_append.2 (Or.inl h2)⟩
        · obtain rfl := List.mem_singleton.1 hp
          exact ⟨⟨false, hg⟩, by simp⟩
      · intro c hc
        rcases List.mem_append.1 hc with hc | hc
        · rcases hall c hc with h1 | h1
          · exact Or.inl h1
          · right; simp only [List.map_append, List.mem_append]; exact Or.inl h1
        · obtain rfl := List.mem_singleton.1 hc
          right; simp
      · simp only [List.length_append, List.length_singleton]; omega
      · intro p hp
        rcases List.mem_append.1 hp with hp | hp
        · exact hnew p hp
        · obtain rfl := List.mem_singleton.1 hp
          exact hm

theorem addRefs_inv {t0 : Table Nat (Nat × Bool)} {ri : Nat} {remap : Table Nat Nat} {order : List Nat}
    (hi : IInv t0 ri remap order) (hs : List Nat) : RInv t0 remap order (addRefs t0 ri hs) hs := by
  have key : ∀ (l : List Nat) (r : Refs) (done : List Nat), RInv t0 remap order r done →
      RInv t0 remap order (l.foldl addRef r) (done ++ l) := by
    intro l
    induction l with
    | nil => intro r done h; simpa using h
    | cons c l ih =>
      intro r done h
      have := ih (addRef r c) (done ++ [c]) (addRef_inv h c)
      simpa using this
  have := key hs ⟨t0, ri, [], []⟩ [] ⟨hi, Ext.refl _, .nil, by simp, by simp, by simp, by simp⟩
  simpa [addRefs] using this

/-- The intermediate file for a list of cells. -/
def outOf (cell : Nat → Option (Body × List Nat)) (order : List Nat) : List (List Nat) :=
  order.map (fun h => match cell h with
    | some (b, refs) => cellBytes b (refs.map (fun c => order.idxOf c))
    | none => [])

/-- What the loop of the writer keeps: `order` are the cells written. -/
structure WInv (cell : Nat → Option (Body × List Nat)) (s : WSt) (order : List Nat) : Prop where
  idx : IInv s.indices s.remapIndex s.remap order
  iter : s.iteration = order.length
  nodup : order.Nodup
  closed : ∀ k h, order[k]? = some h → ∃ b refs, cell h = some (b, refs) ∧ ∀ c ∈ refs, c ∈ order.take k
  out : s.out = outOf cell order

/-- The number of references of cells. -/
def edges (cell : Nat → Option (Body × List Nat)) (l : List Nat) : Nat :=
  (l.map (fun h => ((cell h).map (·.2.length)).getD 0)).sum

theorem edges_append (cell : Nat → Option (Body × List Nat)) (a b : List Nat) : edges cell (a ++ b) = edges cell a + edges cell b := by
  simp [edges]

variable {H : Hasher}

theorem wrun_add (db : Nat → Option (List Nat)) (a b : Nat) (s : WSt) :
    wrun H db (a + b) s = (wrun H db a s).bind (wrun H db b) := by
  induction a generalizing s with
  | zero => simp [wrun]
  | succ a ih =>
    rw [Nat.succ_add, wrun, wrun]
    cases wstep H db s with
    | none => rfl
    | some s' => exact ih s'

theorem lookupAll_of {remap : Table Nat Nat} {ids ks : List Nat} (h : List.Forall₂ (fun i k => get remap i = some k) ids ks) :
    lookupAll remap ids = some ks := by
  induction h with
  | nil => rfl
  | cons h1 _ ih => rw [lookupAll, h1, ih]

/-- What the visit of a cell does. -/
structure Visited (H : Hasher) (db : Nat → Option (List Nat)) (cell : Nat → Option (Body × List Nat)) (s : WSt) (order : List Nat)
    (rest : List Item) (s' : WSt) (add : List Nat) (k : Nat) : Prop where
  run : wrun H db k s = some s'
  stack : s'.stack = rest
  inv : WInv cell s' (order ++ add)
  ext : Ext s.indices s'.indices

/-- A loaded cell is written, or is already. -/
theorem stepLoaded_inv {cell : Nat → Option (Body × List Nat)} {s : WSt} {order : List Nat} (hi : WInv cell s order) {rest : List Item}
    {idx h : Nat} {b : Body} {refs ids : List Nat} (hc : cell h = some (b, refs)) (hh : Has s.indices h idx)
    (hids : List.Forall₂ (Has s.indices) refs ids) (hall : h ∉ order → ∀ c ∈ refs, c ∈ order) :
    ∃ s', stepLoaded s rest idx h b ids = some s' ∧ s'.stack = rest ∧ WInv cell s' (if h ∈ order then order else order ++ [h]) ∧
      Ext s.indices s'.indices := by
  obtain ⟨w, hw⟩ := hh
  have hrm := hi.idx.pos h idx w hw
  unfold stepLoaded
  by_cases hm : h ∈ order
  · rw [if_pos hm] at hrm ⊢
    rw [hrm]
    exact ⟨_, rfl, rfl, ⟨hi.idx, hi.iter, hi.nodup, hi.closed, hi.out⟩, Ext.refl _⟩
  · rw [if_neg hm] at hrm ⊢
    rw [hrm]
    simp only []
    have hl : lookupAll (put s.remap idx s.iteration) ids = some (refs.map (fun c => order.idxOf c)) := by
      apply lookupAll_of
      have hall' := hall hm
      clear hc hall
      induction hids with
      | nil => exact .nil
      | @cons c i cs is h1 _ ih =>
        refine .cons ?_ (ih (fun x hx => hall' x (List.mem_cons_of_mem _ hx)))
        obtain ⟨w2, hw2⟩ := h1
        have hcm : c ∈ order := hall' c List.mem_cons_self
        have hne : i ≠ idx := by
          intro he
          subst he
          have := hi.idx.inj c h i w2 w hw2 hw
          subst this
          exact hm hcm
        rw [get_put, if_neg hne, hi.idx.pos c i w2 hw2, if_pos hcm]
    rw [hl]
    refine ⟨_, rfl, rfl, ⟨⟨?_, ?_, ?_, ?_, ?_, ?_⟩, ?_, ?_, ?_, ?_⟩, ?_⟩
    · intro a c i w1 w2 ha hcc
      simp only [markWritten, hw, get_put] at ha hcc
      split at ha
      · next h1 =>
        split at hcc
        · next h2 => rw [h1, h2]
        · injection ha with ha
          injection ha with ha1 ha2
          subst ha1 h1
          exact hi.idx.inj a c idx w w2 hw hcc
      · split at hcc
        · next h2 =>
          injection hcc with hcc
          injection hcc with hc1 hc2
          subst hc1 h2
          exact hi.idx.inj a c idx w1 w ha hw
        · exact hi.idx.inj a c i w1 w2 ha hcc
    · intro a i w1 ha
      simp only [markWritten, hw, get_put] at ha
      split at ha
      · injection ha with ha
        injection ha with ha1 ha2
        subst ha1
        exact hi.idx.le h idx w hw
      · exact hi.idx.le a i w1 ha
    · intro a i w1 ha
      simp only [markWritten, hw, get_put] at ha
      split at ha
      · next h1 =>
        injection ha with ha
        injection ha with ha1 ha2
        subst ha2 h1
        simp
      · next h1 =>
        rw [hi.idx.written a i w1 ha]
        simp [h1]
    · intro a ha
      simp only [markWritten, hw, get_put]
      split
      · rfl
      · next h1 =>
        apply hi.idx.known a
        simpa [h1] using ha
    · intro a i w1 ha
      simp only [markWritten, hw, get_put] at ha
      split at ha
      · next h1 =>
        injection ha with ha
        injection ha with ha1 ha2
        subst h1
        rw [← ha1, get_put, if_pos rfl, if_pos (by simp), hi.iter, List.idxOf_append_of_notMem hm]
        simp
      · next h1 =>
        have hne : i ≠ idx := by
          intro he
          subst he
          exact h1 (hi.idx.inj a h i w1 w ha hw)
        rw [get_put, if_neg hne, hi.idx.pos a i w1 ha]
        by_cases ham : a ∈ order
        · rw [if_pos ham, if_pos (by simp [ham]), List.idxOf_append_of_mem ham]
        · rw [if_neg ham, if_neg (by simp [ham, h1])]
    · intro i hk
      rw [get_put] at hk
      split at hk
      · next h1 => rw [h1]; exact hi.idx.le h idx w hw
      · exact hi.idx.keys i hk
    · simp [hi.iter]
    · rw [List.nodup_append]
      refine ⟨hi.nodup, by simp, ?_⟩
      intro a ha c hcc
      obtain rfl := List.mem_singleton.1 hcc
      intro he
      subst he
      exact hm ha
    · intro k a hk
      rw [List.getElem?_append] at hk
      split at hk
      · next hlt =>
        obtain ⟨b1, r1, h1, h2⟩ := hi.closed k a hk
        refine ⟨b1, r1, h1, fun c hcc => ?_⟩
        rw [List.take_append_of_le_length (Nat.le_of_lt hlt)]
        exact h2 c hcc
      · next hge =>
        have hk0 : k = order.length := by
          have : k - order.length < 1 := by
            rcases Nat.lt_or_ge (k - order.length) 1 with h5 | h5
            · exact h5
            · rw [List.getElem?_eq_none (by simpa using h5)] at hk; simp at hk
          omega
        subst hk0
        simp only [Nat.sub_self, List.getElem?_cons_zero, Option.some.injEq] at hk
        subst hk
        refine ⟨b, refs, hc, fun c hcc => ?_⟩
        rw [List.take_append_of_le_length (Nat.le_refl _), List.take_length]
        exact hall hm c hcc
    · simp only [hi.out]
      unfold outOf
      rw [List.map_append]
      congr 1
      · apply List.map_congr_left
        intro a ha
        obtain ⟨k, hk⟩ := List.getElem?_of_mem ha
        obtain ⟨b1, r1, h1, h2⟩ := hi.closed k a hk
        rw [h1]
        simp only []
        congr 1
        apply List.map_congr_left
        intro c hcc
        rw [List.idxOf_append_of_mem (List.mem_of_mem_take (h2 c hcc))]
      · simp only [List.map_cons, List.map_nil, hc]
        congr 2
        apply List.map_congr_left
        intro c hcc
        rw [List.idxOf_append_of_mem (hall hm c hcc)]
    · intro a i w1 ha
      simp only [markWritten, hw, get_put]
      split
      · next h1 =>
        subst h1
        rw [hw] at ha
        injection ha with ha
        injection ha with ha1 ha2
        exact ⟨true, by rw [ha1]⟩
      · exact ⟨w1, ha⟩

section
variable {db : Nat → Option (List Nat)} {cell : Nat → Option (Body × List Nat)} {rank : Nat → Nat} {root : Nat}

/-- The visits of several cells, one after the other. -/
theorem visitAll (n : Nat)
    (ih : ∀ h, rank h < n → Reach cell root h → ∀ (s : WSt) (order : List Nat) (rest : List Item) (idx : Nat), WInv cell s order →
      s.stack = .new idx h :: rest → Has s.indices h idx → ∃ k s' add, Visited H db cell s order rest s' add k ∧ h ∈ order ++ add ∧
        (∀ x ∈ add, Reach cell h x) ∧ k ≤ 2 + 2 * edges cell add ∧ (h ∉ order → add.getLast? = some h)) :
    ∀ (L : List (Nat × Nat)) (s : WSt) (order : List Nat) (rest : List Item), WInv cell s order →
      s.stack = L.map (fun p => Item.new p.1 p.2) ++ rest → (∀ p ∈ L, Has s.indices p.2 p.1 ∧ Reach cell root p.2 ∧ rank p.2 < n) →
      ∃ k s' add, Visited H db cell s order rest s' add k ∧ (∀ p ∈ L, p.2 ∈ order ++ add) ∧
        (∀ x ∈ add, ∃ p ∈ L, Reach cell p.2 x) ∧ k ≤ 2 * L.length + 2 * edges cell add := by
  intro L
  induction L with
  | nil =>
    intro s order rest hi hs _
    exact ⟨0, s, [], ⟨rfl, by simpa using hs, by simpa using hi, Ext.refl _⟩, by simp, by simp, by simp [edges]⟩
  | cons p L ihL =>
    intro s order rest hi hs hp
    obtain ⟨h1, h2, h3⟩ := hp p List.mem_cons_self
    obtain ⟨k1, s1, add1, hv1, hm1, ha1, hk1, _⟩ := ih p.2 h3 h2 s order (L.map (fun p => Item.new p.1 p.2) ++ rest) p.1 hi (by simpa using hs) h1
    obtain ⟨k2, s2, add2, hv2, hm2, ha2, hk2⟩ := ihL s1 (order ++ add1) rest hv1.inv hv1.stack
      (fun q hq => ⟨(hp q (List.mem_cons_of_mem _ hq)).1.ext hv1.ext, (hp q (List.mem_cons_of_mem _ hq)).2⟩)
    refine ⟨k1 + k2, s2, add1 ++ add2, ⟨?_, hv2.stack, by rw [← List.append_assoc]; exact hv2.inv, hv1.ext.trans hv2.ext⟩, ?_, ?_, ?_⟩
    · rw [wrun_add, hv1.run]; exact hv2.run
    · intro q hq
      rw [← List.append_assoc]
      rcases List.mem_cons.1 hq with hq | hq
      · subst hq; exact List.mem_append.2 (Or.inl hm1)
      · exact hm2 q hq
    · intro x hx
      rcases List.mem_append.1 hx with hx | hx
      · exact ⟨p, List.mem_cons_self, ha1 x hx⟩
      · obtain ⟨q, hq, hr⟩ := ha2 x hx
        exact ⟨q, List.mem_cons_of_mem _ hq, hr⟩
    · rw [edges_append, List.length_cons]; omega

/-- The visit of a cell writes its tree. -/
theorem visit (hd : Dag cell rank root) (hcell : ∀ h, cell h = (db h).bind (deserialize H)) :
    ∀ n h, rank h < n → Reach cell root h → ∀ (s : WSt) (order : List Nat) (rest : List Item) (idx : Nat), WInv cell s order →
      s.stack = .new idx h :: rest → Has s.indices h idx → ∃ k s' add, Visited H db cell s order rest s' add k ∧ h ∈ order ++ add ∧
        (∀ x ∈ add, Reach cell h x) ∧ k ≤ 2 + 2 * edges cell add ∧ (h ∉ order → add.getLast? = some h) := by
  intro n
  induction n with
  | zero => intro h hn; omega
  | succ n ih =>
    intro h hn hreach s order rest idx hi hs hhas
    obtain ⟨⟨b, refs⟩, hc⟩ := Option.isSome_iff_exists.1 (hd.here h hreach)
    have hr := addRefs_inv hi.idx refs
    generalize hrr : addRefs s.indices s.remapIndex refs = r at hr
    have hstep : wstep H db s = some { s with
        stack := (r.load.map (fun p => Item.new p.1 p.2)) ++ (.loaded idx h b r.ids :: rest), indices := r.indices, remapIndex := r.remapIndex } := by
      unfold wstep
      rw [hs]
      simp only [stepNew, ← hcell, hc, hrr]
    generalize hs1 : ({ s with
        stack := (r.load.map (fun p => Item.new p.1 p.2)) ++ (.loaded idx h b r.ids :: rest), indices := r.indices, remapIndex := r.remapIndex } : WSt) = s1 at hstep
    have hi1 : WInv cell s1 order := by
      subst hs1
      exact ⟨hr.inv, hi.iter, hi.nodup, hi.closed, hi.out⟩
    have hst1 : s1.stack = (r.load.map (fun p => Item.new p.1 p.2)) ++ (.loaded idx h b r.ids :: rest) := by subst hs1; rfl
    have hx1 : s1.indices = r.indices := by subst hs1; rfl
    obtain ⟨k, s2, add, hv, hm, ha, hk⟩ := visitAll (H := H) (db := db) n ih r.load s1 order (.loaded idx h b r.ids :: rest) hi1 hst1 (by
      intro p hp
      obtain ⟨h1, h2⟩ := hr.load p hp
      have := hd.down h b refs p.2 hreach hc h2
      exact ⟨by rw [hx1]; exact h1, .step hreach hc h2, by omega⟩)
    have hext2 : Ext r.indices s2.indices := by rw [← hx1]; exact hv.ext
    have hadd : ∀ x ∈ add, Reach cell h x ∧ rank x < rank h := by
      intro x hx
      obtain ⟨p, hp, hpx⟩ := ha x hx
      obtain ⟨h1, h2⟩ := hr.load p hp
      have h3 := hd.down h b refs p.2 hreach hc h2
      have h4 := hd.le (.step hreach hc h2) hpx
      exact ⟨.head hc h2 hpx, by omega⟩
    have hnot : h ∉ add := by
      intro hm2
      have := (hadd h hm2).2
      omega
    have hall : ∀ c ∈ refs, c ∈ order ++ add := by
      intro c hcc
      rcases hr.all c hcc with h1 | h1
      · exact List.mem_append.2 (Or.inl h1)
      · obtain ⟨p, hp, hpe⟩ := List.mem_map.1 h1
        rw [← hpe]
        exact hm p hp
    obtain ⟨s3, h3, hst3, hinv3, hext3⟩ := stepLoaded_inv (rest := rest) hv.inv hc ((hhas.ext hr.ext).ext hext2)
      (hr.ids.imp (fun _ _ hh => hh.ext hext2)) (fun _ => hall)
    have hrun : wrun H db (1 + k + 1) s = some s3 := by
      rw [wrun_add, wrun_add]
      simp only [wrun, hstep, Option.bind_some, hv.run]
      unfold wstep
      rw [hv.stack]
      simp only [h3, Option.bind_some]
    by_cases hm2 : h ∈ order
    · have hnil : r.load = [] := by
        cases hl : r.load with
        | nil => rfl
        | cons p l =>
          exfalso
          obtain ⟨h1, h2⟩ := hr.load p (by rw [hl]; exact List.mem_cons_self)
          apply hr.new p (by rw [hl]; exact List.mem_cons_self)
          obtain ⟨j, hj⟩ := List.getElem?_of_mem hm2
          obtain ⟨b', refs', h5, h6⟩ := hi.closed j h hj
          rw [hc] at h5
          injection h5 with h5
          injection h5 with h5 h7
          subst h7
          exact List.mem_of_mem_take (h6 p.2 h2)
      have hm3 : h ∈ order ++ add := List.mem_append.2 (Or.inl hm2)
      rw [if_pos hm3] at hinv3
      refine ⟨1 + k + 1, s3, add, ⟨hrun, hst3, hinv3, (hr.ext.trans hext2).trans hext3⟩, hm3, fun x hx => (hadd x hx).1, ?_, fun h => absurd hm2 h⟩
      rw [hnil] at hk
      simp only [List.length_nil] at hk
      omega
    · have hm3 : h ∉ order ++ add := by
        intro hh
        rcases List.mem_append.1 hh with h1 | h1
        · exact hm2 h1
        · exact hnot h1
      rw [if_neg hm3] at hinv3
      refine ⟨1 + k + 1, s3, add ++ [h], ⟨hrun, hst3, by rw [← List.append_assoc]; exact hinv3, (hr.ext.trans hext2).trans hext3⟩, by simp, ?_, ?_, fun _ => by simp⟩
      · intro x hx
        rcases List.mem_append.1 hx with hx | hx
        · exact (hadd x hx).1
        · obtain rfl := List.mem_singleton.1 hx
          exact .refl _
      · rw [edges_append]
        have h5 : edges cell [h] = refs.length := by simp [edges, hc]
        have h6 := hr.len
        omega

theorem winv_start (cell : Nat → Option (Body × List Nat)) (root : Nat) : WInv cell (wstart root) [] := by
  have hg : ∀ h i w, get (wstart root).indices h = some (i, w) → h = root ∧ i = 0 ∧ w = false := by
    intro h i w hh
    simp only [wstart, Table.get] at hh
    split at hh
    · next h1 =>
      injection hh with hh
      injection hh with h2 h3
      exact ⟨h1.symm, h2.symm, h3.symm⟩
    · simp at hh
  refine ⟨⟨?_, ?_, ?_, by simp, ?_, ?_⟩, rfl, by simp, by simp, rfl⟩
  · intro h h' i w w' h1 h2
    rw [(hg _ _ _ h1).1, (hg _ _ _ h2).1]
  · intro h i w h1
    rw [(hg _ _ _ h1).2.1]; exact Nat.zero_le _
  · intro h i w h1
    rw [(hg _ _ _ h1).2.2]; simp
  · intro h i w _; simp [wstart, Table.get]
  · intro i hi; simp [wstart, Table.get] at hi

/-- The walk ends: the cells in the order in which they were written. -/
theorem walk_end (hd : Dag cell rank root) (hcell : ∀ h, cell h = (db h).bind (deserialize H)) :
    ∃ k s order, wrun H db k (wstart root) = some s ∧ s.stack = [] ∧ s.out = outOf cell order ∧ order.Nodup ∧
      (∀ h, h ∈ order ↔ Reach cell root h) ∧ order.getLast? = some root ∧
      (∀ j h, order[j]? = some h → ∃ b refs, cell h = some (b, refs) ∧ ∀ c ∈ refs, c ∈ order.take j) ∧
      k ≤ 2 + 2 * edges cell order := by
  obtain ⟨k, s, order, hv, hm, ha, hk, hl⟩ := visit (H := H) hd hcell (rank root + 1) root (by omega) (.refl root) (wstart root) [] [] 0
    (winv_start cell root) rfl ⟨false, by simp [wstart, Table.get]⟩
  simp only [List.nil_append] at hv hm
  have hinv := hv.inv
  simp only [List.nil_append] at hinv
  refine ⟨k, s, order, hv.run, hv.stack, hinv.out, hinv.nodup, fun h => ⟨ha h, fun hr => ?_⟩, hl (by simp), hinv.closed, hk⟩
  induction hr with
  | refl => exact hm
  | step h4 h5 h6 ih =>
    obtain ⟨j, hj⟩ := List.getElem?_of_mem ih
    obtain ⟨b', refs', h7, h8⟩ := hinv.closed j _ hj
    rw [h5] at h7
    injection h7 with h7
    injection h7 with h7 h9
    subst h9
    exact List.mem_of_mem_take (h8 _ h6)

theorem wrun_done (k : Nat) (s : WSt) (h : s.stack = []) : wrun H db k s = some s := by
  induction k with
  | zero => rfl
  | succ k ih =>
    rw [wrun]
    have : wstep H db s = some s := by unfold wstep; rw [h]
    rw [this]; exact ih

end

end Tycho.StateFile
