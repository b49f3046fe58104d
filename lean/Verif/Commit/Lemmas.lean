import Verif.Commit.Spec
import Mathlib.Tactic.ByContra
import Mathlib.Tactic.Tauto
import Mathlib.Data.List.Nodup

namespace Tycho.Commit

theorem insertSorted_perm (x) : ∀ l, (insertSorted x l).Perm (x :: l)
  | [] => List.Perm.refl _
  | y :: ys => by
    unfold insertSorted; split
    · exact List.Perm.refl _
    · exact ((insertSorted_perm x ys).cons y).trans (List.Perm.swap x y ys)

theorem sortPairs_perm : ∀ l, (sortPairs l).Perm l
  | [] => List.Perm.refl _
  | x :: xs => (insertSorted_perm x _).trans ((sortPairs_perm xs).cons x)

def KeysNodup (m : List (Nat × Nat)) : Prop := (m.map Prod.fst).Nodup

theorem mapInsert_nodup {m} (h : KeysNodup m) (g p) : KeysNodup (mapInsert m g p) := by
  unfold KeysNodup mapInsert at *
  simp only [List.map_cons, List.nodup_cons]
  constructor
  · simp
  · exact h.sublist (List.filter_sublist.map _)

theorem mapExtend_nodup : ∀ (l) {m}, KeysNodup m → KeysNodup (mapExtend m l)
  | [], _, h => h
  | (p, g) :: rest, _, h => mapExtend_nodup rest (mapInsert_nodup h g p)

theorem mem_mapInsert_sub {m g p x} (h : x ∈ mapInsert m g p) : x ∈ m ∨ x = (g, p) := by
  simp [mapInsert] at h; tauto

theorem mem_mapExtend_sub : ∀ (l) {m x}, x ∈ mapExtend m l → x ∈ m ∨ (x.2, x.1) ∈ l
  | [], _, _, h => Or.inl h
  | (p, g) :: rest, m, x, h => by
    rcases mem_mapExtend_sub rest h with h | h
    · rcases mem_mapInsert_sub h with h | h
      · exact Or.inl h
      · subst h; right; simp
    · right; simp [h]

theorem mem_mapInsert {P : Nat × Nat → Prop} (hP : ∀ x y, P x → P y → x.1 = y.1 → x = y) {m g p}
    (hm : ∀ x ∈ m, P x) (h : P (g, p)) (x) : x ∈ mapInsert m g p ↔ x ∈ m ∨ x = (g, p) := by
  refine ⟨mem_mapInsert_sub, ?_⟩
  rintro (hx | hx)
  · simp only [mapInsert, List.mem_cons, List.mem_filter]
    by_cases e : x.1 = g
    · exact Or.inl (hP _ _ (hm x hx) h e)
    · right; simp [hx, e]
  · subst hx; simp [mapInsert]

theorem mem_mapExtend {P : Nat × Nat → Prop} (hP : ∀ x y, P x → P y → x.1 = y.1 → x = y) :
    ∀ (l) {m}, (∀ x ∈ m, P x) → (∀ y ∈ l, P (y.2, y.1)) → ∀ x, x ∈ mapExtend m l ↔ x ∈ m ∨ (x.2, x.1) ∈ l
  | [], _, _, _, x => by simp [mapExtend]
  | (p, g) :: rest, m, hm, hl, x => by
    have hgp : P (g, p) := hl (p, g) (by simp)
    have hm' : ∀ y ∈ mapInsert m g p, P y := fun y hy => by
      rcases mem_mapInsert_sub hy with h | h
      · exact hm y h
      · exact h ▸ hgp
    rw [mapExtend, mem_mapExtend hP rest hm' (fun y hy => hl y (by simp [hy])), mem_mapInsert hP hm hgp]
    obtain ⟨a, b⟩ := x
    simp only [Prod.mk.injEq, List.mem_cons]; tauto

/-- The points of one round that are added to the history, in the order they are visited. -/
def fresh (d : Dag) (r : Nat) (e : Nat × Nat) : Option Point :=
  (d.point ⟨r, e.1, e.2⟩).filter fun p => !d.committed p.id

theorem point_id {d : Dag} {id p} (h : d.point id = some p) : p.id = id ∧ d.view id = some p.body := by
  simp only [Dag.point, Option.map_eq_some_iff] at h
  obtain ⟨b, hb, rfl⟩ := h
  exact ⟨rfl, hb⟩

theorem point_of_view {d : Dag} {id b} (h : d.view id = some b) : d.point id = some ⟨id, b⟩ := by
  simp [Dag.point, h]

theorem fresh_some {d r e p} : fresh d r e = some p ↔ d.point ⟨r, e.1, e.2⟩ = some p ∧ d.committed p.id = false := by
  unfold fresh
  rw [Option.filter_eq_some_iff]; simp

theorem committablePoint_ok {d id p} (h : committablePoint d id = .ok p) : d.point id = some p := by
  unfold committablePoint at h
  split at h
  · exact absurd h (by simp)
  · rename_i q hq
    rw [hq]; split at h
    · simpa using h
    · split at h
      · simp at h
      · simpa using h
    · split at h <;> simp at h

theorem visitAll_ok {d r} : ∀ (l) {w w'}, visitAll d r l w = .ok w' →
    (∀ e ∈ l, ∃ p, d.point ⟨r, e.1, e.2⟩ = some p) ∧
    w'.out = (l.filterMap (fresh d r)).reverse ++ w.out ∧
    w'.r1 = (l.filterMap (fresh d r)).foldl (fun m p => mapExtend m p.body.includes) w.r1 ∧
    w'.r2 = (l.filterMap (fresh d r)).foldl (fun m p => mapExtend m p.body.witness) w.r2
  | [], w, w', h => by simp [visitAll] at h; subst h; simp
  | e :: rest, w, w', h => by
    simp only [visitAll] at h
    split at h
    · simp at h
    · rename_i w1 h1
      obtain ⟨a1, a2, a3, a4⟩ := visitAll_ok rest h
      unfold visit at h1
      split at h1
      · simp at h1
      · rename_i p hp
        have hp' := committablePoint_ok hp
        refine ⟨?_, ?_⟩
        · intro x hx
          rcases List.mem_cons.1 hx with rfl | hx
          · exact ⟨p, hp'⟩
          · exact a1 x hx
        · split at h1
          · rename_i hc
            simp at h1; subst h1
            have : fresh d r e = none := by
              simp [fresh, hp', hc]
            simp only [List.filterMap_cons, this]
            exact ⟨a2, a3, a4⟩
          · rename_i hc
            simp at h1; subst h1
            have : fresh d r e = some p := fresh_some.2 ⟨hp', by simpa using hc⟩
            simp only [List.filterMap_cons, this, List.reverse_cons, List.foldl_cons]
            refine ⟨by simp [a2], by simp [a3], by simp [a4]⟩

theorem foldl_nodup (f : Point → List (Nat × Nat)) : ∀ (l : List Point) {m}, KeysNodup m →
    KeysNodup (l.foldl (fun m p => mapExtend m (f p)) m)
  | [], _, h => h
  | p :: rest, _, h => foldl_nodup f rest (mapExtend_nodup (f p) h)

theorem foldl_mem_sub (f : Point → List (Nat × Nat)) : ∀ (l : List Point) {m x},
    x ∈ l.foldl (fun m p => mapExtend m (f p)) m → x ∈ m ∨ ∃ p ∈ l, (x.2, x.1) ∈ f p
  | [], _, _, h => Or.inl h
  | p :: rest, m, x, h => by
    rcases foldl_mem_sub f rest h with h | ⟨q, hq, h⟩
    · rcases mem_mapExtend_sub _ h with h | h
      · exact Or.inl h
      · exact Or.inr ⟨p, by simp, h⟩
    · exact Or.inr ⟨q, by simp [hq], h⟩

theorem foldl_mem {P : Nat × Nat → Prop} (hP : ∀ x y, P x → P y → x.1 = y.1 → x = y)
    (f : Point → List (Nat × Nat)) : ∀ (l : List Point) {m}, (∀ x ∈ m, P x) →
    (∀ p ∈ l, ∀ y ∈ f p, P (y.2, y.1)) → ∀ x,
    x ∈ l.foldl (fun m p => mapExtend m (f p)) m ↔ x ∈ m ∨ ∃ p ∈ l, (x.2, x.1) ∈ f p
  | [], _, _, _, x => by simp
  | p :: rest, m, hm, hl, x => by
    have h1 := mem_mapExtend hP (f p) hm (hl p (by simp))
    have hm' : ∀ y ∈ mapExtend m (f p), P y := fun y hy => by
      rcases (h1 y).1 hy with h | h
      · exact hm y h
      · exact hl p (by simp) _ h
    rw [List.foldl_cons, foldl_mem hP f rest hm' (fun q hq => hl q (by simp [hq])), h1]
    simp only [List.mem_cons]
    constructor
    · rintro ((h | h) | ⟨q, hq, h⟩)
      · exact Or.inl h
      · exact Or.inr ⟨p, Or.inl rfl, h⟩
      · exact Or.inr ⟨q, Or.inr hq, h⟩
    · rintro (h | ⟨q, rfl | hq, h⟩)
      · exact Or.inl (Or.inl h)
      · exact Or.inl (Or.inr h)
      · exact Or.inr ⟨q, hq, h⟩

theorem reach_round {d a p} (h : Reach d a p) : p.round ≤ a.round := by
  induction h with
  | anchor => exact Nat.le_refl _
  | link _ _ _ hl ih => rcases hl with ⟨_, h⟩ | ⟨_, h⟩ <;> omega

/-- What the walk maintains when it is about to enter round `next - 1`. -/
structure Inv (d : Dag) (a : PointId) (next : Nat) (r0 r1 : List (Nat × Nat)) (out : List Point) : Prop where
  out_sound : ∀ p ∈ out, d.point p.id = some p ∧ Reach d a p.id ∧ d.committed p.id = false ∧ next ≤ p.id.round
  out_sorted : out.Pairwise fun p q => p.id.round ≤ q.id.round
  out_nodup : (out.map Point.id).Nodup
  r0_keys : KeysNodup r0
  r1_keys : KeysNodup r1
  r0_sound : ∀ id : PointId, id.round + 1 = next → (id.digest, id.author) ∈ r0 → Reach d a id
  r1_sound : ∀ id : PointId, id.round + 2 = next → (id.digest, id.author) ∈ r1 →
    ∃ p b, Reach d a p ∧ d.view p = some b ∧ d.committed p = false ∧ LinkTo p b id

/-- The completeness half. -/
structure Complete (d : Dag) (a : PointId) (next : Nat) (r0 r1 : List (Nat × Nat)) (out : List Point) : Prop where
  out_all : ∀ p : Point, d.point p.id = some p → Reach d a p.id → d.committed p.id = false → next ≤ p.id.round → p ∈ out
  r0_all : ∀ id : PointId, id.round + 1 = next → Reach d a id → (id.digest, id.author) ∈ r0
  r1_all : ∀ (p : PointId) (b : Body) (id : PointId), id.round + 2 = next → p.round = next → Reach d a p →
    d.view p = some b → d.committed p = false → LinkTo p b id → (id.digest, id.author) ∈ r1
  viewed : ∀ id : PointId, next ≤ id.round → Reach d a id → ∃ p, d.point id = some p

section step
variable {d : Dag} {a : PointId} {r : Nat} {r0 r1 : List (Nat × Nat)} {out : List Point} {order : List (Nat × Nat)}
  {w : Walk}

theorem mem_fresh {d r order} {p : Point} (h : p ∈ List.filterMap (fresh d r) order) :
    p.id.round = r ∧ (p.id.digest, p.id.author) ∈ order ∧ d.point p.id = some p ∧ d.committed p.id = false := by
  obtain ⟨e, he, hf⟩ := List.mem_filterMap.1 h
  obtain ⟨hp, hc⟩ := fresh_some.1 hf
  have hid := (point_id hp).1
  rw [hid]
  exact ⟨rfl, he, hp, by rw [← hid]; exact hc⟩

theorem inv_step (hperm : order.Perm r0) (hv : visitAll d r order ⟨r1, [], out⟩ = .ok w)
    (I : Inv d a (r + 1) r0 r1 out) : Inv d a r w.r1 w.r2 w.out := by
  obtain ⟨h1, h2, h3, h4⟩ := visitAll_ok order hv
  simp only at h2 h3 h4
  have hfr : ∀ p ∈ order.filterMap (fresh d r), d.point p.id = some p ∧ Reach d a p.id ∧ d.committed p.id = false ∧
      p.id.round = r := fun p hp => by
    obtain ⟨x1, x2, x3, x4⟩ := mem_fresh hp
    exact ⟨x3, I.r0_sound _ (by omega) (hperm.mem_iff.1 x2), x4, x1⟩
  refine ⟨?_, ?_, ?_, ?_, ?_, ?_, ?_⟩
  · intro p hp
    rw [h2, List.mem_append, List.mem_reverse] at hp
    rcases hp with hp | hp
    · obtain ⟨y1, y2, y3, y4⟩ := hfr p hp
      exact ⟨y1, y2, y3, by omega⟩
    · obtain ⟨y1, y2, y3, y4⟩ := I.out_sound p hp
      exact ⟨y1, y2, y3, by omega⟩
  · rw [h2, List.pairwise_append]
    refine ⟨?_, I.out_sorted, ?_⟩
    · apply List.Pairwise.imp_of_mem (R := fun _ _ => True) _ (List.pairwise_of_forall (fun _ _ => trivial))
      intro p q hp hq _
      have h1 := (hfr p (List.mem_reverse.1 hp)).2.2.2
      have h2 := (hfr q (List.mem_reverse.1 hq)).2.2.2
      omega
    · intro p hp q hq
      have := (hfr p (List.mem_reverse.1 hp)).2.2.2
      have := (I.out_sound q hq).2.2.2
      omega
  · rw [h2, List.map_append, List.nodup_append]
    refine ⟨?_, I.out_nodup, ?_⟩
    · rw [List.map_reverse, List.nodup_reverse]
      have hk : KeysNodup order := (hperm.map Prod.fst).nodup_iff.2 I.r0_keys
      unfold KeysNodup at hk
      have key : ∀ l : List (Nat × Nat), (l.map Prod.fst).Nodup → ((l.filterMap (fresh d r)).map Point.id).Nodup := by
        intro l hl
        induction l with
        | nil => simp
        | cons e rest ih =>
          simp only [List.map_cons, List.nodup_cons] at hl
          have ih := ih hl.2
          cases hf : fresh d r e with
          | none => simpa [List.filterMap_cons, hf] using ih
          | some p =>
            simp only [List.filterMap_cons, hf, List.map_cons, List.nodup_cons]
            refine ⟨fun hm => ?_, ih⟩
            obtain ⟨q, hq, he⟩ := List.mem_map.1 hm
            have hq2 := (mem_fresh hq).2.1
            have hp := (point_id (fresh_some.1 hf).1).1
            rw [he, hp] at hq2
            exact hl.1 (List.mem_map.2 ⟨_, hq2, rfl⟩)
      exact key order hk
    · intro x hx y hy e
      obtain ⟨p, hp, rfl⟩ := List.mem_map.1 hx
      obtain ⟨q, hq, rfl⟩ := List.mem_map.1 hy
      have := (hfr p (List.mem_reverse.1 hp)).2.2.2
      have := (I.out_sound q hq).2.2.2
      rw [e] at *; omega
  · rw [h3]; exact foldl_nodup _ _ I.r1_keys
  · rw [h4]; exact foldl_nodup _ _ (by simp [KeysNodup])
  · intro id hid hm
    rw [h3] at hm
    rcases foldl_mem_sub (fun p : Point => p.body.includes) _ hm with hm | ⟨p, hp, hm⟩
    · obtain ⟨p, b, x1, x2, x3, x4⟩ := I.r1_sound id (by omega) hm
      exact .link x1 x2 x3 x4
    · obtain ⟨y1, y2, y3, y4⟩ := hfr p hp
      exact .link y2 (point_id y1).2 y3 (Or.inl ⟨hm, by omega⟩)
  · intro id hid hm
    rw [h4] at hm
    rcases foldl_mem_sub (fun p : Point => p.body.witness) _ hm with hm | ⟨p, hp, hm⟩
    · simp at hm
    · obtain ⟨y1, y2, y3, y4⟩ := hfr p hp
      exact ⟨_, _, y2, (point_id y1).2, y3, Or.inr ⟨hm, by omega⟩⟩

theorem complete_step (hu : DigestUnique d) (hperm : order.Perm r0) (ha : r ≤ a.round)
    (hv : visitAll d r order ⟨r1, [], out⟩ = .ok w)
    (I : Inv d a (r + 1) r0 r1 out) (C : Complete d a (r + 1) r0 r1 out) : Complete d a r w.r1 w.r2 w.out := by
  obtain ⟨h1, h2, h3, h4⟩ := visitAll_ok order hv
  simp only at h2 h3 h4
  have hfr : ∀ p ∈ order.filterMap (fresh d r), d.point p.id = some p ∧ Reach d a p.id ∧ d.committed p.id = false ∧
      p.id.round = r := fun p hp => by
    obtain ⟨x1, x2, x3, x4⟩ := mem_fresh hp
    exact ⟨x3, I.r0_sound _ (by omega) (hperm.mem_iff.1 x2), x4, x1⟩
  -- every reachable fresh point of this round is visited
  have hall : ∀ (p : PointId) (b : Body), p.round = r → Reach d a p → d.view p = some b → d.committed p = false →
      (⟨p, b⟩ : Point) ∈ order.filterMap (fresh d r) := by
    intro p b hr hp hb hc
    refine List.mem_filterMap.2 ⟨(p.digest, p.author), hperm.mem_iff.2 (C.r0_all p (by omega) hp), ?_⟩
    rw [fresh_some]
    subst hr
    exact ⟨point_of_view hb, hc⟩
  have hview : ∀ id : PointId, id.round = r → Reach d a id → ∃ p, d.point id = some p := by
    intro id hr hp
    obtain ⟨p, h⟩ := h1 _ (hperm.mem_iff.2 (C.r0_all id (by omega) hp))
    subst hr
    exact ⟨p, h⟩
  -- digests linked in one round are functional
  have hPf : ∀ n, ∀ x y : Nat × Nat,
      (∃ p b, d.view p = some b ∧ LinkTo p b ⟨n, x.1, x.2⟩) → (∃ p b, d.view p = some b ∧ LinkTo p b ⟨n, y.1, y.2⟩) →
      x.1 = y.1 → x = y := by
    rintro n x y ⟨p, b, hb, hl⟩ ⟨p', b', hb', hl'⟩ e
    have := hu _ _ _ _ _ _ hb hb' hl hl' rfl e
    simp only [PointId.mk.injEq, true_and] at this
    exact Prod.ext this.1 this.2
  refine ⟨?_, ?_, ?_, ?_⟩
  · intro p hp hr hc hn
    rw [h2, List.mem_append, List.mem_reverse]
    rcases Nat.lt_or_ge r p.id.round with h | h
    · exact Or.inr (C.out_all p hp hr hc (by omega))
    · exact Or.inl (hall p.id p.body (by omega) hr (point_id hp).2 hc)
  · intro id hid hr
    have hmem := foldl_mem (hPf id.round) (fun p : Point => p.body.includes) (order.filterMap (fresh d r)) (m := r1)
      (fun x hx => by
        obtain ⟨p, b, _, hb, _, hl⟩ := I.r1_sound ⟨id.round, x.1, x.2⟩ (by simp; omega) hx
        exact ⟨p, b, hb, hl⟩)
      (fun p hp y hy => ⟨p.id, p.body, (point_id (hfr p hp).1).2, Or.inl ⟨hy, by simp; have := (hfr p hp).2.2.2; omega⟩⟩)
      (id.digest, id.author)
    rw [h3, hmem]
    cases hr with
    | anchor => omega
    | @link p _ b hp hb hc hl =>
      have hl' := hl
      rcases hl with ⟨hm, he⟩ | ⟨hm, he⟩
      · exact Or.inr ⟨_, hall p b (by omega) hp hb hc, hm⟩
      · exact Or.inl (C.r1_all p b id (by omega) (by omega) hp hb hc hl')
  · intro p b id hid hr hp hb hc hl
    have hmem := foldl_mem (hPf id.round) (fun p : Point => p.body.witness) (order.filterMap (fresh d r)) (m := [])
      (fun x hx => by simp at hx)
      (fun p hp y hy => ⟨p.id, p.body, (point_id (hfr p hp).1).2, Or.inr ⟨hy, by simp; have := (hfr p hp).2.2.2; omega⟩⟩)
      (id.digest, id.author)
    rw [h4, hmem]
    rcases hl with ⟨hm, he⟩ | ⟨hm, he⟩
    · omega
    · exact Or.inr ⟨_, hall p b hr hp hb hc, hm⟩
  · intro id hn hr
    rcases Nat.lt_or_ge r id.round with h | h
    · exact C.viewed id (by omega) hr
    · exact hview id (by omega) hr

end step

theorem gatherLoop_inv (S : Shuffler) {d : Dag} {a : PointId} : ∀ (rs : List Nat) {next r0 r1 g out n out'},
    gatherLoop S d rs next r0 r1 g out = .ok (n, out') → Inv d a next r0 r1 out →
    (∃ r0' r1', Inv d a n r0' r1' out') ∧ n ≤ next ∧ rs = (List.range' n (next - n)).reverse
  | [], next, r0, r1, g, out, n, out', h, I => by
    simp [gatherLoop] at h
    obtain ⟨rfl, rfl⟩ := h
    exact ⟨⟨_, _, I⟩, Nat.le_refl _, by simp⟩
  | r :: rest, next, r0, r1, g, out, n, out', h, I => by
    simp only [gatherLoop] at h
    split at h
    · simp at h
    · rename_i hr
      have hr : r + 1 = next := by omega
      subst hr
      split at h
      · simp at h
      · rename_i w hw
        have hperm := (S.perm g (sortPairs r0)).trans (sortPairs_perm r0)
        obtain ⟨h1, h2, h3⟩ := gatherLoop_inv S rest h (inv_step hperm hw I)
        refine ⟨h1, by omega, ?_⟩
        rw [h3]
        have : r + 1 - n = (r - n) + 1 := by omega
        rw [this, List.range'_concat]
        simp; omega

theorem gatherLoop_complete (S : Shuffler) {d : Dag} {a : PointId} (hu : DigestUnique d) :
    ∀ (rs : List Nat) {next r0 r1 g out n out'},
    gatherLoop S d rs next r0 r1 g out = .ok (n, out') → next ≤ a.round + 1 → Inv d a next r0 r1 out →
    Complete d a next r0 r1 out → ∃ r0' r1', Complete d a n r0' r1' out'
  | [], next, r0, r1, g, out, n, out', h, _, I, C => by
    simp [gatherLoop] at h
    obtain ⟨rfl, rfl⟩ := h
    exact ⟨_, _, C⟩
  | r :: rest, next, r0, r1, g, out, n, out', h, hn, I, C => by
    simp only [gatherLoop] at h
    split at h
    · simp at h
    · rename_i hr
      have hr : r + 1 = next := by omega
      subst hr
      split at h
      · simp at h
      · rename_i w hw
        have hperm := (S.perm g (sortPairs r0)).trans (sortPairs_perm r0)
        exact gatherLoop_complete S hu rest h (by omega) (inv_step hperm hw I)
          (complete_step hu hperm (by omega) hw I C)

theorem inv_start (d : Dag) (a : PointId) : Inv d a (a.round + 1) [(a.digest, a.author)] [] [] := by
  refine ⟨by simp, by simp, by simp, by simp [KeysNodup], by simp [KeysNodup], ?_, by simp⟩
  intro id h1 h2
  have : id = a := by
    obtain ⟨x, y, z⟩ := id; obtain ⟨x', y', z'⟩ := a
    simp at *; exact ⟨by omega, h2.1, h2.2⟩
  exact this ▸ .anchor

theorem complete_start (d : Dag) (a : PointId) : Complete d a (a.round + 1) [(a.digest, a.author)] [] [] := by
  refine ⟨?_, ?_, ?_, ?_⟩
  · intro p _ h _ hn; have := reach_round h; omega
  · intro id hid h
    cases h with
    | anchor => simp
    | link hp _ _ hl =>
      have := reach_round hp
      rcases hl with ⟨_, hl⟩ | ⟨_, hl⟩ <;> omega
  · intro p b id _ hr h; have := reach_round h; omega
  · intro id hn h; have := reach_round h; omega

end Tycho.Commit
