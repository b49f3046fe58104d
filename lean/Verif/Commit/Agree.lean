import Verif.Commit.Schedule

/-!
C24: two nodes that agree on the content of points and on what is committed hand out the same history, in the same order,
whatever else their local DAGs hold and however their hash maps are iterated.
-/
namespace Tycho.Commit

theorem pairLe_total (a b) : pairLe a b = true ∨ pairLe b a = true := by
  simp only [pairLe, Bool.or_eq_true, Bool.and_eq_true, decide_eq_true_eq]; omega

theorem pairLe_trans {a b c} (h1 : pairLe a b = true) (h2 : pairLe b c = true) : pairLe a c = true := by
  simp only [pairLe, Bool.or_eq_true, Bool.and_eq_true, decide_eq_true_eq] at *; omega

theorem pairLe_antisymm {a b} (h1 : pairLe a b = true) (h2 : pairLe b a = true) : a = b := by
  simp only [pairLe, Bool.or_eq_true, Bool.and_eq_true, decide_eq_true_eq] at *
  exact Prod.ext (by omega) (by omega)

theorem insertSorted_sorted {x} : ∀ {l}, l.Pairwise (fun a b => pairLe a b = true) →
    (insertSorted x l).Pairwise (fun a b => pairLe a b = true)
  | [], _ => by simp [insertSorted]
  | y :: ys, h => by
    have h' := List.pairwise_cons.1 h
    unfold insertSorted
    split
    · rename_i hxy
      rw [List.pairwise_cons]
      refine ⟨?_, h⟩
      intro z hz
      rcases List.mem_cons.1 hz with rfl | hz
      · exact hxy
      · exact pairLe_trans hxy (h'.1 z hz)
    · rename_i hxy
      rw [List.pairwise_cons]
      refine ⟨?_, insertSorted_sorted h'.2⟩
      intro z hz
      rcases List.mem_cons.1 ((insertSorted_perm x ys).mem_iff.1 hz) with rfl | hz
      · exact (pairLe_total y z).resolve_right hxy
      · exact h'.1 z hz

theorem sortPairs_sorted : ∀ l, (sortPairs l).Pairwise (fun a b => pairLe a b = true)
  | [] => by simp [sortPairs]
  | _ :: xs => insertSorted_sorted (sortPairs_sorted xs)

theorem keysNodup_nodup {m} (h : KeysNodup m) : m.Nodup := List.Nodup.of_map _ h

theorem sortPairs_canonical {m m'} (h : KeysNodup m) (h' : KeysNodup m') (he : ∀ x, x ∈ m ↔ x ∈ m') :
    sortPairs m = sortPairs m' := by
  have hp : m.Perm m' := (List.perm_ext_iff_of_nodup (keysNodup_nodup h) (keysNodup_nodup h')).2 he
  have hp2 := ((sortPairs_perm m).trans hp).trans (sortPairs_perm m').symm
  exact List.Perm.eq_of_pairwise (fun a b _ _ h1 h2 => pairLe_antisymm h1 h2) (sortPairs_sorted _) (sortPairs_sorted _) hp2

/-- The id names the content: whenever two DAGs both hold a point, it has the same links. (The maps of links may be iterated
in any order.) -/
def SameContent (d1 d2 : Dag) : Prop :=
  ∀ id b1 b2, d1.view id = some b1 → d2.view id = some b2 →
    (∀ x, x ∈ b1.includes ↔ x ∈ b2.includes) ∧ (∀ x, x ∈ b1.witness ↔ x ∈ b2.witness)

section
variable {d1 d2 : Dag} {r : Nat}

theorem fresh_ids (hs : ∀ id : PointId, id.round = r → d1.committed id = d2.committed id) : ∀ (l : List (Nat × Nat)),
    (∀ e ∈ l, ∃ p, d1.point ⟨r, e.1, e.2⟩ = some p) → (∀ e ∈ l, ∃ p, d2.point ⟨r, e.1, e.2⟩ = some p) →
    (l.filterMap (fresh d1 r)).map Point.id = (l.filterMap (fresh d2 r)).map Point.id
  | [], _, _ => rfl
  | e :: rest, h1, h2 => by
    have ih := fresh_ids hs rest (fun x hx => h1 x (by simp [hx])) (fun x hx => h2 x (by simp [hx]))
    obtain ⟨p1, hp1⟩ := h1 e (by simp)
    obtain ⟨p2, hp2⟩ := h2 e (by simp)
    have i1 := (point_id hp1).1
    have i2 := (point_id hp2).1
    have hc := hs ⟨r, e.1, e.2⟩ rfl
    by_cases hcm : d1.committed ⟨r, e.1, e.2⟩ = true
    · have f1 : fresh d1 r e = none := by simp [fresh, hp1, i1, hcm]
      have f2 : fresh d2 r e = none := by rw [hc] at hcm; simp [fresh, hp2, i2, hcm]
      simp [List.filterMap_cons, f1, f2, ih]
    · have hcm : d1.committed ⟨r, e.1, e.2⟩ = false := by simpa using hcm
      have f1 : fresh d1 r e = some p1 := fresh_some.2 ⟨hp1, by rw [i1]; exact hcm⟩
      have f2 : fresh d2 r e = some p2 := fresh_some.2 ⟨hp2, by rw [i2, ← hc]; exact hcm⟩
      simp [List.filterMap_cons, f1, f2, ih, i1, i2]

end

/-- Links of the visited points seen through one DAG. -/
theorem fold_links (d : Dag) (hu : DigestUnique d) (r n : Nat) (f : Body → List (Nat × Nat))
    (hf : ∀ (p : Point), p.id.round = r → ∀ y ∈ f p.body, LinkTo p.id p.body ⟨n, y.2, y.1⟩)
    (l : List Point) (hl : ∀ p ∈ l, d.point p.id = some p ∧ p.id.round = r)
    {m} (hm : ∀ x ∈ m, ∃ p b, d.view p = some b ∧ LinkTo p b ⟨n, x.1, x.2⟩) (x : Nat × Nat) :
    x ∈ l.foldl (fun m p => mapExtend m (f p.body)) m ↔ x ∈ m ∨ ∃ p ∈ l, (x.2, x.1) ∈ f p.body := by
  refine foldl_mem (P := fun x => ∃ p b, d.view p = some b ∧ LinkTo p b ⟨n, x.1, x.2⟩) ?_ (fun p : Point => f p.body) l hm ?_ x
  · rintro x y ⟨p, b, hb, hl⟩ ⟨p', b', hb', hl'⟩ e
    have := hu _ _ _ _ _ _ hb hb' hl hl' rfl e
    simp only [PointId.mk.injEq, true_and] at this
    exact Prod.ext this.1 this.2
  · intro p hp y hy
    obtain ⟨h1, h2⟩ := hl p hp
    exact ⟨p.id, p.body, (point_id h1).2, hf p h2 y hy⟩

theorem links_transfer {d1 d2 : Dag} (hs : SameContent d1 d2) {l1 l2 : List Point}
    (h1 : ∀ p ∈ l1, d1.point p.id = some p) (h2 : ∀ p ∈ l2, d2.point p.id = some p)
    (he : l1.map Point.id = l2.map Point.id) (x : Nat × Nat) :
    ((∃ p ∈ l1, x ∈ p.body.includes) ↔ (∃ p ∈ l2, x ∈ p.body.includes)) ∧
    ((∃ p ∈ l1, x ∈ p.body.witness) ↔ (∃ p ∈ l2, x ∈ p.body.witness)) := by
  have tr : ∀ p ∈ l1, ∃ q ∈ l2, q.id = p.id ∧ (∀ x, x ∈ p.body.includes ↔ x ∈ q.body.includes) ∧
      (∀ x, x ∈ p.body.witness ↔ x ∈ q.body.witness) := by
    intro p hp
    have : p.id ∈ l2.map Point.id := he ▸ List.mem_map.2 ⟨p, hp, rfl⟩
    obtain ⟨q, hq, hqp⟩ := List.mem_map.1 this
    have v1 := (point_id (h1 p hp)).2
    have v2 := (point_id (h2 q hq)).2
    rw [hqp] at v2
    exact ⟨q, hq, hqp, hs _ _ _ v1 v2⟩
  have tr' : ∀ q ∈ l2, ∃ p ∈ l1, q.id = p.id ∧ (∀ x, x ∈ p.body.includes ↔ x ∈ q.body.includes) ∧
      (∀ x, x ∈ p.body.witness ↔ x ∈ q.body.witness) := by
    intro q hq
    have : q.id ∈ l1.map Point.id := he ▸ List.mem_map.2 ⟨q, hq, rfl⟩
    obtain ⟨p, hp, hqp⟩ := List.mem_map.1 this
    have v1 := (point_id (h1 p hp)).2
    have v2 := (point_id (h2 q hq)).2
    rw [← hqp] at v2
    exact ⟨p, hp, hqp.symm, hs _ _ _ v1 v2⟩
  constructor <;> constructor
  · rintro ⟨p, hp, hx⟩; obtain ⟨q, hq, _, hi, _⟩ := tr p hp; exact ⟨q, hq, (hi x).1 hx⟩
  · rintro ⟨q, hq, hx⟩; obtain ⟨p, hp, _, hi, _⟩ := tr' q hq; exact ⟨p, hp, (hi x).2 hx⟩
  · rintro ⟨p, hp, hx⟩; obtain ⟨q, hq, _, _, hi⟩ := tr p hp; exact ⟨q, hq, (hi x).1 hx⟩
  · rintro ⟨q, hq, hx⟩; obtain ⟨p, hp, _, _, hi⟩ := tr' q hq; exact ⟨p, hp, (hi x).2 hx⟩

theorem gatherLoop_agree (S : Shuffler) {d1 d2 : Dag} {a : PointId} (hs : SameContent d1 d2) (hu1 : DigestUnique d1)
    (hu2 : DigestUnique d2) : ∀ (rs : List Nat) {next r0 r1 r0' r1' g out out' n1 n2 o1 o2},
    (∀ r ∈ rs, 1 ≤ r) → (∀ id : PointId, id.round ∈ rs → d1.committed id = d2.committed id) →
    gatherLoop S d1 rs next r0 r1 g out = .ok (n1, o1) → gatherLoop S d2 rs next r0' r1' g out' = .ok (n2, o2) →
    Inv d1 a next r0 r1 out → Inv d2 a next r0' r1' out' →
    (∀ x, x ∈ r0 ↔ x ∈ r0') → (∀ x, x ∈ r1 ↔ x ∈ r1') → out.map Point.id = out'.map Point.id →
    o1.map Point.id = o2.map Point.id
  | [], next, r0, r1, r0', r1', g, out, out', n1, n2, o1, o2, _, _, h1, h2, _, _, _, _, ho => by
    simp [gatherLoop] at h1 h2
    rw [← h1.2, ← h2.2]; exact ho
  | r :: rest, next, r0, r1, r0', r1', g, out, out', n1, n2, o1, o2, hpos, hcm, h1, h2, I1, I2, e0, e1, ho => by
    simp only [gatherLoop] at h1 h2
    split at h1
    · simp at h1
    rename_i hr
    have hr : r + 1 = next := by omega
    subst hr
    rw [if_neg (by omega)] at h2
    have hsort : sortPairs r0 = sortPairs r0' := sortPairs_canonical I1.r0_keys I2.r0_keys e0
    rw [← hsort] at h2
    have hperm : ((S.shuffle g (sortPairs r0)).1).Perm r0 := (S.perm g _).trans (sortPairs_perm r0)
    have hperm' : ((S.shuffle g (sortPairs r0)).1).Perm r0' := by
      rw [hsort]; exact (S.perm g _).trans (sortPairs_perm r0')
    generalize (S.shuffle g (sortPairs r0)).1 = order at h1 h2 hperm hperm'
    generalize (S.shuffle g (sortPairs r0)).2 = g' at h1 h2
    split at h1
    · simp at h1
    rename_i w1 hw1
    split at h2
    · simp at h2
    rename_i w2 hw2
    obtain ⟨a1, a2, a3, a4⟩ := visitAll_ok order hw1
    obtain ⟨b1, b2, b3, b4⟩ := visitAll_ok order hw2
    simp only at a2 a3 a4 b2 b3 b4
    have hids := fresh_ids (fun id hid => hcm id (by simp [hid])) order a1 b1
    have m1 : ∀ p ∈ order.filterMap (fresh d1 r), d1.point p.id = some p ∧ p.id.round = r := fun p hp =>
      ⟨(mem_fresh hp).2.2.1, (mem_fresh hp).1⟩
    have m2 : ∀ p ∈ order.filterMap (fresh d2 r), d2.point p.id = some p ∧ p.id.round = r := fun p hp =>
      ⟨(mem_fresh hp).2.2.1, (mem_fresh hp).1⟩
    have J1 := inv_step hperm hw1 I1
    have J2 := inv_step hperm' hw2 I2
    have ho' : w1.out.map Point.id = w2.out.map Point.id := by
      rw [a2, b2]; simp [List.map_reverse, hids, ho]
    have tr := links_transfer hs (fun p hp => (m1 p hp).1) (fun p hp => (m2 p hp).1) hids
    by_cases hr1 : r ≤ 1
    · -- the last possible round: nothing below
      have hrest : rest = [] := by
        cases rest with
        | nil => rfl
        | cons y ys =>
          simp only [gatherLoop] at h1
          have := hpos y (by simp)
          rw [if_pos (by omega)] at h1; simp at h1
      subst hrest
      simp [gatherLoop] at h1 h2
      rw [← h1.2, ← h2.2]; exact ho'
    refine gatherLoop_agree S hs hu1 hu2 rest (fun r hr => hpos r (by simp [hr])) (fun id hid => hcm id (by simp [hid])) h1 h2 J1 J2 ?_ ?_ ho'
    · intro x
      rw [a3, b3]
      rw [fold_links d1 hu1 r (r - 1) (fun b => b.includes) (fun p hp y hy => Or.inl ⟨hy, by simp; omega⟩) _ m1
        (fun x hx => by
          obtain ⟨p, b, _, hb, _, hl⟩ := I1.r1_sound ⟨r - 1, x.1, x.2⟩ (by simp; omega) hx
          exact ⟨p, b, hb, hl⟩),
        fold_links d2 hu2 r (r - 1) (fun b => b.includes) (fun p hp y hy => Or.inl ⟨hy, by simp; omega⟩) _ m2
        (fun x hx => by
          obtain ⟨p, b, _, hb, _, hl⟩ := I2.r1_sound ⟨r - 1, x.1, x.2⟩ (by simp; omega) hx
          exact ⟨p, b, hb, hl⟩), e1, (tr _).1]
    · intro x
      rw [a4, b4]
      rw [fold_links d1 hu1 r (r - 2) (fun b => b.witness) (fun p hp y hy => Or.inr ⟨hy, by simp; omega⟩) _ m1 (by simp),
        fold_links d2 hu2 r (r - 2) (fun b => b.witness) (fun p hp y hy => Or.inr ⟨hy, by simp; omega⟩) _ m2 (by simp),
        (tr _).2]

/-- Two nodes that hold the full history of an anchor hand out the same points in the same order. -/
theorem history_agrees {S c d1 d2 fb1 fb2 anchor1 anchor2 h1 h2} (ha : anchor1.id = anchor2.id)
    (g1 : gather S c d1 fb1 anchor1 = .ok h1) (g2 : gather S c d2 fb2 anchor2 = .ok h2)
    (full1 : fb1 ≤ historyLimit c anchor1.id.round) (full2 : fb2 ≤ historyLimit c anchor2.id.round)
    (hs : SameContent d1 d2) (hu1 : DigestUnique d1) (hu2 : DigestUnique d2)
    (hcm : ∀ id : PointId, historyLimit c anchor1.id.round ≤ id.round → d1.committed id = d2.committed id) :
    h1.map Point.id = h2.map Point.id := by
  obtain ⟨n1, e1, f1⟩ := gather_eq g1
  obtain ⟨n2, e2, f2⟩ := gather_eq g2
  have f1 := f1 full1
  have f2 := f2 full2
  rw [← ha] at e2 f2
  have l1 := (gatherLoop_inv S _ e1 (inv_start d1 anchor1.id)).2.2
  have l2 := (gatherLoop_inv S _ e2 (inv_start d2 anchor1.id)).2.2
  rw [f1] at l1
  rw [f2] at l2
  rw [l1] at e1
  rw [l2] at e2
  refine gatherLoop_agree S hs hu1 hu2 _ ?_ ?_ e1 e2 (inv_start d1 anchor1.id) (inv_start d2 anchor1.id) (fun _ => Iff.rfl)
    (fun _ => Iff.rfl) rfl
  · intro r hr
    rw [List.mem_reverse, List.mem_range'_1] at hr
    have : 1 ≤ historyLimit c anchor1.id.round := by unfold historyLimit; omega
    omega
  · intro id hid
    rw [List.mem_reverse, List.mem_range'_1] at hid
    exact hcm id hid.1

end Tycho.Commit
