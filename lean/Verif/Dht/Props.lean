import Verif.Dht.Distance
import Mathlib.Data.List.Nodup

/-! C18: the DHT routing table. -/
namespace Tycho.Dht

open Tycho.Bytes Tycho.Codec

/-! ### Specification -/

/-- The peers of a table. -/
def Stored (t : Table) (p : List Nat) : Prop := ∃ i, p ∈ t.buckets i

/-- How many peers a table holds. -/
def size (t : Table) : Nat := ((List.range (maxXor + 1)).map fun i => (t.buckets i).length).sum

/-- Operations whose peers have well formed ids. -/
def WfOps (ops : List Op) : Prop := ∀ id e a, Op.add id e a ∈ ops → IsId id

/-- The table of a run. -/
structure Inv (maxK : Nat) (me : List Nat) (t : Table) : Prop where
  loc : t.localId = me
  ids : ∀ i p, p ∈ t.buckets i → IsId p
  place : ∀ i p, p ∈ t.buckets i → xorDistance me p = i
  nonzero : t.buckets 0 = []
  nodup : ∀ i, (t.buckets i).Nodup
  cap : ∀ i, (t.buckets i).length ≤ maxK

/-! ### The invariant -/

theorem mem_bucketInsert {nodes : List (List Nat)} {id : List Nat} {k : Nat} {e a : Bool} {p : List Nat}
    (h : p ∈ (bucketInsert nodes id k e a).1) : p ∈ nodes ∨ p = id := by
  unfold bucketInsert at h
  split at h
  · split at h
    · rcases List.mem_append.1 h with h | h
      · exact .inl (List.mem_of_mem_erase h)
      · exact .inr (by simpa using h)
    · exact .inl h
  · split at h
    · split at h
      · rcases List.mem_append.1 h with h | h
        · exact .inl (List.mem_of_mem_drop h)
        · exact .inr (by simpa using h)
      · exact .inl h
    · split at h
      · rcases List.mem_append.1 h with h | h
        · exact .inl h
        · exact .inr (by simpa using h)
      · exact .inl h

theorem nodup_bucketInsert {nodes : List (List Nat)} (id : List Nat) (k : Nat) (e a : Bool) (h : nodes.Nodup) :
    (bucketInsert nodes id k e a).1.Nodup := by
  have snoc : ∀ l : List (List Nat), l.Nodup → id ∉ l → (l ++ [id]).Nodup := by
    intro l hl hn
    rw [List.nodup_append]
    refine ⟨hl, by simp, ?_⟩
    intro x hx y hy
    rw [List.mem_singleton] at hy
    rintro rfl
    exact hn (hy ▸ hx)
  unfold bucketInsert
  split
  · split
    · exact snoc _ (h.erase _) (by intro hm; exact (List.Nodup.mem_erase_iff h).1 hm |>.1 rfl)
    · exact h
  · rename_i hn
    split
    · split
      · exact snoc _ (h.sublist (List.drop_sublist _ _)) (fun hm => hn (List.mem_of_mem_drop hm))
      · exact h
    · split
      · exact snoc _ h hn
      · exact h

theorem length_bucketInsert {nodes : List (List Nat)} (id : List Nat) (k : Nat) (e a : Bool) (h : nodes.length ≤ k) :
    (bucketInsert nodes id k e a).1.length ≤ k := by
  unfold bucketInsert
  split
  · rename_i hm
    split
    · have := List.length_pos_of_mem hm
      simp only [List.length_append, List.length_erase_of_mem hm, List.length_singleton]
      omega
    · exact h
  · split
    · split
      · rename_i hc
        have := List.length_pos_of_ne_nil hc.1
        simp only [List.length_append, List.length_drop, List.length_singleton]
        omega
      · exact h
    · split
      · simp only [List.length_append, List.length_singleton]
        omega
      · exact h

theorem inv_new (maxK : Nat) (me : List Nat) : Inv maxK me (Table.new me) :=
  ⟨rfl, by simp [Table.new], by simp [Table.new], rfl, by simp [Table.new], by simp [Table.new]⟩

theorem inv_add {maxK : Nat} {me : List Nat} {t : Table} (h : Inv maxK me t) {id : List Nat} (hid : IsId id) (e a : Bool) :
    Inv maxK me (t.add id maxK e a).1 := by
  unfold Table.add
  split
  · exact h
  · rename_i hd
    rw [h.loc] at hd
    have key : ∀ i p, p ∈ (if i = xorDistance t.localId id then
        (bucketInsert (t.buckets (xorDistance t.localId id)) id maxK e a).1 else t.buckets i) →
        p ∈ t.buckets i ∨ (p = id ∧ i = xorDistance me id) := by
      intro i p hp
      split at hp
      · rename_i hi
        rcases mem_bucketInsert hp with hp | hp
        · exact .inl (hi ▸ hp)
        · exact .inr ⟨hp, h.loc ▸ hi⟩
      · exact .inl hp
    refine ⟨h.loc, ?_, ?_, ?_, ?_, ?_⟩
    · intro i p hp
      rcases key i p hp with hp | ⟨rfl, _⟩
      · exact h.ids i p hp
      · exact hid
    · intro i p hp
      rcases key i p hp with hp | ⟨rfl, rfl⟩
      · exact h.place i p hp
      · rfl
    · show (if 0 = xorDistance t.localId id then _ else _) = _
      rw [if_neg (by rw [h.loc]; omega)]
      exact h.nonzero
    · intro i
      show List.Nodup (if i = xorDistance t.localId id then _ else _)
      split
      · exact nodup_bucketInsert _ _ _ _ (h.nodup _)
      · exact h.nodup _
    · intro i
      show List.length (if i = xorDistance t.localId id then _ else _) ≤ maxK
      split
      · exact length_bucketInsert _ _ _ _ (h.cap _)
      · exact h.cap _

theorem inv_retain {maxK : Nat} {me : List Nat} {t : Table} (h : Inv maxK me t) (keep : List Nat → Bool) :
    Inv maxK me (t.retain keep) := by
  refine ⟨h.loc, ?_, ?_, ?_, ?_, ?_⟩
  · exact fun i p hp => h.ids i p (List.mem_of_mem_filter hp)
  · exact fun i p hp => h.place i p (List.mem_of_mem_filter hp)
  · simp [Table.retain, h.nonzero]
  · exact fun i => (h.nodup i).filter _
  · exact fun i => Nat.le_trans (List.length_filter_le _ _) (h.cap i)

theorem inv_run {maxK : Nat} {me : List Nat} (ops : List Op) : ∀ {t : Table}, Inv maxK me t → WfOps ops → Inv maxK me (run maxK t ops) := by
  induction ops with
  | nil => intro t h _; exact h
  | cons op ops ih =>
    intro t h hw
    refine ih ?_ (fun id e a hm => hw id e a (List.mem_cons_of_mem _ hm))
    cases op with
    | add id e a => exact inv_add h (hw id e a (by simp)) e a
    | retain keep => exact inv_retain h keep

/-! ### The claims -/

/-- C18: the local peer is never stored. -/
theorem local_never_stored {maxK : Nat} {me : List Nat} {ops : List Op} (hme : IsId me) (hw : WfOps ops) :
    ¬ Stored (run maxK (Table.new me) ops) me := by
  rintro ⟨i, hi⟩
  have h := inv_run ops (inv_new maxK me) hw
  have hp := h.place i me hi
  have h0 : xorDistance me me = 0 := (xorDistance_zero hme hme).2 rfl
  obtain rfl : i = 0 := by omega
  rw [h.nonzero] at hi
  simp at hi

/-- C18: a peer is stored in one bucket only, and once: the list of all stored peers has no repetition. -/
theorem stored_once {maxK : Nat} {me : List Nat} {ops : List Op} (hw : WfOps ops) (l : List Nat) (hl : l.Nodup) :
    (l.flatMap (run maxK (Table.new me) ops).buckets).Nodup := by
  have h := inv_run ops (inv_new maxK me) hw
  rw [List.nodup_flatMap]
  refine ⟨fun i _ => h.nodup i, ?_⟩
  refine hl.imp ?_
  intro a b hab p ha hb
  exact hab ((h.place a p ha).symm.trans (h.place b p hb))

/-- C18: a bucket holds at most `k` peers, all at the bucket's distance from the local peer. -/
theorem bucket_bound {maxK : Nat} {me : List Nat} {ops : List Op} (hw : WfOps ops) (i : Nat) :
    ((run maxK (Table.new me) ops).buckets i).length ≤ maxK ∧
    ∀ p ∈ (run maxK (Table.new me) ops).buckets i, xorDistance me p = i := by
  have h := inv_run ops (inv_new maxK me) hw
  exact ⟨h.cap i, h.place i⟩

/-- C18: `contains` is true of the stored peers exactly. -/
theorem contains_iff {maxK : Nat} {me : List Nat} {ops : List Op} (hw : WfOps ops) (p : List Nat) :
    (run maxK (Table.new me) ops).contains p = true ↔ Stored (run maxK (Table.new me) ops) p := by
  have h := inv_run ops (inv_new maxK me) hw
  unfold Table.contains
  rw [h.loc, List.any_eq_true]
  constructor
  · rintro ⟨x, hx, he⟩
    obtain rfl := of_decide_eq_true he
    exact ⟨_, hx⟩
  · rintro ⟨i, hi⟩
    rw [h.place i p hi]
    exact ⟨p, hi, by simp⟩

/-- C18: `add` answers true exactly when the data is accepted and the peer is another one that is stored already, or has
room, or replaces an expired oldest node of its full bucket. -/
theorem add_answer {maxK : Nat} {me : List Nat} {ops : List Op} (hme : IsId me) (hw : WfOps ops) {id : List Nat} (hid : IsId id)
    (e a : Bool) :
    ((run maxK (Table.new me) ops).add id maxK e a).2 = true ↔
      id ≠ me ∧ a = true ∧
      (Stored (run maxK (Table.new me) ops) id ∨
       ((run maxK (Table.new me) ops).buckets (xorDistance me id)).length < maxK ∨
       (0 < maxK ∧ e = true)) := by
  have h := inv_run ops (inv_new maxK me) hw
  generalize run maxK (Table.new me) ops = t at h
  have hz := xorDistance_zero hme hid
  have hst : Stored t id ↔ id ∈ t.buckets (xorDistance me id) :=
    ⟨fun ⟨i, hi⟩ => by rw [h.place i id hi]; exact hi, fun hi => ⟨_, hi⟩⟩
  unfold Table.add
  rw [h.loc, hst]
  have hcap := h.cap (xorDistance me id)
  split
  · rename_i hd
    have := hz.1 hd
    simp [this]
  · rename_i hd
    have hne : id ≠ me := fun he => hd (hz.2 he.symm)
    simp only [bucketInsert]
    split
    · rename_i hm
      cases a <;> simp [hne, hm]
    · rename_i hm
      split
      · rename_i hk
        have hlen : (t.buckets (xorDistance me id)).length = maxK := by omega
        have hnil : t.buckets (xorDistance me id) ≠ [] ↔ 0 < maxK := by
          rw [← hlen, List.length_pos_iff]
        rw [if_congr (and_congr_left fun _ => hnil) rfl rfl]
        split
        · rename_i hc; simp [hne, hm, hc]
        · rename_i hc
          simp only [Bool.false_eq_true, false_iff]
          rintro ⟨_, ha, h1 | h1 | h1⟩
          · exact hm h1
          · omega
          · exact hc ⟨h1.1, h1.2, ha⟩
      · rename_i hk
        cases a
        · simp
        · simp [hne]; right; left; omega

/-- C18: after `add` answered true the peer is stored; every other peer is kept, but the oldest of its full bucket. -/
theorem add_effect {maxK : Nat} {me : List Nat} {ops : List Op} (hw : WfOps ops) {id : List Nat} (e a : Bool)
    (hok : ((run maxK (Table.new me) ops).add id maxK e a).2 = true) :
    Stored ((run maxK (Table.new me) ops).add id maxK e a).1 id ∧
    (∀ p, Stored ((run maxK (Table.new me) ops).add id maxK e a).1 p → Stored (run maxK (Table.new me) ops) p ∨ p = id) ∧
    ∀ p, Stored (run maxK (Table.new me) ops) p →
      Stored ((run maxK (Table.new me) ops).add id maxK e a).1 p ∨
      (((run maxK (Table.new me) ops).buckets (xorDistance me id)).head? = some p ∧ e = true ∧
        ((run maxK (Table.new me) ops).buckets (xorDistance me id)).length = maxK) := by
  have h := inv_run ops (inv_new maxK me) hw
  generalize run maxK (Table.new me) ops = t at h hok
  unfold Table.add at hok ⊢
  rw [h.loc] at hok ⊢
  have hcap := h.cap (xorDistance me id)
  by_cases hd : xorDistance me id = 0
  · rw [if_pos hd] at hok; simp at hok
  · rw [if_neg hd] at hok ⊢
    simp only at hok ⊢
    have hin : id ∈ (bucketInsert (t.buckets (xorDistance me id)) id maxK e a).1 := by
      revert hok
      unfold bucketInsert
      repeat' split
      all_goals simp
    refine ⟨⟨xorDistance me id, by simpa using hin⟩, ?_, ?_⟩
    · rintro p ⟨i, hi⟩
      simp only at hi
      split at hi
      · rename_i he
        rcases mem_bucketInsert hi with h1 | h1
        · exact .inl ⟨_, h1⟩
        · exact .inr h1
      · exact .inl ⟨i, hi⟩
    · rintro p ⟨i, hi⟩
      by_cases hpid : p = id
      · subst hpid
        exact .inl ⟨xorDistance me p, by simpa using hin⟩
      by_cases hie : i = xorDistance me id
      · subst hie
        have keep : ∀ l : List (List Nat), p ∈ l → p ∈ (bucketInsert (t.buckets (xorDistance me id)) id maxK e a).1 →
            Stored ⟨me, fun i => if i = xorDistance me id then
              (bucketInsert (t.buckets (xorDistance me id)) id maxK e a).1 else t.buckets i⟩ p :=
          fun _ _ hx => ⟨xorDistance me id, by simpa using hx⟩
        by_cases hc : p ∈ (bucketInsert (t.buckets (xorDistance me id)) id maxK e a).1
        · exact .inl (keep _ hi hc)
        · right
          revert hc hok
          unfold bucketInsert
          split
          · split
            · intro _ hc
              exact absurd (List.mem_append_left _ ((List.mem_erase_of_ne hpid).2 hi)) hc
            · intro h1; simp at h1
          · split
            · split
              · rename_i hk hcnd
                intro _ hc
                refine ⟨?_, hcnd.2.1, by omega⟩
                cases hb : t.buckets (xorDistance me id) with
                | nil => rw [hb] at hi; simp at hi
                | cons x xs =>
                  rw [hb] at hi hc
                  rcases List.mem_cons.1 hi with rfl | hx
                  · rfl
                  · exact absurd (by simp [hx]) hc
              · intro h1; simp at h1
            · split
              · intro _ hc
                exact absurd (List.mem_append_left _ hi) hc
              · intro h1; simp at h1
      · exact .inl ⟨i, by simp [hie, hi]⟩

/-- C18: after `add` answered false the table is the same. -/
theorem add_refused {maxK : Nat} {t : Table} {id : List Nat} {e a : Bool} (hno : (t.add id maxK e a).2 = false) (i : Nat) :
    (t.add id maxK e a).1.buckets i = t.buckets i := by
  unfold Table.add at hno ⊢
  split
  · rfl
  · rename_i hd
    rw [if_neg hd] at hno
    simp only at hno ⊢
    split
    · rename_i hi
      subst hi
      revert hno
      unfold bucketInsert
      repeat' split
      all_goals simp
    · rfl

/-! ### Lookups -/

theorem collect_eq (t : Table) (count : Nat) (is : List Nat) : ∀ res : List (List Nat), res.length ≤ count →
    collect t count is res = (res ++ is.flatMap t.buckets).take count := by
  induction is with
  | nil => intro res h; simp [collect, List.take_of_length_le h]
  | cons i is ih =>
    intro res h
    unfold collect
    split
    · rename_i h0
      have : res.length = count := by omega
      rw [← this, List.take_left]
    · rw [ih _ (by simp; omega), List.flatMap_cons, ← List.append_assoc]
      by_cases hb : (t.buckets i).length ≤ count - res.length
      · rw [List.take_of_length_le hb]
      · have e1 : (res ++ (t.buckets i).take (count - res.length)).length = count := by simp; omega
        rw [List.take_append_of_le_length (by omega), List.take_of_length_le (by omega)]
        rw [List.take_append_of_le_length (by simp; omega), List.take_append, List.take_of_length_le h]

theorem closest_eq (t : Table) (key : List Nat) (count : Nat) :
    t.closest key count = ((visitOrder (xorDistance t.localId key)).flatMap t.buckets).take count := by
  unfold Table.closest
  split
  · rename_i h; simp [h]
  · rw [collect_eq _ _ _ _ (by simp)]; simp

theorem visitOrder_perm {d : Nat} (h : d ≤ maxXor) : (visitOrder d).Perm (List.range (maxXor + 1)) := by
  unfold visitOrder
  have e : List.range (maxXor + 1) = List.range d ++ List.range' d (maxXor + 1 - d) := by
    rw [List.range_eq_range', List.range_eq_range']
    have := List.range'_append (s := 0) (m := d) (n := maxXor + 1 - d) (step := 1)
    simp at this
    rw [this]
    congr 1
    omega
  rw [e]
  exact (List.Perm.append_left _ (List.reverse_perm _)).trans List.perm_append_comm

theorem length_flatMap_perm {l₁ l₂ : List Nat} (h : l₁.Perm l₂) (f : Nat → List (List Nat)) :
    (l₁.flatMap f).length = (l₂.flatMap f).length := (List.Perm.flatMap_right f h).length_eq

/-- C18: a lookup returns `min(count, stored)` peers. -/
theorem closest_length {maxK : Nat} {me : List Nat} {ops : List Op} (hme : IsId me) (hw : WfOps ops) {key : List Nat}
    (hk : IsId key) (count : Nat) :
    ((run maxK (Table.new me) ops).closest key count).length = min count (size (run maxK (Table.new me) ops)) := by
  have h := inv_run ops (inv_new maxK me) hw
  rw [closest_eq, List.length_take, length_flatMap_perm (visitOrder_perm (by rw [h.loc]; exact xorDistance_le hme hk))]
  rw [List.length_flatMap]
  rfl

/-- C18: the peers of a lookup are different stored peers. -/
theorem closest_sound {maxK : Nat} {me : List Nat} {ops : List Op} (hw : WfOps ops) (key : List Nat) (count : Nat) :
    ((run maxK (Table.new me) ops).closest key count).Nodup ∧
    ∀ p ∈ (run maxK (Table.new me) ops).closest key count, Stored (run maxK (Table.new me) ops) p := by
  rw [closest_eq]
  constructor
  · refine List.Nodup.sublist (List.take_sublist _ _) (stored_once hw _ ?_)
    unfold visitOrder
    rw [List.nodup_append]
    refine ⟨List.nodup_range', List.nodup_reverse.2 List.nodup_range, ?_⟩
    intro a ha b hb
    rw [List.mem_range'_1] at ha
    rw [List.mem_reverse, List.mem_range] at hb
    omega
  · intro p hp
    obtain ⟨i, _, hi⟩ := List.mem_flatMap.1 (List.mem_of_mem_take hp)
    exact ⟨i, hi⟩

/-- The order the code answers in: `x` may come before `y`. With `d` the distance from the local peer to the key: first the
peers nearer to the key than `d`; then those farther than `d`, the nearest first; last those at distance `d`. -/
def Before (me key x y : List Nat) : Prop :=
  xorDistance x key < xorDistance me key ∨
  (xorDistance me key < xorDistance x key ∧
    (xorDistance x key ≤ xorDistance y key ∨ xorDistance y key = xorDistance me key)) ∧
    ¬ xorDistance y key < xorDistance me key ∨
  (xorDistance x key = xorDistance me key ∧ xorDistance y key = xorDistance me key)

/-- Where a peer of bucket `i` lies from the key. -/
theorem dist_of_bucket {me key x : List Nat} (hme : IsId me) (hk : IsId key) (hx : IsId x) (h0 : xorDistance me x ≠ 0) :
    (xorDistance me x = xorDistance me key → xorDistance x key < xorDistance me key) ∧
    (xorDistance me key < xorDistance me x → xorDistance x key = xorDistance me x) ∧
    (xorDistance me x < xorDistance me key → xorDistance x key = xorDistance me key) := by
  refine ⟨fun h => ?_, fun h => ?_, fun h => ?_⟩
  · have := xorDistance_of_eq hme hx hk h h0
    omega
  · have := xorDistance_of_ne hme hx hk (by omega)
    omega
  · have := xorDistance_of_ne hme hx hk (by omega)
    omega

/-- C18: the peers of a lookup come in that order, and every stored peer that is not returned may come after every returned one. -/
theorem closest_order {maxK : Nat} {me : List Nat} {ops : List Op} (hme : IsId me) (hw : WfOps ops) {key : List Nat}
    (hk : IsId key) (count : Nat) :
    ((run maxK (Table.new me) ops).closest key count).Pairwise (Before me key) ∧
    ∀ x y, x ∈ (run maxK (Table.new me) ops).closest key count → Stored (run maxK (Table.new me) ops) y →
      y ∉ (run maxK (Table.new me) ops).closest key count → Before me key x y := by
  have h := inv_run ops (inv_new maxK me) hw
  generalize run maxK (Table.new me) ops = t at h
  have hdist : ∀ i p, p ∈ t.buckets i → i ≠ 0 ∧
      (i = xorDistance me key → xorDistance p key < xorDistance me key) ∧
      (xorDistance me key < i → xorDistance p key = i) ∧
      (i < xorDistance me key → xorDistance p key = xorDistance me key) := by
    intro i p hp
    have h0 : i ≠ 0 := by rintro rfl; rw [h.nonzero] at hp; simp at hp
    have hpl := h.place i p hp
    have := dist_of_bucket hme hk (h.ids i p hp) (by omega)
    rw [hpl] at this
    exact ⟨h0, this⟩
  have hfull : ((visitOrder (xorDistance me key)).flatMap t.buckets).Pairwise (Before me key) := by
    rw [List.pairwise_flatMap]
    constructor
    · intro i _
      rw [List.pairwise_iff_forall_sublist]
      intro x y hs
      have hx := hdist i x (hs.subset (by simp))
      have hy := hdist i y (hs.subset (by simp))
      unfold Before
      omega
    · unfold visitOrder
      rw [List.pairwise_append]
      refine ⟨?_, ?_, ?_⟩
      · refine List.Pairwise.imp_of_mem ?_ (List.pairwise_lt_range' (s := xorDistance me key) (n := maxXor + 1 - xorDistance me key))
        intro i j hi hj hij x hx y hy
        rw [List.mem_range'_1] at hi hj
        have hx := hdist i x hx
        have hy := hdist j y hy
        unfold Before
        omega
      · refine List.Pairwise.imp_of_mem (R := fun _ _ => True) ?_ (List.pairwise_of_forall (fun _ _ => trivial))
        intro i j hi hj _ x hx y hy
        rw [List.mem_reverse, List.mem_range] at hi hj
        have hx := hdist i x hx
        have hy := hdist j y hy
        unfold Before
        omega
      · intro i hi j hj x hx y hy
        rw [List.mem_range'_1] at hi
        rw [List.mem_reverse, List.mem_range] at hj
        have hx := hdist i x hx
        have hy := hdist j y hy
        unfold Before
        omega
  have heq := closest_eq t key count
  rw [h.loc] at heq
  rw [heq]
  refine ⟨hfull.sublist (List.take_sublist _ _), ?_⟩
  rintro x y hx ⟨j, hj⟩ hy
  have hsplit := List.take_append_drop count ((visitOrder (xorDistance me key)).flatMap t.buckets)
  rw [← hsplit] at hfull
  refine (List.pairwise_append.1 hfull).2.2 x hx y ?_
  have hjle : j ∈ visitOrder (xorDistance me key) := by
    rw [(visitOrder_perm (xorDistance_le hme hk)).mem_iff, List.mem_range]
    have := h.place j y hj
    have := xorDistance_le hme (h.ids j y hj)
    unfold maxXor
    omega
  have hmem : y ∈ (visitOrder (xorDistance me key)).flatMap t.buckets := List.mem_flatMap.2 ⟨j, hjle, hj⟩
  rw [← hsplit] at hmem
  rcases List.mem_append.1 hmem with h1 | h1
  · exact absurd h1 hy
  · exact h1

/-- C18: if a stored peer is nearer to the key than the local peer, a lookup begins with such a peer (the step of an iterative
lookup makes progress). -/
theorem closest_progress {maxK : Nat} {me : List Nat} {ops : List Op} (hme : IsId me) (hw : WfOps ops) {key : List Nat}
    (hk : IsId key) {count : Nat} (hc : 0 < count) {y : List Nat} (hy : Stored (run maxK (Table.new me) ops) y)
    (hn : xorDistance y key < xorDistance me key) :
    ∃ x xs, (run maxK (Table.new me) ops).closest key count = x :: xs ∧ xorDistance x key < xorDistance me key := by
  have hlen := closest_length (maxK := maxK) hme hw hk count
  have hord := closest_order (maxK := maxK) hme hw hk count
  generalize hres : (run maxK (Table.new me) ops).closest key count = res at hlen hord
  cases res with
  | nil =>
    exfalso
    have h := inv_run ops (inv_new maxK me) hw
    obtain ⟨j, hj⟩ := hy
    have h1 : j ∈ List.range (maxXor + 1) := by
      rw [List.mem_range]
      have := h.place j y hj
      have := xorDistance_le hme (h.ids j y hj)
      unfold maxXor
      omega
    have h2 : 0 < size (run maxK (Table.new me) ops) := by
      unfold size
      rw [← List.length_flatMap]
      exact List.length_pos_of_mem (List.mem_flatMap.2 ⟨j, h1, hj⟩)
    simp at hlen
    omega
  | cons x xs =>
    refine ⟨x, xs, rfl, ?_⟩
    by_cases hm : y ∈ x :: xs
    · rcases List.mem_cons.1 hm with rfl | hm
      · exact hn
      · have := (List.pairwise_cons.1 hord.1).1 y hm
        unfold Before at this
        omega
    · have := hord.2 x y (by simp) hy hm
      unfold Before at this
      omega

end Tycho.Dht
