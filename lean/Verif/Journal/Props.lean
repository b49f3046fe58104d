import Verif.Journal.Store

namespace Tycho.Journal
open Tycho.Merge Tycho.Table

/-! ### Cleaning -/

theorem foldl_max_ge (l : List PKey) (m : Nat) : m ≤ l.foldl (fun m k => max m k.round) m ∧
    ∀ k ∈ l, k.round ≤ l.foldl (fun m k => max m k.round) m := by
  induction l generalizing m with
  | nil => simp
  | cons a l ih =>
    obtain ⟨h1, h2⟩ := ih (max m a.round)
    simp only [List.foldl_cons]
    refine ⟨by omega, ?_⟩
    intro k hk
    rcases List.mem_cons.1 hk with rfl | hk
    · omega
    · exact h2 k hk

theorem foldl_min_le (l : List PKey) (m : Nat) : l.foldl (fun m k => min m k.round) m ≤ m ∧
    ∀ k ∈ l, l.foldl (fun m k => min m k.round) m ≤ k.round := by
  induction l generalizing m with
  | nil => simp
  | cons a l ih =>
    obtain ⟨h1, h2⟩ := ih (min m a.round)
    simp only [List.foldl_cons]
    refine ⟨by omega, ?_⟩
    intro k hk
    rcases List.mem_cons.1 hk with rfl | hk
    · omega
    · exact h2 k hk

theorem in_range {l : List PKey} {k : PKey} (h : k ∈ l) : minRound l ≤ k.round ∧ k.round < maxRound l := by
  have h1 := (foldl_max_ge l 0).2 k h
  have h2 := (foldl_min_le l (2 ^ 32 - 1)).2 k h
  unfold minRound maxRound
  omega

/-- The loop of the cleaner, if no point fails. -/
theorem cleanPoints_spec (i : JIds) (subs : Table PKey Nat) (lo hi : Nat) (r : PKey → List Bytes → Option (List Bytes))
    (t : Table PKey (List Bytes)) (hu : Uniq t) (hr : ∀ e ∈ t, cleanOps i subs e.1 e.2 = some (r e.1 e.2)) :
    ∃ t', cleanPoints i subs lo hi t = some t' ∧ (t'.map (·.1)).Sublist (t.map (·.1)) ∧
      ∀ k, get t' k = (get t k).bind (fun ops => if lo ≤ k.round ∧ k.round < hi then r k ops else some ops) := by
  induction t with
  | nil => exact ⟨[], rfl, by simp, fun k => rfl⟩
  | cons e t ih =>
    have hu' := hu
    unfold Uniq at hu'
    rw [List.map_cons, List.nodup_cons] at hu'
    obtain ⟨t', h1, h2, h3⟩ := ih hu'.2 (fun x hx => hr x (by simp [hx]))
    have hnot : get t e.1 = none := by
      cases hg : get t e.1 with
      | none => rfl
      | some v => exact absurd (List.mem_map_of_mem (f := (·.1)) (mem_of_get t e.1 v hg)) hu'.1
    have hnot' : get t' e.1 = none := by rw [h3 e.1, hnot]; rfl
    unfold cleanPoints
    by_cases hc : lo ≤ e.1.round ∧ e.1.round < hi
    · rw [if_pos hc, hr e (by simp), Option.bind_some, h1, Option.map_some]
      cases hre : r e.1 e.2 with
      | none =>
        refine ⟨t', rfl, List.Sublist.cons _ h2, ?_⟩
        intro k
        rw [h3 k]
        by_cases hk : e.1 = k
        · subst hk
          simp only [Table.get, if_pos, hnot, Option.bind_none, Option.bind_some]
          rw [if_pos hc, hre]
        · simp only [Table.get, if_neg hk]
      | some o =>
        refine ⟨(e.1, o) :: t', rfl, by simpa using h2, ?_⟩
        intro k
        by_cases hk : e.1 = k
        · subst hk
          simp only [Table.get, if_pos, Option.bind_some]
          rw [if_pos hc, hre]
        · simp only [Table.get, if_neg hk]
          exact h3 k
    · rw [if_neg hc, h1, Option.map_some]
      refine ⟨e :: t', rfl, by simpa using h2, ?_⟩
      intro k
      by_cases hk : e.1 = k
      · subst hk
        simp only [Table.get, if_pos, Option.bind_some]
        rw [if_neg hc]
      · simp only [Table.get, if_neg hk]
        exact h3 k

theorem count_filterMap_true (l : List (PKey × Bool)) (k : PKey) :
    (l.filterMap (fun r => if r.2 then some r.1 else none)).count k = l.count (k, true) := by
  induction l with
  | nil => rfl
  | cons e l ih =>
    obtain ⟨j, b⟩ := e
    rw [List.count_cons]
    cases b with
    | false => simp [ih]
    | true =>
      simp only [List.filterMap_cons, if_true, List.count_cons, ih]
      congr 1
      by_cases hj : j = k
      · subst hj; simp
      · simp [hj]

theorem count_split (t : Table RKey (List (PKey × Bool))) (p : RKey → Bool) (x : PKey × Bool) :
    (t.flatMap (·.2)).count x = ((del t p).flatMap (·.2)).count x + ((t.filter (fun e => p e.1)).flatMap (·.2)).count x := by
  unfold del
  induction t with
  | nil => simp
  | cons e t ih =>
    rw [List.flatMap_cons, List.count_append, ih]
    by_cases hp : p e.1 = true
    · rw [List.filter_cons_of_neg (by simp [hp]), List.filter_cons_of_pos (by simpa using hp), List.flatMap_cons, List.count_append]
      omega
    · rw [List.filter_cons_of_pos (by simpa using hp), List.filter_cons_of_neg (by simpa using hp), List.flatMap_cons,
        List.count_append]
      omega

theorem clean_inv {i : JIds} (hi : i.Ok) {pay : PKey → Bytes} {db : Db} (h : Inv i pay db) (a b : Nat) :
    ∃ pts, cleanEvents i a b db = some ⟨del db.journal (inTime a b), pts⟩ ∧ Inv i pay ⟨del db.journal (inTime a b), pts⟩ := by
  let L := subRefs a b db
  have hL : ∀ k, refs db k = refs ⟨del db.journal (inTime a b), []⟩ k + L.count k := by
    intro k
    unfold refs
    rw [count_split db.journal (inTime a b)]
    congr 1
    exact (count_filterMap_true _ k).symm
  have hsub := subTable_counts L
  let r : PKey → List Bytes → Option (List Bytes) := fun k ops => match get (subTable L) k with
    | some n => if n = refs db k then none else some (ops ++ [encJ i n none])
    | none => if refs db k = 0 then none else some ops
  have hr : ∀ e ∈ db.points, cleanOps i (subTable L) e.1 e.2 = some (r e.1 e.2) := by
    intro e he
    unfold cleanOps
    rw [read_ok hi h (get_of_mem _ h.uniqP _ _ he)]
    rfl
  obtain ⟨pts, p1, p2, p3⟩ := cleanPoints_spec i (subTable L) (minRound L) (maxRound L) r db.points h.uniqP hr
  refine ⟨pts, ?_, ?_⟩
  · unfold cleanEvents
    show Option.map _ (cleanPoints i (subTable L) (minRound L) (maxRound L) db.points) = _
    rw [p1]; rfl
  have key : ∀ k, (get db.points k = none ∧ get pts k = none) ∨
      ∃ ops, get db.points k = some ops ∧
        ((L.count k = 0 ∧ get pts k = some ops) ∨ (0 < L.count k ∧ L.count k = refs db k ∧ get pts k = none) ∨
          (0 < L.count k ∧ L.count k < refs db k ∧ get pts k = some (ops ++ [encJ i (L.count k) none]))) := by
    intro k
    cases hg : get db.points k with
    | none => left; exact ⟨rfl, by rw [p3 k, hg]; rfl⟩
    | some ops =>
      right
      refine ⟨ops, rfl, ?_⟩
      have hpos : 0 < refs db k := (h.pos k).1 (by rw [hg]; rfl)
      have e : get pts k = if minRound L ≤ k.round ∧ k.round < maxRound L then r k ops else some ops := by rw [p3 k, hg]; rfl
      obtain ⟨s1, s2⟩ := hsub k
      by_cases hm : k ∈ L
      · have hcp : 0 < L.count k := List.count_pos_iff.2 hm
        obtain ⟨n, hn⟩ := Option.isSome_iff_exists.1 (s2.2 hm)
        rw [hn] at s1
        simp only [Option.getD_some] at s1
        rw [if_pos (in_range hm)] at e
        have hrk : r k ops = if n = refs db k then none else some (ops ++ [encJ i n none]) := by
          show (match get (subTable L) k with | some n => _ | none => _) = _
          rw [hn]
        rw [hrk, s1] at e
        have := hL k
        by_cases heq : L.count k = refs db k
        · rw [if_pos heq] at e
          exact Or.inr (Or.inl ⟨hcp, heq, e⟩)
        · rw [if_neg heq] at e
          exact Or.inr (Or.inr ⟨hcp, by omega, e⟩)
      · left
        have hn : get (subTable L) k = none := by
          cases hgs : get (subTable L) k with
          | none => rfl
          | some n => exact absurd (s2.1 (by rw [hgs]; rfl)) hm
        have hrk : r k ops = some ops := by
          show (match get (subTable L) k with | some n => _ | none => _) = _
          rw [hn]
          simp only
          rw [if_neg (by omega)]
        rw [hrk, ite_self] at e
        exact ⟨List.count_eq_zero_of_not_mem hm, e⟩
  have hrefs : ∀ k, refs (⟨del db.journal (inTime a b), pts⟩ : Db) k = refs db k - L.count k := by
    intro k
    have := hL k
    show refs ⟨del db.journal (inTime a b), []⟩ k = _
    omega
  have hle : ∀ k, L.count k ≤ refs db k := fun k => by have := hL k; omega
  refine ⟨uniq_del _ _ h.uniqJ, List.Nodup.sublist p2 h.uniqP, ?_, ?_, ?_⟩
  · intro k ops hg
    rw [hrefs k]
    change get pts k = some ops at hg
    rcases key k with ⟨_, e⟩ | ⟨o, ho, ⟨c1, e⟩ | ⟨c1, c2, e⟩ | ⟨c1, c2, e⟩⟩
    · rw [e] at hg; cases hg
    · rw [e] at hg
      obtain rfl := Option.some.inj hg
      rw [c1, Nat.sub_zero]
      exact h.ok k o ho
    · rw [e] at hg; cases hg
    · rw [e] at hg
      obtain rfl := Option.some.inj hg
      obtain ⟨o1, o2⟩ := h.ok k o ho
      have hf := h.fits k
      have hdec := decJ_encJ hi (n := L.count k) (by omega) none
      have hs : sumJ i [encJ i (L.count k) none] = -(L.count k : Int) := by rw [sumJ_cons hdec]; simp [sumJ, valDelta]
      refine ⟨OkJ.append.2 ⟨o1, ⟨_, hdec, ?_, ?_, fun q hq => (by cases hq), trivial⟩⟩, ?_⟩
      · show 0 ≤ 0 + sumJ i o + -(L.count k : Int)
        rw [o2]; omega
      · show 0 + sumJ i o + -(L.count k : Int) < 2 ^ 32
        rw [o2]; omega
      · rw [sumJ_append, o2, hs]; omega
  · intro k
    rw [hrefs k]
    show (get pts k).isSome ↔ _
    rcases key k with ⟨g, e⟩ | ⟨o, ho, ⟨c1, e⟩ | ⟨c1, c2, e⟩ | ⟨c1, c2, e⟩⟩
    · rw [e]
      have : ¬ 0 < refs db k := fun hp => by have := (h.pos k).2 hp; rw [g] at this; cases this
      simp only [Option.isSome_none, Bool.false_eq_true, false_iff]
      omega
    · rw [e]
      have := (h.pos k).1 (by rw [ho]; rfl)
      simp only [Option.isSome_some, true_iff]
      omega
    · rw [e]
      simp only [Option.isSome_none, Bool.false_eq_true, false_iff]
      omega
    · rw [e]
      simp only [Option.isSome_some, true_iff]
      omega
  · intro k
    rw [hrefs k]
    have := h.fits k
    omega

/-! ### Runs -/

theorem compact_inv {i : JIds} (hi : i.Ok) {pay : PKey → Bytes} {db : Db} (h : Inv i pay db) {k : PKey} {ops0 ops : List Bytes}
    (hg : get db.points k = some ops0) (hr : Regroup (mergeJ i) ops0 ops) : Inv i pay { db with points := put db.points k ops } := by
  have hrefs : ∀ j, refs { db with points := put db.points k ops } j = refs db j := fun _ => rfl
  have hgp : ∀ j, get (put db.points k ops) j = if j = k then some ops else get db.points j := fun j => get_put _ _ _ _
  refine ⟨h.uniqJ, uniq_put _ _ _ h.uniqP, ?_, ?_, h.fits⟩
  · intro j o ho
    rw [hrefs]
    change get (put db.points k ops) j = some o at ho
    rw [hgp] at ho
    split at ho
    · rename_i hj
      subst hj
      obtain rfl := Option.some.inj ho
      obtain ⟨h1, h2⟩ := h.ok j ops0 hg
      obtain ⟨r1, r2⟩ := OkJ.regroup hi h1 hr
      exact ⟨r1, by rw [r2, h2]⟩
    · exact h.ok j o ho
  · intro j
    rw [hrefs]
    show (get (put db.points k ops) j).isSome ↔ _
    rw [hgp]
    split
    · rename_i hj
      subst hj
      have := (h.pos j).1 (by rw [hg]; rfl)
      simp [this]
    · exact h.pos j

theorem step_inv {i : JIds} (hi : i.Ok) {pay : PKey → Bytes} {db : Db} (h : Inv i pay db) {op : Op} (ho : OpOk i pay db op) :
    ∃ db', step i db op = some db' ∧ Inv i pay db' := by
  cases op with
  | store items main => exact store_inv hi h ho
  | clean a b => obtain ⟨pts, h1, h2⟩ := clean_inv hi h a b; exact ⟨_, h1, h2⟩
  | compact k ops => obtain ⟨ops0, h1, h2⟩ := ho; exact ⟨_, rfl, compact_inv hi h h1 h2⟩

theorem run_inv {i : JIds} (hi : i.Ok) {pay : PKey → Bytes} {db : Db} (h : Inv i pay db) {ops : List Op} (ho : RunOk i pay db ops) :
    ∃ db', run i db ops = some db' ∧ Inv i pay db' := by
  induction ops generalizing db with
  | nil => exact ⟨db, rfl, h⟩
  | cons op ops ih =>
    obtain ⟨db1, h1, h2⟩ := step_inv hi h ho.1
    obtain ⟨db2, h3, h4⟩ := ih h2 (ho.2 db1 h1)
    refine ⟨db2, ?_, h4⟩
    show (step i db op).bind _ = _
    rw [h1]; exact h3

/-- Any history of stored batches, cleaned time ranges and merges by RocksDB: no call fails, and a point can be read if and only if a
record in the journal refers to it as stored; its stored count is the number of those references. -/
theorem journal_keeps_points {i : JIds} (hi : i.Ok) {pay : PKey → Bytes} {ops : List Op} (ho : RunOk i pay ⟨[], []⟩ ops) :
    ∃ db, run i ⟨[], []⟩ ops = some db ∧
      (∀ k, getPoint i db k = some (if 0 < refs db k then some (pay k) else none)) ∧
      ∀ k, (get db.points k).isSome ↔ 0 < refs db k := by
  obtain ⟨db, h1, h⟩ := run_inv hi (inv_empty i pay) ho
  refine ⟨db, h1, ?_, h.pos⟩
  intro k
  unfold getPoint
  cases hg : get db.points k with
  | none =>
    rw [if_neg]
    intro hp
    have := (h.pos k).2 hp
    rw [hg] at this; cases this
  | some ops =>
    simp only
    rw [read_ok hi h hg, if_pos ((h.pos k).1 (by rw [hg]; rfl))]
    rfl

/-- The records: those of the stored events are added, with a reference to each point the event mentions; a reference is marked as stored
exactly if the point was at hand, in the journal or in the main database. -/
theorem journal_store_records {i : JIds} (hi : i.Ok) {pay : PKey → Bytes} {ops : List Op} {db : Db} (ho : RunOk i pay ⟨[], []⟩ ops)
    (hrun : run i ⟨[], []⟩ ops = some db) {items : List Item} {main : PKey → Option Bytes} (hs : StoreOk pay db items main) :
    ∃ db', step i db (.store items main) = some db' ∧
      (∀ rk, (∀ it ∈ items, it.store = true → it.key ≠ rk) → get db'.journal rk = get db.journal rk) ∧
      ∀ it ∈ items, it.store = true → ∃ l, get db'.journal it.key = some l ∧ (l.map (·.1)).Nodup ∧
        (∀ k, k ∈ l.map (·.1) ↔ it.mentions k = true) ∧
        ∀ k, (k, true) ∈ l ↔ it.mentions k = true ∧
          ((∃ x ∈ items, x.store = true ∧ k ∈ x.points.map (·.1)) ∨ (main k).isSome ∨ 0 < refs db k) := by
  obtain ⟨db0, h1, h⟩ := run_inv hi (inv_empty i pay) ho
  rw [hrun] at h1
  obtain rfl := Option.some.inj h1
  have hb := batch_inv (pay := pay) items hs.data hs.distinct
  by_cases hr : (batch items).records = []
  · refine ⟨db, ?_, fun _ _ => rfl, ?_⟩
    · show storeRecords _ _ _ _ = _
      unfold storeRecords
      rw [if_pos hr]
    · intro it hit hst
      have hrec := hb.records
      rw [hr] at hrec
      have : items.filter (·.store) = [] := by
        generalize items.filter (·.store) = m at hrec
        cases hrec; rfl
      exact absurd (List.mem_filter.2 ⟨hit, hst⟩) (by rw [this]; simp)
  · refine ⟨_, store_eq hi h hs.main hb hr, ?_, ?_⟩
    · intro rk hrk
      apply get_putAll_not
      intro e he hk
      obtain ⟨r, hr1, rfl⟩ := List.mem_map.1 he
      have : r.1 ∈ (items.filter (·.store)).map (·.key) := by rw [← matches_keys hb.records]; exact List.mem_map_of_mem hr1
      obtain ⟨it, hit, hk2⟩ := List.mem_map.1 this
      exact hrk it (List.mem_filter.1 hit).1 (List.mem_filter.1 hit).2 (hk2.trans hk)
    · intro it hit hst
      have hex : ∃ r ∈ (batch items).records, Matches r it := by
        have hm : it ∈ items.filter (·.store) := List.mem_filter.2 ⟨hit, hst⟩
        have key : ∀ {R : List (RKey × List PKey)} {its : List Item}, List.Forall₂ Matches R its → it ∈ its → ∃ r ∈ R, Matches r it := by
          intro R its hf
          induction hf with
          | nil => intro hx; cases hx
          | cons h1 _ ih =>
            intro hx
            rcases List.mem_cons.1 hx with rfl | hx
            · exact ⟨_, by simp, h1⟩
            · obtain ⟨r, hr, hm⟩ := ih hx
              exact ⟨r, by simp [hr], hm⟩
        exact key hb.records hm
      obtain ⟨r, hr1, hk, hn, hm⟩ := hex
      refine ⟨r.2.map (fun k => (k, decide (k ∈ (writeList main db (batch items)).map (·.1)))), ?_, ?_, ?_, ?_⟩
      · rw [← hk]
        refine get_putAll_mem _ _ ?_ (r.1, _) (List.mem_map_of_mem (f := fun r => (r.1, r.2.map (fun k => (k, decide (k ∈ (writeList main db (batch items)).map (·.1)))))) hr1)
        rw [List.map_map]
        show ((batch items).records.map (·.1)).Nodup
        rw [matches_keys hb.records]
        exact hs.keys
      · rw [List.map_map]
        show (r.2.map id).Nodup
        rw [List.map_id]; exact hn
      · intro k
        rw [List.map_map]
        show k ∈ r.2.map id ↔ _
        rw [List.map_id]; exact hm k
      · intro k
        have hw : k ∈ (writeList main db (batch items)).map (·.1) ↔
            ((get (batch items).keys k).isSome ∧ known main db k = true) ∨ (get (batch items).points k).isSome := by
          unfold writeList
          rw [List.map_append, List.mem_append]
          refine or_congr ?_ ?_
          · constructor
            · intro hx
              obtain ⟨e, he, rfl⟩ := List.mem_map.1 hx
              obtain ⟨e1, e2⟩ := List.mem_filter.1 he
              exact ⟨get_some_of_mem _ e.1 e.2 e1, e2⟩
            · rintro ⟨h1, h2⟩
              obtain ⟨n, hn⟩ := Option.isSome_iff_exists.1 h1
              exact List.mem_map.2 ⟨(k, n), List.mem_filter.2 ⟨mem_of_get _ _ _ hn, h2⟩, rfl⟩
          · rw [List.map_map]
            constructor
            · intro hx
              obtain ⟨e, he, rfl⟩ := List.mem_map.1 hx
              exact get_some_of_mem _ e.1 e.2 he
            · intro h1
              obtain ⟨n, hn⟩ := Option.isSome_iff_exists.1 h1
              exact List.mem_map.2 ⟨(k, n), mem_of_get _ _ _ hn, rfl⟩
        have hmem : (k, true) ∈ r.2.map (fun k => (k, decide (k ∈ (writeList main db (batch items)).map (·.1)))) ↔
            k ∈ r.2 ∧ k ∈ (writeList main db (batch items)).map (·.1) := by
          constructor
          · intro hx
            obtain ⟨j, hj, e⟩ := List.mem_map.1 hx
            obtain ⟨rfl, e2⟩ := Prod.mk.inj e
            exact ⟨hj, of_decide_eq_true e2⟩
          · rintro ⟨h1, h2⟩
            exact List.mem_map.2 ⟨k, h1, by rw [decide_eq_true h2]⟩
        rw [hmem, hm k]
        refine and_congr_right ?_
        intro hmen
        rw [hw, hb.mem k]
        have hkn : known main db k = true ↔ (main k).isSome ∨ 0 < refs db k := by
          unfold known
          rw [Bool.or_eq_true, ← h.pos k]
          exact Or.comm
        have hin : k ∈ (batch items).records.flatMap (·.2) := List.mem_flatMap.2 ⟨r, hr1, (hm k).2 hmen⟩
        have hcp := List.count_pos_iff.2 hin
        constructor
        · rintro (⟨_, h2⟩ | h2)
          · exact Or.inr (hkn.1 h2)
          · exact Or.inl h2
        · rintro (h2 | h2)
          · exact Or.inr h2
          · cases hgp : get (batch items).points k with
            | some v => exact Or.inr ((hb.mem k).1 (by rw [hgp]; rfl))
            | none =>
              left
              refine ⟨?_, hkn.2 h2⟩
              cases hgk : get (batch items).keys k with
              | some n => rfl
              | none => have := hb.none_ k hgp hgk; omega

/-- Cleaning removes the records of the time range and no others. -/
theorem journal_clean_records {i : JIds} (hi : i.Ok) {pay : PKey → Bytes} {ops : List Op} {db : Db} (ho : RunOk i pay ⟨[], []⟩ ops)
    (hrun : run i ⟨[], []⟩ ops = some db) (a b : Nat) :
    ∃ db', step i db (.clean a b) = some db' ∧
      ∀ rk, get db'.journal rk = if a ≤ rk.created ∧ rk.created < b then none else get db.journal rk := by
  obtain ⟨db0, h1, h⟩ := run_inv hi (inv_empty i pay) ho
  rw [hrun] at h1
  obtain rfl := Option.some.inj h1
  obtain ⟨pts, h1, _⟩ := clean_inv hi h a b
  refine ⟨_, h1, ?_⟩
  intro rk
  show get (del db.journal (inTime a b)) rk = _
  rw [get_del]
  unfold inTime
  simp only [decide_eq_true_eq]

end Tycho.Journal
