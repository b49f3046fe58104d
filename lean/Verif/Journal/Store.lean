import Verif.Journal.Batch

/-! ## The journal keeps the points its records refer to, and no others -/
namespace Tycho.Journal
open Tycho.Merge Tycho.Table

structure Inv (i : JIds) (pay : PKey → Bytes) (db : Db) : Prop where
  uniqJ : Uniq db.journal
  uniqP : Uniq db.points
  ok : ∀ k ops, get db.points k = some ops → OkJ i (pay k) 0 ops ∧ sumJ i ops = refs db k
  pos : ∀ k, (get db.points k).isSome ↔ 0 < refs db k
  fits : ∀ k, refs db k < 2 ^ 32

theorem inv_empty (i : JIds) (pay : PKey → Bytes) : Inv i pay ⟨[], []⟩ :=
  ⟨uniq_nil, uniq_nil, fun k ops h => by simp [Table.get] at h, fun k => by simp [Table.get, refs], fun k => by simp [refs]⟩

theorem read_ok {i : JIds} (hi : i.Ok) {pay : PKey → Bytes} {db : Db} (h : Inv i pay db) {k : PKey} {ops : List Bytes}
    (hg : get db.points k = some ops) : (mergeJ i ops).bind (decJ i) = some (refs db k, some (pay k)) := by
  obtain ⟨h1, h2⟩ := h.ok k ops hg
  have hpos : 0 < refs db k := (h.pos k).1 (by rw [hg]; rfl)
  obtain ⟨b, ⟨n, d⟩, m1, m2, m3, m4, m5, m6, m7⟩ := mergeJ_ok hi ops h1 (by omega)
  have hd : d = some (pay k) := m7 (by omega)
  subst hd
  rw [m1, Option.bind_some, m2]
  have : (n : Int) = refs db k := by rw [← h2, ← m3]; rfl
  congr 2
  omega

/-! ### Storing -/

theorem uniq_foldl_addOp (ws : List (PKey × Bytes)) (t : Table PKey (List Bytes)) (h : Uniq t) : Uniq (ws.foldl addOp t) := by
  induction ws generalizing t with
  | nil => exact h
  | cons w ws ih => exact ih _ (uniq_put _ _ _ h)

theorem get_foldl_addOp (ws : List (PKey × Bytes)) (t : Table PKey (List Bytes)) (hn : (ws.map (·.1)).Nodup) (k : PKey) :
    (k ∉ ws.map (·.1) → get (ws.foldl addOp t) k = get t k) ∧
      ∀ w, (k, w) ∈ ws → get (ws.foldl addOp t) k = some ((get t k).getD [] ++ [w]) := by
  induction ws generalizing t with
  | nil => exact ⟨fun _ => rfl, fun w hw => by cases hw⟩
  | cons e ws ih =>
    rw [List.map_cons, List.nodup_cons] at hn
    obtain ⟨i1, i2⟩ := ih (addOp t e) hn.2
    have hg : get (addOp t e) k = if k = e.1 then some ((get t e.1).getD [] ++ [e.2]) else get t k := get_put _ _ _ _
    rw [List.foldl_cons]
    refine ⟨?_, ?_⟩
    · intro hk
      rw [List.map_cons, List.mem_cons, not_or] at hk
      rw [i1 hk.2, hg, if_neg hk.1]
    · intro w hw
      rcases List.mem_cons.1 hw with h | h
      · subst h
        rw [i1 hn.1, hg, if_pos rfl]
      · have hne : k ≠ e.1 := fun he => hn.1 (he ▸ List.mem_map_of_mem (f := (·.1)) h)
        rw [i2 w h, hg, if_neg hne]

/-- A point known to the journal or to the main database. -/
def known (main : PKey → Option Bytes) (db : Db) (k : PKey) : Bool := (get db.points k).isSome || (main k).isSome

theorem keyWrites_eq {i : JIds} (hi : i.Ok) {pay : PKey → Bytes} {db : Db} (h : Inv i pay db) {main : PKey → Option Bytes}
    (hm : ∀ k q, main k = some q → q = pay k) (l : List (PKey × Nat)) :
    keyWrites i main db l = some ((l.filter (fun e => known main db e.1)).map (fun e => (e.1, encJ i e.2 (some (pay e.1))))) := by
  induction l with
  | nil => rfl
  | cons e l ih =>
    unfold keyWrites
    rw [ih]
    unfold keyWrite
    cases hg : get db.points e.1 with
    | some ops =>
      simp only
      rw [read_ok hi h hg]
      have hk : known main db e.1 = true := by simp [known, hg]
      rw [List.filter_cons_of_pos (by simpa using hk)]
      rfl
    | none =>
      simp only
      cases hma : main e.1 with
      | none =>
        have hk : known main db e.1 = false := by simp [known, hg, hma]
        rw [List.filter_cons_of_neg (by simp [hk])]
        rfl
      | some raw =>
        have hk : known main db e.1 = true := by simp [known, hg, hma]
        rw [List.filter_cons_of_pos (by simpa using hk), hm _ _ hma]
        rfl

theorem get_none_of_not_mem {κ ν : Type} [DecidableEq κ] (t : Table κ ν) (k : κ) (h : get t k = none) : ∀ e ∈ t, e.1 ≠ k := by
  intro e he hk
  have := get_some_of_mem t e.1 e.2 he
  rw [hk, h] at this
  cases this

theorem count_put_fresh (t : Table RKey (List (PKey × Bool))) (k : RKey) (v : List (PKey × Bool)) (h : get t k = none)
    (x : PKey × Bool) : ((put t k v).flatMap (·.2)).count x = v.count x + (t.flatMap (·.2)).count x := by
  have hd : del t (fun j => decide (j = k)) = t := by
    unfold del
    rw [List.filter_eq_self]
    intro e he
    simp [get_none_of_not_mem t k h e he]
  unfold put
  rw [hd, List.flatMap_cons, List.count_append]

theorem count_putAll_fresh (R : List (RKey × List (PKey × Bool))) (t : Table RKey (List (PKey × Bool)))
    (hn : (R.map (·.1)).Nodup) (h : ∀ e ∈ R, get t e.1 = none) (x : PKey × Bool) :
    ((putAll t R).flatMap (·.2)).count x = (t.flatMap (·.2)).count x + (R.flatMap (·.2)).count x := by
  induction R generalizing t with
  | nil => simp [putAll]
  | cons e R ih =>
    rw [List.map_cons, List.nodup_cons] at hn
    have := ih (put t e.1 e.2) hn.2 (by
      intro e' he'
      rw [get_put, if_neg]
      · exact h e' (by simp [he'])
      · intro he
        exact hn.1 (he ▸ List.mem_map_of_mem (f := (·.1)) he'))
    simp only [putAll, List.foldl_cons] at this ⊢
    rw [this, count_put_fresh t e.1 e.2 (h e (by simp)), List.flatMap_cons, List.count_append]
    omega

theorem count_marked (found : List PKey) (l : List PKey) (k : PKey) :
    (l.map (fun k => (k, decide (k ∈ found)))).count (k, true) = if k ∈ found then l.count k else 0 := by
  induction l with
  | nil => simp
  | cons a l ih =>
    rw [List.map_cons, List.count_cons, ih, List.count_cons]
    by_cases hk : k ∈ found
    · rw [if_pos hk, if_pos hk]
      by_cases ha : a = k
      · subst ha; simp [hk]
      · simp [ha]
    · rw [if_neg hk, if_neg hk]
      by_cases ha : a = k
      · subst ha; simp [hk]
      · simp [ha]

theorem count_flat_marked (found : List PKey) (records : List (RKey × List PKey)) (k : PKey) :
    ((records.map (fun r => (r.1, r.2.map (fun k => (k, decide (k ∈ found)))))).flatMap (·.2)).count (k, true) =
      if k ∈ found then (records.flatMap (·.2)).count k else 0 := by
  induction records with
  | nil => simp
  | cons r records ih =>
    simp only [List.map_cons, List.flatMap_cons, List.count_append]
    rw [ih, count_marked]
    split <;> simp

theorem count_matches {R : List (RKey × List PKey)} {its : List Item} (h : List.Forall₂ Matches R its) (k : PKey) :
    (R.flatMap (·.2)).count k = (its.filter (fun it => it.mentions k)).length := by
  induction h with
  | nil => simp
  | cons h1 _ ih =>
    rename_i r it _ _ _
    rw [List.flatMap_cons, List.count_append, ih]
    obtain ⟨_, hn, hm⟩ := h1
    by_cases hk : it.mentions k = true
    · rw [List.filter_cons_of_pos (by simpa using hk), List.length_cons, List.count_eq_one_of_mem hn ((hm k).2 hk)]
      omega
    · rw [List.filter_cons_of_neg (by simpa using hk), List.count_eq_zero_of_not_mem (fun h => hk ((hm k).1 h))]
      omega

theorem matches_keys {R : List (RKey × List PKey)} {its : List Item} (h : List.Forall₂ Matches R its) :
    R.map (·.1) = its.map (·.key) := by
  induction h with
  | nil => rfl
  | cons h1 _ ih => rw [List.map_cons, List.map_cons, ih, h1.1]

theorem uniq_filter_keys {ν : Type} (t : Table PKey ν) (p : PKey → Bool) (h : Uniq t) : ((t.filter (fun e => p e.1)).map (·.1)).Nodup :=
  List.Nodup.sublist (List.Sublist.map _ List.filter_sublist) h

/-- The writes of a batch: point and number of references. -/
def writeList (main : PKey → Option Bytes) (db : Db) (b : Batch) : List (PKey × Nat) :=
  b.keys.filter (fun e => known main db e.1) ++ b.points.map (fun e => (e.1, e.2.1))

theorem writeList_nodup {pay : PKey → Bytes} {main : PKey → Option Bytes} {db : Db} {b : Batch} {items : List Item}
    (hb : BatchInv pay b items) : ((writeList main db b).map (·.1)).Nodup := by
  unfold writeList
  rw [List.map_append, List.nodup_append]
  refine ⟨uniq_filter_keys b.keys _ hb.uniqK, by have := hb.uniqP; unfold Uniq at this; simpa [List.map_map, Function.comp_def] using this, ?_⟩
  intro x hx y hy hxy
  subst hxy
  obtain ⟨e, he, rfl⟩ := List.mem_map.1 hx
  obtain ⟨e', he', h2⟩ := List.mem_map.1 hy
  obtain ⟨p, hp, rfl⟩ := List.mem_map.1 he'
  have h1 := get_some_of_mem b.points p.1 p.2 hp
  simp only at h2
  rw [h2] at h1
  have h3 := hb.disjoint e.1 h1
  have h4 := get_some_of_mem b.keys e.1 e.2 (List.mem_filter.1 he).1
  rw [h3] at h4
  cases h4

theorem writeList_count {pay : PKey → Bytes} {main : PKey → Option Bytes} {db : Db} {b : Batch} {items : List Item}
    (hb : BatchInv pay b items) {e : PKey × Nat} (he : e ∈ writeList main db b) :
    e.2 = (b.records.flatMap (·.2)).count e.1 ∧ 0 < e.2 := by
  rcases List.mem_append.1 he with h | h
  · exact hb.countK e.1 e.2 (get_of_mem _ hb.uniqK _ _ (List.mem_filter.1 h).1)
  · obtain ⟨p, hp, rfl⟩ := List.mem_map.1 h
    exact hb.countP p.1 p.2.1 p.2.2 (get_of_mem _ hb.uniqP _ _ hp)

/-- A batch on a good journal. -/
theorem store_eq {i : JIds} (hi : i.Ok) {pay : PKey → Bytes} {db : Db} (h : Inv i pay db) {main : PKey → Option Bytes}
    (hm : ∀ k q, main k = some q → q = pay k) {b : Batch} {items : List Item} (hb : BatchInv pay b items) (hr : b.records ≠ []) :
    storeRecords i main b db = some
      { points := ((writeList main db b).map (fun e => (e.1, encJ i e.2 (some (pay e.1))))).foldl addOp db.points
        journal := putAll db.journal (b.records.map (fun r =>
          (r.1, r.2.map (fun k => (k, decide (k ∈ (writeList main db b).map (·.1))))))) } := by
  have hp : pointWrites i b.points = (b.points.map (fun e => (e.1, e.2.1))).map (fun e => (e.1, encJ i e.2 (some (pay e.1)))) := by
    unfold pointWrites
    rw [List.map_map]
    apply List.map_congr_left
    intro e he
    have := hb.data e.1 e.2.1 e.2.2 (get_of_mem _ hb.uniqP _ _ he)
    simp only [Function.comp_apply, this]
  unfold storeRecords
  rw [if_neg hr, keyWrites_eq hi h hm, Option.map_some, hp, ← List.map_append]
  have e : ((b.keys.filter (fun e => known main db e.1) ++ b.points.map (fun e => (e.1, e.2.1))).map
      (fun e => (e.1, encJ i e.2 (some (pay e.1))))).map (·.1) = (writeList main db b).map (·.1) := by
    rw [List.map_map]; rfl
  simp only [e]
  rfl

theorem refs_store {i : JIds} {pay : PKey → Bytes} {db : Db} {main : PKey → Option Bytes} {items : List Item}
    (ho : StoreOk pay db items main) {b : Batch} (hb : BatchInv pay b items) (pts : Table PKey (List Bytes)) (k : PKey) :
    refs { points := pts
           journal := putAll db.journal (b.records.map (fun r =>
            (r.1, r.2.map (fun k => (k, decide (k ∈ (writeList main db b).map (·.1))))))) } k =
      refs db k + if k ∈ (writeList main db b).map (·.1) then (b.records.flatMap (·.2)).count k else 0 := by
  have hkeys := matches_keys hb.records
  have hmk : (b.records.map (fun r => (r.1, r.2.map (fun k => (k, decide (k ∈ (writeList main db b).map (·.1))))))).map (·.1) =
      b.records.map (·.1) := by rw [List.map_map]; rfl
  unfold refs
  rw [count_putAll_fresh, count_flat_marked]
  · rw [hmk, hkeys]; exact ho.keys
  · intro e he
    have h1 : e.1 ∈ (items.filter (·.store)).map (·.key) := by
      rw [← hkeys, ← hmk]; exact List.mem_map_of_mem he
    obtain ⟨it, hit, he2⟩ := List.mem_map.1 h1
    rw [← he2]
    exact ho.fresh it (List.mem_filter.1 hit).1 (List.mem_filter.1 hit).2

theorem store_inv {i : JIds} (hi : i.Ok) {pay : PKey → Bytes} {db : Db} (h : Inv i pay db) {items : List Item}
    {main : PKey → Option Bytes} (ho : StoreOk pay db items main) :
    ∃ db', storeRecords i main (batch items) db = some db' ∧ Inv i pay db' := by
  have hb := batch_inv (pay := pay) items ho.data ho.distinct
  generalize batch items = b at hb ⊢
  by_cases hr : b.records = []
  · refine ⟨db, ?_, h⟩
    unfold storeRecords
    rw [if_pos hr]
  refine ⟨_, store_eq hi h ho.main hb hr, ?_⟩
  have hn := writeList_nodup (main := main) (db := db) hb
  have hn' : (((writeList main db b).map (fun e => (e.1, encJ i e.2 (some (pay e.1))))).map (·.1)).Nodup := by
    rw [List.map_map]; exact hn
  have hm' : ∀ k, k ∈ ((writeList main db b).map (fun e => (e.1, encJ i e.2 (some (pay e.1))))).map (·.1) ↔
      k ∈ (writeList main db b).map (·.1) := by
    intro k; rw [List.map_map]; rfl
  have hfit : ∀ k, refs db k + (b.records.flatMap (·.2)).count k < 2 ^ 32 := by
    intro k
    rw [count_matches hb.records, List.filter_filter]
    have := ho.fits k
    simpa [Bool.and_comm] using this
  have hrefs := fun k => refs_store (i := i) ho hb (((writeList main db b).map (fun e => (e.1, encJ i e.2 (some (pay e.1))))).foldl addOp db.points) k
  have hget : ∀ k, (k ∉ (writeList main db b).map (·.1) ∧
        get (((writeList main db b).map (fun e => (e.1, encJ i e.2 (some (pay e.1))))).foldl addOp db.points) k = get db.points k) ∨
      (k ∈ (writeList main db b).map (·.1) ∧ ∃ n, n = (b.records.flatMap (·.2)).count k ∧ 0 < n ∧
        get (((writeList main db b).map (fun e => (e.1, encJ i e.2 (some (pay e.1))))).foldl addOp db.points) k =
          some ((get db.points k).getD [] ++ [encJ i n (some (pay k))])) := by
    intro k
    obtain ⟨g1, g2⟩ := get_foldl_addOp _ db.points hn' k
    by_cases hk : k ∈ (writeList main db b).map (·.1)
    · right
      refine ⟨hk, ?_⟩
      obtain ⟨e, he, rfl⟩ := List.mem_map.1 hk
      obtain ⟨c1, c2⟩ := writeList_count hb he
      exact ⟨e.2, c1, c2, g2 _ (List.mem_map_of_mem (f := fun e => (e.1, encJ i e.2 (some (pay e.1)))) he)⟩
    · left
      exact ⟨hk, g1 (fun hh => hk ((hm' k).1 hh))⟩
  refine ⟨uniq_putAll _ _ h.uniqJ, uniq_foldl_addOp _ _ h.uniqP, ?_, ?_, ?_⟩
  · intro k ops hg
    rw [hrefs k]
    rcases hget k with ⟨hk, e⟩ | ⟨hk, n, hn1, hn2, e⟩
    · rw [e] at hg
      rw [if_neg hk]
      exact h.ok k ops hg
    · rw [e] at hg
      rw [if_pos hk, ← hn1]
      obtain rfl := Option.some.inj hg
      have hf := hfit k
      have hdec := decJ_encJ hi (n := n) (by omega) (some (pay k))
      have hold : OkJ i (pay k) 0 ((get db.points k).getD []) ∧ sumJ i ((get db.points k).getD []) = refs db k := by
        cases hgk : get db.points k with
        | some o => exact h.ok k o hgk
        | none =>
          have : ¬ 0 < refs db k := fun hp => by have := (h.pos k).2 hp; rw [hgk] at this; cases this
          refine ⟨trivial, ?_⟩
          show (0 : Int) = _
          omega
      have hs : sumJ i [encJ i n (some (pay k))] = n := by rw [sumJ_cons hdec]; simp [sumJ, valDelta]
      refine ⟨OkJ.append.2 ⟨hold.1, ⟨_, hdec, ?_, ?_, fun q hq => (Option.some.inj hq).symm, trivial⟩⟩, ?_⟩
      · show 0 ≤ 0 + sumJ i _ + (n : Int)
        rw [hold.2]; omega
      · show 0 + sumJ i _ + (n : Int) < 2 ^ 32
        rw [hold.2]; omega
      · rw [sumJ_append, hold.2, hs]; omega
  · intro k
    rw [hrefs k]
    rcases hget k with ⟨hk, e⟩ | ⟨hk, n, hn1, hn2, e⟩
    · rw [if_neg hk]
      show (get (List.foldl addOp db.points _) k).isSome ↔ _
      rw [e]
      exact h.pos k
    · rw [if_pos hk]
      show (get (List.foldl addOp db.points _) k).isSome ↔ _
      rw [e]
      simp only [Option.isSome_some, true_iff]
      omega
  · intro k
    rw [hrefs k]
    have := hfit k
    split <;> omega

end Tycho.Journal
