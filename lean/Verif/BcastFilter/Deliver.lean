import Verif.BcastFilter.Props
import Mathlib.Tactic.Tauto
/-! Deliveries to the DAG: nothing is lost between calls and flushes. -/
namespace Tycho.BcastFilter
open Tycho.Table (Table get put del get_put get_del)

/-! ### Entries grow -/

theorem goes_iff (p : Pt) : p.goes = true ↔ (p.well = true ∨ p.full = true) := by simp [Pt.goes]

theorem mem_items {e : ByAuthor} {q : Pt} :
    q ∈ e.items ↔ (q = e.first.item ∨ ∃ f, e.fork = some f ∧ q = f.item) ∧ q.goes = true := by
  unfold ByAuthor.items
  rw [List.mem_filter]
  cases e.fork with
  | none => simp
  | some f => simp

theorem entry_items (old : Option ByAuthor) (p q : Pt) :
    (q ∈ (entry old p).1.items → (∃ e, old = some e ∧ q ∈ e.items) ∨ (q = p ∧ p.goes = true)) ∧
    (∀ e, old = some e → q ∈ e.items → q ∈ (entry old p).1.items) := by
  cases old with
  | none => refine ⟨fun h => ?_, fun e he => by cases he⟩
            rw [mem_items] at h
            simp only [entry] at h
            rcases h with ⟨rfl | ⟨f, hf, _⟩, h⟩
            · exact Or.inr ⟨rfl, h⟩
            · cases hf
  | some e =>
    by_cases hd : e.first.item.digest = p.digest
    · simp only [entry, hd, if_true, mem_items]
      refine ⟨fun h => Or.inl ⟨e, rfl, h⟩, fun e' he h => by cases he; exact h⟩
    · cases hk : e.fork with
      | none =>
        simp only [entry, hd, if_false, hk, mem_items]
        refine ⟨?_, ?_⟩
        · rintro ⟨rfl | ⟨f, hf, rfl⟩, h⟩
          · exact Or.inl ⟨e, rfl, Or.inl rfl, h⟩
          · cases hf; exact Or.inr ⟨rfl, h⟩
        · rintro e' he ⟨rfl | ⟨f, hf, rfl⟩, h⟩
          · cases he; exact ⟨Or.inl rfl, h⟩
          · cases he; rw [hk] at hf; cases hf
      | some f =>
        by_cases hfd : f.item.digest = p.digest
        · simp only [entry, hd, if_false, hk, hfd, if_true, mem_items]
          refine ⟨?_, ?_⟩
          · rintro ⟨rfl | ⟨f', hf, rfl⟩, h⟩
            · exact Or.inl ⟨e, rfl, Or.inl rfl, h⟩
            · cases hf; exact Or.inl ⟨e, rfl, Or.inr ⟨f, hk, rfl⟩, h⟩
          · rintro e' he ⟨rfl | ⟨f', hf, rfl⟩, h⟩
            · cases he; exact ⟨Or.inl rfl, h⟩
            · cases he; rw [hk] at hf; cases hf; exact ⟨Or.inr ⟨_, rfl, rfl⟩, h⟩
        · simp only [entry, hd, if_false, hk, hfd]
          refine ⟨fun h => Or.inl ⟨e, rfl, h⟩, fun e' he h => by cases he; exact h⟩

/-! ### A call, in the parts that matter here -/

/-- What a heard call does to the state. -/
theorem add_cases (c : Conf) (s : St) (h : Head) (r a d : Nat) (v : Verdict) (ev : Bool) (mn : Option Nat) :
    (step c s (.add h r a d v ev mn) = s ∧ (Op.add h r a d v ev mn).heard c.keep = none) ∨
    ∃ p, (Op.add h r a d v ev mn).heard c.keep = some (r, p) ∧
      ((get s.rounds r = none ∧ step c s (.add h r a d v ev mn) = { s with pending := s.pending ++ owed (h.has r) r p }) ∨
        ∃ i f n, (get s.rounds r = some i ∧ f = s.fresh ∨
            get s.rounds r = none ∧ i.map = s.fresh ∧ i.flagged = false ∧ f = s.fresh + 1 ∧ h.next < r) ∧
          step c s (.add h r a d v ev mn) = { s with
            rounds := put s.rounds r { i with count := n },
            maps := fun m => if m = i.map then put (s.maps m) p.author (entry (get (s.maps i.map) p.author) p).1 else s.maps m,
            fresh := f,
            pending := s.pending ++ owed (i.flagged || (decide (r ≤ h.next) && h.has r)) r p }) := by
  cases hh : (Op.add h r a d v ev mn).heard c.keep with
  | none => left; simp only [step, unheard_ignored c s h r a d v ev mn hh]; exact ⟨trivial, trivial⟩
  | some x =>
    right
    obtain ⟨q, p⟩ := x
    obtain ⟨rfl, hb, _, _, m, hm, he⟩ := heard_cache c s h r a d v ev mn q p hh
    refine ⟨p, rfl, ?_⟩
    simp only [step, he]
    cases hl : s.lookup h q m with
    | none =>
      left
      have hn : get s.rounds q = none := by
        unfold St.lookup at hl; split at hl
        · cases hl
        · assumption
      refine ⟨hn, ?_⟩
      unfold St.cache; rw [if_neg hb, hl]
    | some y =>
      obtain ⟨i, f⟩ := y
      right
      rw [cache_found s h q p ev m i f hb hl]
      refine ⟨i, f, _, ?_, rfl⟩
      unfold St.lookup at hl
      split at hl
      · rename_i j hj; cases hl; exact Or.inl ⟨hj, rfl⟩
      · rename_i hj
        split at hl
        · cases hl
        · rename_i hle
          cases hl; exact Or.inr ⟨hj, rfl, rfl, rfl, by omega⟩

theorem mem_owed {b : Bool} {r : Nat} {p : Pt} {x : Nat × Pt} : x ∈ owed b r p ↔ b = true ∧ p.goes = true ∧ x = (r, p) := by
  unfold owed
  split
  · rename_i h; simp only [Bool.and_eq_true] at h; simp [h]
  · rename_i h; simp only [Bool.and_eq_true, not_and] at h
    constructor
    · intro h2; simp at h2
    · rintro ⟨h1, h2, _⟩; exact absurd h2 (h h1)

/-! ### The flush queue -/

theorem insertRound_mem (x y : Nat × Nat) (l : List (Nat × Nat)) : y ∈ insertRound x l ↔ y = x ∨ y ∈ l := by
  induction l with
  | nil => simp [insertRound]
  | cons z l ih =>
    unfold insertRound
    split
    · simp
    · simp only [List.mem_cons, ih]; tauto

theorem insertRound_sorted (x : Nat × Nat) (l : List (Nat × Nat)) (h : l.Pairwise (fun a b => a.1 < b.1))
    (hx : ∀ y ∈ l, y.1 ≠ x.1) : (insertRound x l).Pairwise (fun a b => a.1 < b.1) := by
  induction l with
  | nil => simp [insertRound]
  | cons z l ih =>
    have hz := List.pairwise_cons.mp h
    have hne := hx z (by simp)
    unfold insertRound
    split
    · rename_i hle
      refine List.pairwise_cons.mpr ⟨?_, h⟩
      intro y hy
      rcases List.mem_cons.mp hy with rfl | hy
      · omega
      · have := hz.1 y hy; omega
    · rename_i hle
      refine List.pairwise_cons.mpr ⟨?_, ih hz.2 (fun y hy => hx y (by simp [hy]))⟩
      intro y hy
      rcases (insertRound_mem x y l).mp hy with rfl | hy
      · omega
      · exact hz.1 y hy

theorem foldr_mem (l : List (Nat × Nat)) (y : Nat × Nat) : y ∈ l.foldr insertRound [] ↔ y ∈ l := by
  induction l with
  | nil => simp
  | cons x l ih => rw [List.foldr_cons, insertRound_mem, ih]; simp

theorem foldr_sorted (l : List (Nat × Nat)) (h : (l.map (·.1)).Nodup) :
    (l.foldr insertRound []).Pairwise (fun a b => a.1 < b.1) := by
  induction l with
  | nil => simp
  | cons x l ih =>
    have hn := List.nodup_cons.mp h
    refine insertRound_sorted x _ (ih hn.2) ?_
    intro y hy he
    rw [foldr_mem] at hy
    have hm : y.1 ∈ l.map (·.1) := List.mem_map_of_mem (f := (·.1)) hy
    rw [he] at hm; exact hn.1 hm

theorem toFlush_mem (h : Head) (t : Table Nat Item) (hu : Table.Uniq t) (r m : Nat) :
    (r, m) ∈ toFlush h t ↔ ∃ i, get t r = some i ∧ i.map = m ∧ r ≤ h.next ∧ h.has r = true := by
  unfold toFlush
  rw [foldr_mem]
  simp only [List.mem_map, List.mem_filter, Bool.and_eq_true, decide_eq_true_eq, Prod.mk.injEq, Prod.exists]
  constructor
  · rintro ⟨r', i, ⟨h1, h2, h3⟩, rfl, rfl⟩
    exact ⟨i, Table.get_of_mem t hu _ _ h1, rfl, h2, h3⟩
  · rintro ⟨i, h1, rfl, h2, h3⟩
    exact ⟨r, i, ⟨Table.mem_of_get t _ _ h1, h2, h3⟩, rfl, rfl⟩

theorem toFlush_sorted (h : Head) (t : Table Nat Item) (hu : Table.Uniq t) :
    (toFlush h t).Pairwise (fun a b => a.1 < b.1) := by
  unfold toFlush
  apply foldr_sorted
  rw [List.map_map]
  have := uniq_filter t hu (fun e => decide (e.1 ≤ h.next) && h.has e.1)
  exact this

/-! ### What holds in every history -/

/-- A flush works on rounds in historical order; the rounds it has yet to open are not open. -/
structure Ordered (s : St) : Prop where
  asc : ∀ todo cur, s.flush = some ⟨todo, cur⟩ → todo.Pairwise (fun a b => a.1 < b.1)
  ahead : ∀ todo r m need, s.flush = some ⟨todo, some (r, m, need)⟩ → ∀ x ∈ todo, r < x.1
  closed : ∀ todo cur, s.flush = some ⟨todo, cur⟩ → ∀ x ∈ todo, ∀ i, get s.rounds x.1 = some i → i.flagged = false

theorem step_ordered (c : Conf) (s : St) (L : Nat → List Pt) (g : Agrees s L) (k : Ordered s) (o : Op) : Ordered (step c s o) := by
  cases o with
  | add h r a d v ev mn =>
    rcases add_cases c s h r a d v ev mn with ⟨e, _⟩ | ⟨p, _, ⟨_, e⟩ | ⟨i, f, n, hi, e⟩⟩
    · rw [e]; exact k
    · rw [e]; exact ⟨k.asc, k.ahead, k.closed⟩
    · rw [e]
      refine ⟨k.asc, k.ahead, ?_⟩
      intro todo cur hf x hx j hj
      simp only [get_put] at hj
      split at hj
      · rename_i hr
        cases hj
        rcases hi with ⟨hi, _⟩ | ⟨_, _, hi, _, _⟩
        · exact k.closed todo cur hf x hx i (by rw [hr]; exact hi)
        · exact hi
      · exact k.closed todo cur hf x hx j hj
  | deliver j =>
    simp only [step, St.deliver]
    split
    · exact ⟨k.asc, k.ahead, k.closed⟩
    · exact k
  | clean q h =>
    refine ⟨k.asc, k.ahead, ?_⟩
    intro todo cur hf x hx j hj
    simp only [step, St.clean, get_del] at hj
    split at hj
    · cases hj
    · exact k.closed todo cur hf x hx j hj
  | flushStart h =>
    simp only [step, St.flushStart]
    split
    · exact k
    · have hu := uniq_filter _ g.uniq (fun e => !outdated h e.1 e.2)
      refine ⟨?_, ?_, ?_⟩
      · intro todo cur hf; cases hf; exact toFlush_sorted h _ hu
      · intro todo r m need hf; cases hf
      · intro todo cur hf x hx j hj
        simp only [get_filter_rounds _ g.uniq] at hj
        split at hj
        · split at hj
          · rename_i hx2
            cases hj
            simp only [outdated, Bool.not_or, Bool.and_eq_true, Bool.not_eq_true'] at hx2
            exact hx2.2
          · cases hj
        · cases hj
  | flushSet =>
    simp only [step, St.flushSet]
    split
    · rename_i r m todo hf
      have hp := List.pairwise_cons.mp (k.asc _ _ hf)
      split
      · refine ⟨?_, ?_, ?_⟩
        · intro t2 c2 h2; cases h2; exact hp.2
        · intro t2 r2 m2 n2 h2; cases h2; exact hp.1
        · intro t2 c2 h2 x hx j hj
          cases h2
          have := hp.1 x hx
          simp only [get_put] at hj
          rw [if_neg (by simp only at this; omega)] at hj
          exact k.closed _ _ hf x (by simp [hx]) j hj
      · refine ⟨?_, ?_, ?_⟩
        · intro t2 c2 h2; cases h2; exact hp.2
        · intro t2 r2 m2 n2 h2; cases h2; exact hp.1
        · intro t2 c2 h2 x hx j hj
          cases h2
          exact k.closed _ _ hf x (by simp [hx]) j hj
    · exact k
  | flushVisit a =>
    simp only [step, St.flushVisit]
    split
    · rename_i hf
      split
      · refine ⟨?_, ?_, ?_⟩
        · intro t2 c2 h2; cases h2; exact k.asc _ _ hf
        · intro t2 r2 m2 n2 h2; cases h2; exact k.ahead _ _ _ _ hf
        · intro t2 c2 h2 x hx j hj
          cases h2; exact k.closed _ _ hf x hx j hj
      · exact k
    · exact k
  | flushNext =>
    simp only [step, St.flushNext]
    split
    · rename_i hf
      refine ⟨?_, ?_, ?_⟩
      · intro t2 c2 h2; cases h2; exact k.asc _ _ hf
      · intro t2 r2 m2 n2 h2; cases h2
      · intro t2 c2 h2 x hx j hj
        cases h2; exact k.closed _ _ hf x hx j hj
    · exact k
  | flushEnd =>
    simp only [step, St.flushEnd]
    split
    · exact ⟨(fun _ _ h => by cases h), (fun _ _ _ _ h => by cases h), (fun _ _ h => by cases h)⟩
    · exact k

theorem ordered_run (c : Conf) (ops : List Op) : Ordered (run c ops) := by
  induction ops using List.reverseRecOn with
  | nil => exact ⟨(fun _ _ h => by cases h), (fun _ _ _ _ h => by cases h), (fun _ _ h => by cases h)⟩
  | append_singleton ops o ih => rw [run_snoc]; exact step_ordered c _ _ (agrees_run c ops) ih o

/-- A flush goes over the rounds in historical order. -/
theorem flush_in_order (c : Conf) (ops : List Op) (todo : List (Nat × Nat)) (cur : Option (Nat × Nat × List Nat))
    (h : (run c ops).flush = some ⟨todo, cur⟩) :
    todo.Pairwise (fun a b => a.1 < b.1) ∧ ∀ r m need, cur = some (r, m, need) → ∀ x ∈ todo, r < x.1 :=
  ⟨(ordered_run c ops).asc _ _ h, fun r m need hc => (ordered_run c ops).ahead todo r m need (hc ▸ h)⟩

/-- As long as flushes do not overlap, a flush does not panic, whatever calls and clean-ups run at the same time. -/
theorem flush_never_panics (c : Conf) (ops : List Op) : (run c ops).flushSet.2 = false := by
  have k := ordered_run c ops
  unfold St.flushSet
  split
  · rename_i r m todo hf
    split
    · rename_i i hi
      exact k.closed _ _ hf (r, m) (by simp) i hi
    · rfl
  · rfl

/-! ### A flush delivers what was cached -/

/-- A point of a captured map is in the DAG or the flush will meet it. -/
def Waits (s : St) (r m a : Nat) (p : Pt) : Prop :=
  (r, p) ∈ s.dag ∨ ((∃ e, get (s.maps m) a = some e ∧ p ∈ e.items) ∧
    ((∃ todo cur, s.flush = some ⟨todo, cur⟩ ∧ (r, m) ∈ todo) ∨
      ∃ todo need, s.flush = some ⟨todo, some (r, m, need)⟩ ∧ a ∈ need))

theorem entries_kept (c : Conf) (s : St) (o : Op) (m a : Nat) (p : Pt) (h : ∃ e, get (s.maps m) a = some e ∧ p ∈ e.items) :
    ∃ e, get ((step c s o).maps m) a = some e ∧ p ∈ e.items := by
  obtain ⟨e, he, hp⟩ := h
  have same : (step c s o).maps = s.maps → ∃ e, get ((step c s o).maps m) a = some e ∧ p ∈ e.items :=
    fun hs => ⟨e, by rw [hs]; exact he, hp⟩
  cases o with
  | add h r a' d v ev mn =>
    rcases add_cases c s h r a' d v ev mn with ⟨e, _⟩ | ⟨q, _, ⟨_, e⟩ | ⟨i, f, n, hi, e2⟩⟩
    · exact same (by rw [e])
    · exact same (by rw [e])
    · rw [e2]
      simp only
      by_cases hm : m = i.map
      · rw [if_pos hm, get_put]
        by_cases ha : a = q.author
        · rw [if_pos ha]
          refine ⟨_, rfl, (entry_items _ q p).2 e ?_ hp⟩
          rw [← hm, ← ha]; exact he
        · rw [if_neg ha]; exact ⟨e, he, hp⟩
      · rw [if_neg hm]; exact ⟨e, he, hp⟩
  | deliver j => exact same (by simp only [step, St.deliver]; split <;> rfl)
  | clean q h => exact same rfl
  | flushStart h => exact same (by simp only [step, St.flushStart]; split <;> rfl)
  | flushSet => exact same (by
      simp only [step, St.flushSet]; split
      · split <;> rfl
      · rfl)
  | flushVisit b => exact same (by
      simp only [step, St.flushVisit]; split
      · split <;> rfl
      · rfl)
  | flushNext => exact same (by simp only [step, St.flushNext]; split <;> rfl)
  | flushEnd => exact same (by simp only [step, St.flushEnd]; split <;> rfl)

theorem dag_grows (c : Conf) (s : St) (o : Op) (x : Nat × Pt) (h : x ∈ s.dag) : x ∈ (step c s o).dag := by
  cases o with
  | add h3 r a' d v ev mn =>
    rcases add_cases c s h3 r a' d v ev mn with ⟨e, _⟩ | ⟨q, _, ⟨_, e⟩ | ⟨i, f, n, hi, e⟩⟩ <;> (rw [e]; exact h)
  | deliver j => simp only [step, St.deliver]; split
                 · simp [h]
                 · exact h
  | clean q h2 => exact h
  | flushStart h2 => simp only [step, St.flushStart]; split <;> exact h
  | flushSet => simp only [step, St.flushSet]; split
                · split <;> exact h
                · exact h
  | flushVisit b => simp only [step, St.flushVisit]; split
                    · split
                      · simp [h]
                      · exact h
                    · exact h
  | flushNext => simp only [step, St.flushNext]; split <;> exact h
  | flushEnd => simp only [step, St.flushEnd]; split <;> exact h

theorem mem_keys {t : Table Nat ByAuthor} {a : Nat} {e : ByAuthor} (h : get t a = some e) : a ∈ t.map (·.1) :=
  List.mem_map_of_mem (f := (·.1)) (Table.mem_of_get t a e h)

theorem waits_step (c : Conf) (s : St) (o : Op) (r m a : Nat) (p : Pt) (h : Waits s r m a p) :
    Waits (step c s o) r m a p := by
  rcases h with h | ⟨he, hw⟩
  · exact Or.inl (dag_grows c s o _ h)
  · have he' := entries_kept c s o m a p he
    have same : (step c s o).flush = s.flush → Waits (step c s o) r m a p := fun hs => Or.inr ⟨he', by rw [hs]; exact hw⟩
    cases o with
    | add h r a' d v ev mn =>
      rcases add_cases c s h r a' d v ev mn with ⟨e, _⟩ | ⟨q, _, ⟨_, e⟩ | ⟨i, f, n, hi, e⟩⟩ <;> exact same (by rw [e])
    | deliver j => exact same (by simp only [step, St.deliver]; split <;> rfl)
    | clean q h => exact same rfl
    | flushStart h =>
      refine same ?_
      simp only [step, St.flushStart]
      rcases hw with ⟨todo, cur, hf, _⟩ | ⟨todo, need, hf, _⟩ <;> simp only [hf]
    | flushSet =>
      refine Or.inr ⟨he', ?_⟩
      rcases hw with ⟨todo, cur, hf, hm⟩ | ⟨todo, need, hf, hm⟩
      · cases cur with
        | some y => left; exact ⟨todo, some y, by simp only [step, St.flushSet, hf], hm⟩
        | none =>
          cases todo with
          | nil => simp at hm
          | cons z todo =>
            obtain ⟨r', m'⟩ := z
            rcases List.mem_cons.mp hm with hz | hm
            · cases hz
              right
              refine ⟨todo, (s.maps m).map (·.1), ?_, ?_⟩
              · simp only [step, St.flushSet, hf]; split <;> rfl
              · obtain ⟨e, h1, _⟩ := he; exact mem_keys h1
            · left
              refine ⟨todo, some (r', m', (s.maps m').map (·.1)), ?_, hm⟩
              simp only [step, St.flushSet, hf]; split <;> rfl
      · right; exact ⟨todo, need, by simp only [step, St.flushSet, hf], hm⟩
    | flushVisit b =>
      rcases hw with ⟨todo, cur, hf, hm⟩ | ⟨todo, need, hf, hm⟩
      · refine Or.inr ⟨he', Or.inl ?_⟩
        cases cur with
        | none => exact ⟨todo, none, by simp only [step, St.flushVisit, hf], hm⟩
        | some y =>
          obtain ⟨r', m', need⟩ := y
          simp only [step, St.flushVisit, hf]
          split
          · exact ⟨todo, _, rfl, hm⟩
          · exact ⟨todo, _, hf, hm⟩
      · by_cases hb : b = a
        · subst hb
          obtain ⟨e, h1, h2⟩ := he
          left
          simp only [step, St.flushVisit, hf, h1]
          exact List.mem_append_right _ (List.mem_map_of_mem (f := fun p => (r, p)) h2)
        · refine Or.inr ⟨he', Or.inr ?_⟩
          simp only [step, St.flushVisit, hf]
          split
          · exact ⟨todo, _, rfl, by simp [hm, Ne.symm hb]⟩
          · exact ⟨todo, need, hf, hm⟩
    | flushNext =>
      refine Or.inr ⟨he', ?_⟩
      rcases hw with ⟨todo, cur, hf, hm⟩ | ⟨todo, need, hf, hm⟩
      · left
        cases cur with
        | none => exact ⟨todo, none, by simp only [step, St.flushNext, hf], hm⟩
        | some y =>
          obtain ⟨r', m', need⟩ := y
          cases need with
          | nil => exact ⟨todo, none, by simp only [step, St.flushNext, hf], hm⟩
          | cons z need => exact ⟨todo, some (r', m', z :: need), by simp only [step, St.flushNext, hf], hm⟩
      · right
        cases need with
        | nil => simp at hm
        | cons z need => exact ⟨todo, _, by simp only [step, St.flushNext, hf], hm⟩
    | flushEnd =>
      refine same ?_
      simp only [step, St.flushEnd]
      rcases hw with ⟨todo, cur, hf, hm⟩ | ⟨todo, need, hf, hm⟩
      · cases todo with
        | nil => simp at hm
        | cons z todo => simp only [hf]
      · simp only [hf]

/-- A flush to a head delivers every point that is kept when it starts, of every round that is not yet open for direct
delivery, is not below the bottom and is in the DAG: once the flush is over, the point is in the DAG for good. Calls and
clean-ups may run at the same time. -/
theorem flush_delivers (c : Conf) (ops later : List Op) (h : Head) (r : Nat) (i : Item) (a : Nat) (p : Pt)
    (hno : (run c ops).flush = none) (hi : get (run c ops).rounds r = some i) (hopen : i.flagged = false)
    (hb : h.bottom ≤ r) (hd : h.has r = true)
    (hp : firstBy (log c ops r) a = some p ∨ forkBy (log c ops r) a = some p) (hg : p.well = true ∨ p.full = true)
    (hover : (run c (ops ++ .flushStart h :: later)).flush = none) :
    (r, p) ∈ (run c (ops ++ .flushStart h :: later)).dag := by
  have g := agrees_run c ops
  have hstart : Waits (run c (ops ++ [.flushStart h])) r i.map a p := by
    rw [run_snoc]
    right
    have hk : get ((run c ops).rounds.filter (fun e => !outdated h e.1 e.2)) r = some i := by
      rw [get_filter_rounds _ g.uniq, hi]
      simp [outdated, hopen, hb]
    refine ⟨?_, Or.inl ?_⟩
    · have hm : (step c (run c ops) (.flushStart h)).maps = (run c ops).maps := by
        simp only [step, St.flushStart, hno]
      rw [hm]
      have hx := kept_exact c ops r i hi a
      cases he : get ((run c ops).maps i.map) a with
      | none => rw [he] at hx; simp only [Option.map_none, Option.bind_none] at hx
                rcases hp with hp | hp
                · rw [← hx.1] at hp; cases hp
                · rw [← hx.2] at hp; cases hp
      | some e =>
        refine ⟨e, rfl, ?_⟩
        rw [he] at hx
        simp only [Option.map_some, Option.bind_some] at hx
        rw [mem_items]
        refine ⟨?_, (goes_iff p).mpr hg⟩
        rcases hp with hp | hp
        · rw [← hx.1] at hp; left; exact (Option.some.inj hp).symm
        · rw [← hx.2] at hp
          right
          cases hf : e.fork with
          | none => rw [hf] at hp; cases hp
          | some f => rw [hf] at hp; exact ⟨f, rfl, (Option.some.inj hp).symm⟩
    · simp only [step, St.flushStart, hno]
      refine ⟨_, _, rfl, ?_⟩
      rw [toFlush_mem h _ (uniq_filter _ g.uniq _)]
      refine ⟨i, hk, rfl, ?_, hd⟩
      unfold Head.has at hd; simp only [decide_eq_true_eq] at hd; exact hd.2
  have hall : ∀ (l : List Op) (s : St), Waits s r i.map a p → Waits (l.foldl (step c) s) r i.map a p := by
    intro l
    induction l with
    | nil => intro s h; exact h
    | cons o l ih => intro s h; exact ih _ (waits_step c s o _ _ _ _ h)
  have e : run c (ops ++ .flushStart h :: later) = later.foldl (step c) (run c (ops ++ [.flushStart h])) := by
    simp [run, List.foldl_append]
  have := hall later _ hstart
  rw [← e] at this
  rcases this with h1 | ⟨_, ⟨todo, cur, hf, _⟩ | ⟨todo, need, hf, _⟩⟩
  · exact h1
  · rw [hover] at hf; cases hf
  · rw [hover] at hf; cases hf

end Tycho.BcastFilter
