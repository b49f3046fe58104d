import Verif.BcastFilter.Entry
import Mathlib.Data.List.Induction
/-! The cached rounds against the points heard. -/
namespace Tycho.BcastFilter
open Tycho.Table (Table get put del get_put get_del)

/-- Cached rounds agree with the points heard for them. -/
structure Agrees (s : St) (L : Nat → List Pt) : Prop where
  entries : ∀ r i, get s.rounds r = some i → ∀ a, get (s.maps i.map) a = entryOf (L r) a
  count : ∀ r i, get s.rounds r = some i → i.count = (goodAuthors (L r)).card
  apart : ∀ r r' i i', get s.rounds r = some i → get s.rounds r' = some i' → i.map = i'.map → r = r'
  old : ∀ r i, get s.rounds r = some i → i.map < s.fresh
  empty : ∀ m, s.fresh ≤ m → s.maps m = []
  none : ∀ r, get s.rounds r = none → L r = []
  uniq : Table.Uniq s.rounds

theorem good_nil : (goodAuthors []).card = 0 := by simp [goodAuthors]

theorem entryOf_nil (a : Nat) : entryOf [] a = none := rfl

theorem lookup_some (s : St) (L : Nat → List Pt) (g : Agrees s L) (h : Head) (round minority : Nat) (i : Item) (f : Nat)
    (hl : s.lookup h round minority = some (i, f)) :
    (∀ a, get (s.maps i.map) a = entryOf (L round) a) ∧ i.count = (goodAuthors (L round)).card ∧ i.map < f ∧
      s.fresh ≤ f ∧ (∀ r' i', get s.rounds r' = some i' → i'.map = i.map → r' = round) := by
  unfold St.lookup at hl
  split at hl
  · rename_i j hj
    cases hl
    exact ⟨g.entries _ _ hj, g.count _ _ hj, g.old _ _ hj, Nat.le_refl _, fun r' i' h1 h2 => g.apart _ _ _ _ h1 hj h2⟩
  · rename_i hj
    split at hl
    · cases hl
    · cases hl
      rw [g.none _ hj]
      refine ⟨fun a => ?_, ?_, by simp, by simp, fun r' i' h1 h2 => ?_⟩
      · rw [g.empty _ (Nat.le_refl _), entryOf_nil]; rfl
      · simp [good_nil]
      · have := g.old _ _ h1; simp only at h2; omega

/-- The state after a call that found or made the round. -/
theorem cache_found (s : St) (h : Head) (round : Nat) (p : Pt) (ev : Bool) (mn : Nat) (i : Item) (f : Nat)
    (hb : ¬ round < h.bottom) (hl : s.lookup h round mn = some (i, f)) :
    s.cache h round p ev mn =
      ({ s with
          rounds := put s.rounds round { i with count := if (entry (get (s.maps i.map) p.author) p).2.1 && p.well
            then i.count + 1 else i.count },
          maps := fun m => if m = i.map then put (s.maps m) p.author (entry (get (s.maps i.map) p.author) p).1 else s.maps m,
          fresh := f,
          pending := s.pending ++ owed (i.flagged || (decide (round ≤ h.next) && h.has round)) round p },
        ⟨((entry (get (s.maps i.map) p.author) p).2.1 && p.well) &&
            reached h round i.minority (if (entry (get (s.maps i.map) p.author) p).2.1 && p.well
              then i.count + 1 else i.count) ev,
          (entry (get (s.maps i.map) p.author) p).2.2.1, (entry (get (s.maps i.map) p.author) p).2.2.2⟩) := by
  unfold St.cache
  rw [if_neg hb, hl]

theorem cache_agrees (s : St) (L : Nat → List Pt) (g : Agrees s L) (h : Head) (round : Nat) (p : Pt) (ev : Bool) (mn : Nat)
    (hb : ¬ round < h.bottom) :
    Agrees (s.cache h round p ev mn).1 (fun r => match get (s.cache h round p ev mn).1.rounds r with
      | Option.none => []
      | some _ => if round = r then L r ++ [p] else L r) := by
  cases hl : s.lookup h round mn with
  | none =>
    have hn : get s.rounds round = none := by
      unfold St.lookup at hl; split at hl
      · cases hl
      · assumption
    have e : (s.cache h round p ev mn).1 = { s with pending := s.pending ++ owed (h.has round) round p } := by
      unfold St.cache; rw [if_neg hb, hl]
    rw [e]
    have hL : (fun r => match get s.rounds r with
      | Option.none => []
      | some _ => if round = r then L r ++ [p] else L r) = L := by
      funext r
      split
      · rename_i hr; exact (g.none r hr).symm
      · rename_i hr
        rw [if_neg]
        rintro rfl; rw [hn] at hr; cases hr
    show Agrees _ (fun r => match get s.rounds r with
      | Option.none => []
      | some _ => if round = r then L r ++ [p] else L r)
    rw [hL]
    exact ⟨g.entries, g.count, g.apart, g.old, g.empty, g.none, g.uniq⟩
  | some x =>
    obtain ⟨i, f⟩ := x
    obtain ⟨l1, l2, l3, l4, l5⟩ := lookup_some s L g h round mn i f hl
    rw [cache_found s h round p ev mn i f hb hl]
    constructor
    · intro r j hj a
      simp only [get_put] at hj ⊢
      by_cases hr : r = round
      · subst hr
        rw [if_pos rfl] at hj; cases hj
        simp only [if_true, get_put]
        rw [l1]
        by_cases ha : a = p.author
        · subst ha
          rw [if_pos rfl]
          obtain ⟨e1, e2⟩ := entry_step (L r) p
          cases he : entryOf (L r ++ [p]) p.author with
          | none => exact absurd he e2
          | some e => rw [he] at e1; simp only [Option.getD_some] at e1; rw [e1]
        · rw [if_neg ha, entryOf_other _ _ _ (fun hh => ha hh.symm), l1]
      · rw [if_neg hr] at hj
        have hm : ¬ j.map = i.map := fun hh => hr (l5 r j hj hh)
        simp only [if_neg hr, if_neg hm, hj]
        rw [if_neg (fun hh => hr hh.symm)]
        exact g.entries _ _ hj a
    · intro r j hj
      simp only [get_put] at hj ⊢
      by_cases hr : r = round
      · subst hr
        rw [if_pos rfl] at hj; cases hj
        simp only [if_true]
        rw [count_step, l1, l2]
      · rw [if_neg hr] at hj
        simp only [if_neg hr, hj]
        rw [if_neg (fun hh => hr hh.symm)]
        exact g.count _ _ hj
    · intro r r' j j' hj hj' hm
      simp only [get_put] at hj hj'
      by_cases hr : r = round <;> by_cases hr' : r' = round
      · rw [hr, hr']
      · rw [if_pos hr] at hj; rw [if_neg hr'] at hj'; cases hj
        exact absurd (l5 r' j' hj' hm.symm) hr'
      · rw [if_neg hr] at hj; rw [if_pos hr'] at hj'; cases hj'
        exact absurd (l5 r j hj hm) hr
      · rw [if_neg hr] at hj; rw [if_neg hr'] at hj'
        exact g.apart _ _ _ _ hj hj' hm
    · intro r j hj
      simp only [get_put] at hj ⊢
      by_cases hr : r = round
      · rw [if_pos hr] at hj; cases hj; exact l3
      · rw [if_neg hr] at hj; have := g.old _ _ hj; omega
    · intro m hm
      simp only at hm ⊢
      rw [if_neg (by omega)]
      exact g.empty m (by omega)
    · intro r hr; rw [hr]
    · exact Table.uniq_put _ _ _ g.uniq

theorem agrees_same {s t : St} {L : Nat → List Pt} (g : Agrees s L) (h1 : t.rounds = s.rounds) (h2 : t.maps = s.maps)
    (h3 : t.fresh = s.fresh) : Agrees t L :=
  ⟨by rw [h1, h2]; exact g.entries, by rw [h1]; exact g.count, by rw [h1]; exact g.apart, by rw [h1, h3]; exact g.old,
    by rw [h2, h3]; exact g.empty, by rw [h1]; exact g.none, by rw [h1]; exact g.uniq⟩

/-- Some rounds are dropped. -/
theorem agrees_filter {s t : St} {L : Nat → List Pt} (g : Agrees s L)
    (h1 : ∀ r, get t.rounds r = get s.rounds r ∨ get t.rounds r = none) (h2 : t.maps = s.maps) (h3 : t.fresh = s.fresh)
    (hu : Table.Uniq t.rounds) :
    Agrees t (fun r => match get t.rounds r with | Option.none => [] | some _ => L r) := by
  have k : ∀ r i, get t.rounds r = some i → get s.rounds r = some i := by
    intro r i h
    rcases h1 r with h4 | h4
    · rw [← h4]; exact h
    · rw [h4] at h; cases h
  constructor
  · intro r i h a; simp only [h]; rw [h2]; exact g.entries r i (k r i h) a
  · intro r i h; simp only [h]; exact g.count r i (k r i h)
  · intro r r' i i' h h'; exact g.apart r r' i i' (k _ _ h) (k _ _ h')
  · intro r i h; rw [h3]; exact g.old r i (k _ _ h)
  · intro m hm; rw [h2]; exact g.empty m (h3 ▸ hm)
  · intro r h; simp only [h]
  · exact hu

/-- The log of a step that hears nothing and keeps all rounds. -/
theorem log_id {s : St} {L : Nat → List Pt} (g : Agrees s L) :
    (fun r => match get s.rounds r with | Option.none => [] | some _ => L r) = L := by
  funext r
  split
  · rename_i h; exact (g.none r h).symm
  · rfl

theorem get_filter_rounds (t : Table Nat Item) (hu : Table.Uniq t) (f : Nat × Item → Bool) (r : Nat) :
    get (t.filter f) r = match get t r with
      | some i => if f (r, i) then some i else none
      | none => none := by
  induction t with
  | nil => rfl
  | cons e t ih =>
    have hu' : Table.Uniq t := by unfold Table.Uniq at *; exact (List.nodup_cons.mp hu).2
    have hn : e.1 ∉ t.map (·.1) := by unfold Table.Uniq at hu; exact (List.nodup_cons.mp hu).1
    have hget : get t e.1 = none := by
      cases hx : get t e.1 with
      | none => rfl
      | some v => exact absurd (List.mem_map_of_mem (f := (·.1)) (Table.mem_of_get t _ _ hx)) hn
    by_cases hk : e.1 = r
    · subst hk
      have h1 : get (e :: t) e.1 = some e.2 := by simp [Table.get]
      rw [h1]
      by_cases hf : f e
      · rw [List.filter_cons_of_pos hf]; simp [Table.get, hf]
      · rw [List.filter_cons_of_neg hf, ih hu', hget]; simp [hf]
    · have h1 : get (e :: t) r = get t r := by simp [Table.get, hk]
      rw [h1, ← ih hu']
      by_cases hf : f e
      · rw [List.filter_cons_of_pos hf]; simp [Table.get, hk]
      · rw [List.filter_cons_of_neg hf]

theorem uniq_filter (t : Table Nat Item) (hu : Table.Uniq t) (f : Nat × Item → Bool) : Table.Uniq (t.filter f) := by
  unfold Table.Uniq at *
  exact hu.sublist (List.filter_sublist.map _)

theorem step_agrees (c : Conf) (s : St) (L : Nat → List Pt) (g : Agrees s L) (o : Op) :
    Agrees (step c s o) (logStep c s L o) := by
  have same : ∀ t : St, t = step c s o → o.heard c.keep = none → t.rounds = s.rounds → t.maps = s.maps → t.fresh = s.fresh →
      Agrees (step c s o) (logStep c s L o) := by
    intro t ht hh h1 h2 h3
    have : logStep c s L o = L := by
      funext r; unfold logStep; rw [← ht, h1, hh]; simp only; split
      · rename_i hx; exact (g.none r hx).symm
      · rfl
    rw [this, ← ht]; exact agrees_same g h1 h2 h3
  cases o with
  | add h round author digest v ev mn =>
    have skip : (s.add c.keep h round author digest v ev mn).1 = s →
        (Op.add h round author digest v ev mn).heard c.keep = none →
        Agrees (step c s (.add h round author digest v ev mn)) (logStep c s L (.add h round author digest v ev mn)) :=
      fun h1 h2 => same s h1.symm h2 rfl rfl rfl
    have low : ∀ p m, round < h.bottom → (s.cache h round p ev m).1 = s := by
      intro p m hb; unfold St.cache; rw [if_pos hb]
    cases mn with
    | none => exact skip rfl rfl
    | some m =>
      by_cases hb : round < h.bottom
      · refine skip ?_ (by unfold Op.heard; simp [hb])
        unfold St.add; cases v <;> simp [low, hb]
      · cases v with
        | unknownAuthor => exact skip rfl (by unfold Op.heard; simp)
        | fail => exact skip rfl (by unfold Op.heard; simp)
        | ok =>
          have := cache_agrees s L g h round ⟨author, digest, true, !decide (round > h.next + c.keep)⟩ ev m hb
          have e : logStep c s L (.add h round author digest .ok ev (some m)) = fun r =>
              match get (s.cache h round ⟨author, digest, true, !decide (round > h.next + c.keep)⟩ ev m).1.rounds r with
              | Option.none => []
              | some _ => if round = r then L r ++ [⟨author, digest, true, !decide (round > h.next + c.keep)⟩] else L r := by
            funext r; unfold logStep Op.heard; simp only [hb, if_false]; rfl
          rw [e]; exact this
        | illFormed =>
          have := cache_agrees s L g h round ⟨author, digest, false, !decide (round > h.next + c.keep)⟩ ev m hb
          have e : logStep c s L (.add h round author digest .illFormed ev (some m)) = fun r =>
              match get (s.cache h round ⟨author, digest, false, !decide (round > h.next + c.keep)⟩ ev m).1.rounds r with
              | Option.none => []
              | some _ => if round = r then L r ++ [⟨author, digest, false, !decide (round > h.next + c.keep)⟩] else L r := by
            funext r; unfold logStep Op.heard; simp only [hb, if_false]; rfl
          rw [e]; exact this
  | deliver k =>
    refine same _ rfl rfl ?_ ?_ ?_ <;> (simp only [step, St.deliver]; split <;> rfl)
  | clean round h =>
    have := agrees_filter (t := s.clean c.keep c.total round h) g (fun r => by
      simp only [St.clean, get_del]; split
      · exact Or.inr rfl
      · exact Or.inl rfl) rfl rfl (Table.uniq_del s.rounds (fun r => decide (r < max h.bottom (round - c.total) ∨ r > round + c.keep)) g.uniq)
    exact this
  | flushStart h =>
    cases hf : s.flush with
    | some x => exact same s (by simp [step, St.flushStart, hf]) rfl rfl rfl rfl
    | none =>
      have := agrees_filter (t := { s with rounds := s.rounds.filter (fun e => !outdated h e.1 e.2), flush := some ⟨toFlush h (s.rounds.filter (fun e => !outdated h e.1 e.2)), none⟩ }) g (fun r => by
        simp only [get_filter_rounds _ g.uniq]
        cases get s.rounds r with
        | none => exact Or.inl rfl
        | some i => simp only; split
                    · exact Or.inl rfl
                    · exact Or.inr rfl) rfl rfl (uniq_filter _ g.uniq _)
      have e : logStep c s L (.flushStart h) = fun r => match get (s.rounds.filter (fun e => !outdated h e.1 e.2)) r with | Option.none => [] | some _ => L r := by
        funext r; unfold logStep; simp only [step, St.flushStart, hf, Op.heard]
        rfl
      have e2 : step c s (.flushStart h) = { s with rounds := s.rounds.filter (fun e => !outdated h e.1 e.2), flush := some ⟨toFlush h (s.rounds.filter (fun e => !outdated h e.1 e.2)), none⟩ } := by
        simp only [step, St.flushStart, hf]
      rw [e, e2]; exact this
  | flushSet =>
    cases hf : s.flush with
    | none => exact same s (by simp [step, St.flushSet, hf]) rfl rfl rfl rfl
    | some x =>
      obtain ⟨todo, cur⟩ := x
      cases cur with
      | some y => exact same s (by simp only [step, St.flushSet, hf]) rfl rfl rfl rfl
      | none =>
        cases todo with
        | nil => exact same s (by simp only [step, St.flushSet, hf]) rfl rfl rfl rfl
        | cons z todo =>
          obtain ⟨r, m⟩ := z
          cases hr : get s.rounds r with
          | none =>
            refine same _ rfl rfl ?_ ?_ ?_ <;> simp only [step, St.flushSet, hf, hr]
          | some i =>
            have hk : ∀ q, get (step c s .flushSet).rounds q = if q = r then some { i with flagged := true } else get s.rounds q := by
              intro q; simp only [step, St.flushSet, hf, hr, get_put]
            have hm : (step c s .flushSet).maps = s.maps := by simp only [step, St.flushSet, hf, hr]
            have hfr : (step c s .flushSet).fresh = s.fresh := by simp only [step, St.flushSet, hf, hr]
            have e : logStep c s L .flushSet = L := by
              funext q; unfold logStep; rw [hk]
              simp only [Op.heard]
              by_cases hq : q = r
              · rw [if_pos hq]
              · rw [if_neg hq]
                split
                · rename_i hx; exact (g.none q hx).symm
                · rfl
            have back : ∀ q j, get (step c s .flushSet).rounds q = some j →
                ∃ j', get s.rounds q = some j' ∧ j.map = j'.map ∧ j.count = j'.count := by
              intro q j hj; rw [hk] at hj
              by_cases hq : q = r
              · rw [if_pos hq] at hj; cases hj; exact ⟨i, hq ▸ hr, rfl, rfl⟩
              · rw [if_neg hq] at hj; exact ⟨j, hj, rfl, rfl⟩
            rw [e]
            constructor
            · intro q j hj a; obtain ⟨j', h1, h2, h3⟩ := back q j hj; rw [hm, h2]; exact g.entries q j' h1 a
            · intro q j hj; obtain ⟨j', h1, h2, h3⟩ := back q j hj; rw [h3]; exact g.count q j' h1
            · intro q q' j j' hj hj' he
              obtain ⟨k, h1, h2, h3⟩ := back q j hj
              obtain ⟨k', h1', h2', h3'⟩ := back q' j' hj'
              exact g.apart q q' k k' h1 h1' (by rw [← h2, ← h2', he])
            · intro q j hj; obtain ⟨j', h1, h2, h3⟩ := back q j hj; rw [h2, hfr]; exact g.old q j' h1
            · intro k hk2; rw [hm]; exact g.empty k (hfr ▸ hk2)
            · intro q hq; rw [hk] at hq
              by_cases hqr : q = r
              · rw [if_pos hqr] at hq; cases hq
              · rw [if_neg hqr] at hq; exact g.none q hq
            · simp only [step, St.flushSet, hf, hr]; exact Table.uniq_put _ _ _ g.uniq
  | flushVisit a =>
    refine same _ rfl rfl ?_ ?_ ?_ <;>
      (simp only [step, St.flushVisit]; split
       · split <;> rfl
       · rfl)
  | flushNext => refine same _ rfl rfl ?_ ?_ ?_ <;> (simp only [step, St.flushNext]; split <;> rfl)
  | flushEnd => refine same _ rfl rfl ?_ ?_ ?_ <;> (simp only [step, St.flushEnd]; split <;> rfl)

theorem run_snoc (c : Conf) (ops : List Op) (o : Op) : run c (ops ++ [o]) = step c (run c ops) o := by simp [run]

theorem logAux_snoc (c : Conf) (ops : List Op) (o : Op) (s : St) (L : Nat → List Pt) :
    logAux c s L (ops ++ [o]) = logStep c (ops.foldl (step c) s) (logAux c s L ops) o := by
  induction ops generalizing s L with
  | nil => rfl
  | cons x ops ih => simp only [List.cons_append, logAux, List.foldl_cons]; exact ih _ _

theorem log_snoc (c : Conf) (ops : List Op) (o : Op) : log c (ops ++ [o]) = logStep c (run c ops) (log c ops) o :=
  logAux_snoc c ops o _ _

/-- Every reachable state agrees with the points heard. -/
theorem agrees_run (c : Conf) (ops : List Op) : Agrees (run c ops) (log c ops) := by
  induction ops using List.reverseRecOn with
  | nil =>
    refine ⟨?_, ?_, ?_, ?_, fun _ _ => rfl, fun _ _ => rfl, List.nodup_nil⟩ <;> (intros; simp_all [run, St.init, Table.get])
  | append_singleton ops o ih => rw [run_snoc, log_snoc]; exact step_agrees c _ _ ih o

end Tycho.BcastFilter
