import Verif.Bans.Spec
import Verif.Bans.Hist
import Mathlib.Tactic.ByContra
/-!
A sound journal, and what a start reads from it.
-/
namespace Tycho.Bans
open Tycho.Table (Table get put del get_put get_del)

/-- Lifts the ban of the peer. -/
def Rec.lifts (r : Rec) (p : Nat) : Prop := r.peer = p ∧ r.kind = .unbanned

/-- Somewhere in the list the peer is banned, before any record that lifts its bans. -/
def Promised (l : List Rec) (p til : Nat) : Prop :=
  ∃ l1 r l2, l = l1 ++ r :: l2 ∧ r.peer = p ∧ r.kind = .banned til ∧ ∀ x ∈ l1, ¬ x.lifts p

/-- A sound journal: its keys go up, bans end in time, an event that was too much is followed by its ban. -/
structure Jok (cfg : Config) (j : List Rec) : Prop where
  up : Up (j.map (·.key))
  inTime : ∀ r ∈ j, ∀ u, r.kind = .banned u → u ≤ r.key.1 + cfg.ttl
  due : ∀ a e b tag, j = a ++ e :: b → e.kind = .event tag → tooMany (cfg.of tag) (eventsOf (a ++ [e]) e.peer tag) e.key.1 →
    Promised b e.peer (e.key.1 + (cfg.of tag).dur)

/-- What `validate` sees to, config.rs:36-48, 96-115, and that `max_duration` is. -/
structure Valid (cfg : Config) : Prop where
  pos : ∀ tag, 0 < (cfg.of tag).dur
  durLe : ∀ tag, (cfg.of tag).dur ≤ cfg.maxDur
  tolLe : ∀ tag w n, (cfg.of tag).tol = some (w, n) → (cfg.of tag).dur + w ≤ cfg.maxDur
  ttl : cfg.maxDur ≤ cfg.ttl

theorem eventsOf_snoc (j : List Rec) (r : Rec) (p tag : Nat) :
    eventsOf (j ++ [r]) p tag = if r.peer = p ∧ r.kind = .event tag then eventsOf j p tag ++ [r.key] else eventsOf j p tag := by
  unfold eventsOf
  by_cases h : r.peer = p ∧ r.kind = .event tag
  · simp [h]
  · rw [if_neg h]
    simp only [List.filter_append, List.map_append]
    rw [List.filter_cons_of_neg (by simpa using h)]
    simp

theorem banNow_snoc (st : Nat) (j : List Rec) (r : Rec) (p : Nat) : banNow st (j ++ [r]) p = banStep st p (banNow st j p) r := by
  simp [banNow]

theorem eventsOf_up {j : List Rec} (h : Up (j.map (·.key))) (p tag : Nat) : Up (eventsOf j p tag) := by
  unfold eventsOf
  exact h.sublist (List.filter_sublist.map _)

theorem mem_eventsOf {j : List Rec} {p tag : Nat} {k : Key} (h : k ∈ eventsOf j p tag) :
    ∃ r ∈ j, r.key = k ∧ r.peer = p ∧ r.kind = .event tag := by
  unfold eventsOf at h
  obtain ⟨r, hr, e⟩ := List.mem_map.1 h
  have := List.mem_filter.1 hr
  exact ⟨r, this.1, e, by simpa using this.2⟩

theorem tooMany_of_over (c : Conf) (es : List Key) (b t : Nat) (h : over c es (bound c b t) = true) : tooMany c es t := by
  intro w n hc
  simp only [over, bound, hc, decide_eq_true_eq] at h
  refine Nat.lt_of_lt_of_le h ?_
  rw [← filter_filter_max, List.filter_filter]
  have : (fun x : Key => decide (t - w ≤ x.1) && decide (b ≤ x.1)) = fun x => decide (b ≤ x.1) && decide (t - w ≤ x.1) := by
    funext x; rw [Bool.and_comm]
  rw [this, ← List.filter_filter]
  exact (List.filter_sublist).length_le

theorem over_of_tooMany (c : Conf) (es : List Key) (b t : Nat) (hb : ∀ w n, c.tol = some (w, n) → b ≤ t - w) (h : tooMany c es t) :
    over c es (bound c b t) = true := by
  cases hc : c.tol with
  | none => simp [over, hc]
  | some wn =>
    obtain ⟨w, n⟩ := wn
    simp only [over, bound, hc, decide_eq_true_eq]
    have h1 := h w n hc
    rwa [Nat.max_eq_right (hb w n hc)]

/-- What the loop of a start knows after a part of the journal, with the rest still to come. -/
structure RI (cfg : Config) (st : Nat) (a b : List Rec) (x : Restored) : Prop where
  good : x.bad = false
  temp : ∀ p, match get x.temp p with
    | none => banNow st a p = none
    | some (.stored v) => banNow st a p = some v
    | some (.new v) => (∀ u, banNow st a p = some u → u < v) ∧ st < v ∧ Promised b p v
  live : ∀ p u, banNow st a p = some u → st < u
  hist : ∀ p tag, ∃ B, HistOk (cfg.of tag) (eventsOf a p tag) B ((get x.hist (p, tag)).getD ⟨none, []⟩) ∧
    (∀ l, ((get x.hist (p, tag)).getD ⟨none, []⟩).last = some l → ∃ k ∈ eventsOf a p tag, k.1 = l) ∧
    st - cfg.maxDur ≤ B ∧
    (B = st - cfg.maxDur ∨ ∃ k ∈ eventsOf a p tag, ∃ w n, (cfg.of tag).tol = some (w, n) ∧ B ≤ k.1 - w)

theorem promised_cons {r : Rec} {b : List Rec} {p v : Nat} (h : Promised (r :: b) p v) (hne : ¬ (r.peer = p ∧ r.kind = .banned v)) :
    ¬ r.lifts p ∧ Promised b p v := by
  obtain ⟨l1, q, l2, e, h1, h2, h3⟩ := h
  cases l1 with
  | nil =>
    simp only [List.nil_append, List.cons.injEq] at e
    obtain ⟨rfl, _⟩ := e
    exact absurd ⟨h1, h2⟩ hne
  | cons y l1 =>
    simp only [List.cons_append, List.cons.injEq] at e
    obtain ⟨rfl, rfl⟩ := e
    exact ⟨h3 r (by simp), l1, q, l2, rfl, h1, h2, fun z hz => h3 z (by simp [hz])⟩

theorem histOk_skip (c : Conf) (es : List Key) (B : Nat) (h : Hist) (k : Key) (hk : k.1 < B) (ok : HistOk c es B h) :
    HistOk c (es ++ [k]) B h := by
  unfold HistOk at *
  cases hc : c.tol with
  | none => trivial
  | some wn =>
    simp only [hc] at ok ⊢
    rw [ok, List.filter_append, List.filter_cons_of_neg (by simp; omega)]
    simp

/-- A record that is not read: an old event. -/
theorem ri_skip {cfg : Config} {st : Nat} {a b : List Rec} {x : Restored} {r : Rec} (w : RI cfg st a (r :: b) x) (tag : Nat)
    (hr : r.kind = .event tag) (hk : r.key.1 < st - cfg.maxDur) : RI cfg st (a ++ [r]) b x := by
  have hb : ∀ p, banNow st (a ++ [r]) p = banNow st a p := by
    intro p
    rw [banNow_snoc]; unfold banStep; simp [hr]
  refine ⟨w.good, ?_, ?_, ?_⟩
  · intro p
    have := w.temp p
    rw [hb]
    cases hg : get x.temp p with
    | none => simpa only [hg] using this
    | some t =>
      cases t with
      | stored v => simpa only [hg] using this
      | new v =>
        simp only [hg] at this ⊢
        exact ⟨this.1, this.2.1, (promised_cons this.2.2 (by simp [hr])).2⟩
  · intro p u h
    rw [hb] at h
    exact w.live p u h
  · intro p tg
    obtain ⟨B, h1, h2, h3, h4⟩ := w.hist p tg
    rw [eventsOf_snoc]
    by_cases hc : r.peer = p ∧ r.kind = .event tg
    · rw [if_pos hc]
      refine ⟨B, histOk_skip _ _ _ _ _ (by omega) h1, ?_, h3, ?_⟩
      · intro l hl
        obtain ⟨k, hk, e⟩ := h2 l hl
        exact ⟨k, by simp [hk], e⟩
      · rcases h4 with h4 | ⟨k, hk, rest⟩
        · exact Or.inl h4
        · exact Or.inr ⟨k, by simp [hk], rest⟩
    · rw [if_neg hc]; exact ⟨B, h1, h2, h3, h4⟩

theorem ri_hist_same {cfg : Config} {st : Nat} {a b : List Rec} {x : Restored} {r : Rec} (w : RI cfg st a (r :: b) x)
    (hr : ∀ tag, r.kind ≠ .event tag) (p tag : Nat) :
    ∃ B, HistOk (cfg.of tag) (eventsOf (a ++ [r]) p tag) B ((get x.hist (p, tag)).getD ⟨none, []⟩) ∧
    (∀ l, ((get x.hist (p, tag)).getD ⟨none, []⟩).last = some l → ∃ k ∈ eventsOf (a ++ [r]) p tag, k.1 = l) ∧
    st - cfg.maxDur ≤ B ∧
    (B = st - cfg.maxDur ∨ ∃ k ∈ eventsOf (a ++ [r]) p tag, ∃ w n, (cfg.of tag).tol = some (w, n) ∧ B ≤ k.1 - w) := by
  rw [eventsOf_snoc, if_neg (by intro h; exact hr tag h.2)]
  exact w.hist p tag

/-- The temporary bans after a record, if that of its peer is right. -/
theorem ri_temp {cfg : Config} {st : Nat} {a b : List Rec} {x : Restored} {r : Rec} (w : RI cfg st a (r :: b) x) (y : Restored)
    (hy : ∀ p, p ≠ r.peer → get y.temp p = get x.temp p)
    (h : match get y.temp r.peer with
      | none => banNow st (a ++ [r]) r.peer = none
      | some (.stored v) => banNow st (a ++ [r]) r.peer = some v
      | some (.new v) => (∀ u, banNow st (a ++ [r]) r.peer = some u → u < v) ∧ st < v ∧ Promised b r.peer v) (p : Nat) :
    match get y.temp p with
      | none => banNow st (a ++ [r]) p = none
      | some (.stored v) => banNow st (a ++ [r]) p = some v
      | some (.new v) => (∀ u, banNow st (a ++ [r]) p = some u → u < v) ∧ st < v ∧ Promised b p v := by
  by_cases hp : p = r.peer
  · subst hp; exact h
  · rw [hy p hp]
    have hb : banNow st (a ++ [r]) p = banNow st a p := by
      rw [banNow_snoc]; unfold banStep; rw [if_neg (fun e => hp e.symm)]
    rw [hb]
    have := w.temp p
    cases hg : get x.temp p with
    | none => simpa only [hg] using this
    | some t =>
      cases t with
      | stored v => simpa only [hg] using this
      | new v =>
        simp only [hg] at this ⊢
        exact ⟨this.1, this.2.1, (promised_cons this.2.2 (fun h => hp h.1.symm)).2⟩

theorem ri_live {cfg : Config} {st : Nat} {a b : List Rec} {x : Restored} {r : Rec} (w : RI cfg st a (r :: b) x) (p u : Nat)
    (h : banNow st (a ++ [r]) p = some u) : st < u := by
  rw [banNow_snoc] at h
  unfold banStep at h
  split at h
  · split at h
    · split at h
      · simp only [Option.some.injEq] at h; omega
      · exact w.live p u h
    · cases h
    · exact w.live p u h
  · exact w.live p u h

/-- A record that is read. -/
theorem ri_step {cfg : Config} {st : Nat} {a b : List Rec} {x : Restored} {r : Rec} (j : Jok cfg (a ++ r :: b))
    (w : RI cfg st a (r :: b) x) (hk : ∀ tag, r.kind = .event tag → st - cfg.maxDur ≤ r.key.1) :
    RI cfg st (a ++ [r]) b (restoreStep cfg st x r) := by
  have hup : Up ((a ++ [r]).map (·.key)) := j.up.sublist ((List.Sublist.map _ (by
    rw [show a ++ r :: b = (a ++ [r]) ++ b by simp]; exact List.sublist_append_left _ _)))
  have hbefore : ∀ y ∈ a, y.key.1 ≤ r.key.1 := by
    intro y hy
    rw [List.map_append] at hup
    exact klt_fst ((List.pairwise_append.1 hup).2.2 y.key (List.mem_map_of_mem hy) r.key (by simp))
  have htr := w.temp r.peer
  cases hkind : r.kind with
  | unbanned =>
    have hb : banNow st (a ++ [r]) r.peer = none := by rw [banNow_snoc]; simp [banStep, hkind]
    simp only [restoreStep, hkind]
    refine ⟨w.good, ?_, fun p u h => ri_live w p u h, fun p tag => ri_hist_same w (by simp [hkind]) p tag⟩
    apply ri_temp w
    · intro p hp; simp [get_del, hp]
    · simp [get_del, hb]
  | banned til =>
    have hb : banNow st (a ++ [r]) r.peer = if st < til then some (max ((banNow st a r.peer).getD 0) til) else banNow st a r.peer := by
      rw [banNow_snoc]; simp [banStep, hkind]
    simp only [restoreStep, hkind]
    split
    · rename_i hc
      refine ⟨w.good, ?_, fun p u h => ri_live w p u h, fun p tag => ri_hist_same w (by simp [hkind]) p tag⟩
      apply ri_temp w
      · intro p hp; simp [get_put, hp]
      · simp only [get_put, if_true]
        rw [hb, if_pos hc.1]
        cases hg : get x.temp r.peer with
        | none => simp only [hg] at htr; simp [htr]
        | some t =>
          cases t with
          | stored v =>
            simp only [hg] at htr
            have hc2 : v ≤ til := by have h := hc.2; rw [hg] at h; exact of_decide_eq_true h
            rw [htr, Option.getD_some, Nat.max_eq_right hc2]
          | new v =>
            simp only [hg] at htr
            have hc2 : v ≤ til := by have h := hc.2; rw [hg] at h; exact of_decide_eq_true h
            cases hn : banNow st a r.peer with
            | none => simp
            | some u => have := htr.1 u hn; rw [Option.getD_some, Nat.max_eq_right (by omega)]
    · rename_i hc
      have hc2 : ∀ v, get x.temp r.peer = some v → st < til → til < v.til := by
        intro v hg hs
        by_contra hne
        exact hc ⟨hs, by rw [hg]; exact decide_eq_true (show v.til ≤ til by omega)⟩
      refine ⟨w.good, ?_, fun p u h => ri_live w p u h, fun p tag => ri_hist_same w (by simp [hkind]) p tag⟩
      apply ri_temp w
      · intro p hp; rfl
      · rw [hb]
        cases hg : get x.temp r.peer with
        | none =>
          simp only [hg] at htr
          have : ¬ st < til := fun hs => hc ⟨hs, by rw [hg]; rfl⟩
          simp only [if_neg this]
          exact htr
        | some t =>
          cases t with
          | stored v =>
            simp only [hg] at htr ⊢
            by_cases hs : st < til
            · have := hc2 _ hg hs
              simp only [Temp.til] at this
              rw [if_pos hs, htr, Option.getD_some, Nat.max_eq_left (by omega)]
            · rw [if_neg hs]; exact htr
          | new v =>
            simp only [hg] at htr ⊢
            have hne : til ≠ v := by
              intro e
              have := hc2 _ hg (by rw [e]; exact htr.2.1)
              simp only [Temp.til] at this
              omega
            refine ⟨?_, htr.2.1, (promised_cons htr.2.2 (by rw [hkind]; intro h; exact hne (by simpa using h.2))).2⟩
            intro u hu
            by_cases hs : st < til
            · have := hc2 _ hg hs
              simp only [Temp.til] at this
              rw [if_pos hs] at hu
              simp only [Option.some.injEq] at hu
              cases hn : banNow st a r.peer with
              | none => rw [hn, Option.getD_none] at hu; omega
              | some u2 => have := htr.1 u2 hn; rw [hn, Option.getD_some] at hu; omega
            · rw [if_neg hs] at hu
              exact htr.1 u hu
  | event tag =>
    have hb : banNow st (a ++ [r]) r.peer = banNow st a r.peer := by rw [banNow_snoc]; simp [banStep, hkind]
    obtain ⟨B, h1, h2, h3, h4⟩ := w.hist r.peer tag
    have hes : eventsOf (a ++ [r]) r.peer tag = eventsOf a r.peer tag ++ [r.key] := by rw [eventsOf_snoc, if_pos ⟨rfl, hkind⟩]
    have hkb : ∀ k ∈ eventsOf a r.peer tag, k.1 ≤ r.key.1 := by
      intro k hk
      obtain ⟨y, hy, e, _⟩ := mem_eventsOf hk
      rw [← e]; exact hbefore y hy
    obtain ⟨h', e1, e2, e3⟩ := maybeBan_ok (cfg.of tag) (eventsOf a r.peer tag) B _ r.key h1 (by rw [← hes]; exact eventsOf_up hup _ _)
      (by
        generalize hl : ((get x.hist (r.peer, tag)).getD ⟨none, []⟩).last = l
        cases l with
        | none => exact Nat.le_refl _
        | some l =>
          obtain ⟨k, hk, e⟩ := h2 l hl
          rw [Option.getD_some, ← e]; exact hkb k hk)
      (by
        rcases h4 with h4 | ⟨k, hk2, w, n, _, h5⟩
        · rw [h4]; exact hk tag hkind
        · have := hkb k hk2; omega)
    have hist : ∀ y : Restored, y.hist = put x.hist (r.peer, tag) h' → ∀ p tg, ∃ B, HistOk (cfg.of tg) (eventsOf (a ++ [r]) p tg) B ((get y.hist (p, tg)).getD ⟨none, []⟩) ∧
        (∀ l, ((get y.hist (p, tg)).getD ⟨none, []⟩).last = some l → ∃ k ∈ eventsOf (a ++ [r]) p tg, k.1 = l) ∧
        st - cfg.maxDur ≤ B ∧
        (B = st - cfg.maxDur ∨ ∃ k ∈ eventsOf (a ++ [r]) p tg, ∃ w n, (cfg.of tg).tol = some (w, n) ∧ B ≤ k.1 - w) := by
      intro y hy p tg
      rw [hy]
      by_cases hpt : p = r.peer ∧ tg = tag
      · obtain ⟨rfl, rfl⟩ := hpt
        rw [get_put, if_pos rfl, Option.getD_some, hes]
        refine ⟨bound (cfg.of tg) B r.key.1, e3, ?_, ?_, ?_⟩
        · intro l hl
          rw [e2] at hl
          exact ⟨r.key, by simp, by simpa using hl⟩
        · unfold bound; split <;> omega
        · unfold bound
          split
          · rcases h4 with h4 | ⟨k, hk, _, _, hc, _⟩
            · exact Or.inl h4
            · simp_all
          · rename_i w n hc
            by_cases hle : r.key.1 - w ≤ B
            · rw [Nat.max_eq_left hle]
              rcases h4 with h4 | ⟨k, hk, w', n', hc', h5⟩
              · exact Or.inl h4
              · exact Or.inr ⟨k, by simp [hk], w', n', hc', h5⟩
            · exact Or.inr ⟨r.key, by simp, w, n, hc, by omega⟩
      · rw [get_put, if_neg (by intro h; exact hpt (by simpa using h)), eventsOf_snoc, if_neg (by
          intro h
          rw [hkind] at h
          exact hpt ⟨h.1.symm, by simpa using h.2.symm⟩)]
        exact w.hist p tg
    have same : ∀ y : Restored, y.temp = x.temp → match get y.temp r.peer with
      | none => banNow st (a ++ [r]) r.peer = none
      | some (.stored v) => banNow st (a ++ [r]) r.peer = some v
      | some (.new v) => (∀ u, banNow st (a ++ [r]) r.peer = some u → u < v) ∧ st < v ∧ Promised b r.peer v := by
      intro y hy
      rw [hy, hb]
      cases hg : get x.temp r.peer with
      | none => simpa only [hg] using htr
      | some t =>
        cases t with
        | stored v => simpa only [hg] using htr
        | new v =>
          simp only [hg] at htr ⊢
          exact ⟨htr.1, htr.2.1, (promised_cons htr.2.2 (by simp [hkind])).2⟩
    simp only [restoreStep, hkind, e1]
    split
    · rename_i heq; cases heq
    · rename_i h heq
      simp only [Option.some.injEq, Prod.mk.injEq] at heq
      obtain ⟨rfl, _⟩ := heq
      refine ⟨w.good, ?_, fun p u h => ri_live w p u h, hist _ rfl⟩
      exact ri_temp w _ (fun p hp => rfl) (same _ rfl)
    · rename_i h til heq
      simp only [Option.some.injEq, Prod.mk.injEq] at heq
      obtain ⟨rfl, hov⟩ := heq
      have hov2 : over (cfg.of tag) (eventsOf a r.peer tag ++ [r.key]) (bound (cfg.of tag) B r.key.1) = true ∧ til = r.key.1 + (cfg.of tag).dur := by
        split at hov
        · rename_i ho; exact ⟨ho, by simpa using hov.symm⟩
        · cases hov
      split
      · rename_i hc
        refine ⟨w.good, ?_, fun p u h => ri_live w p u h, hist _ rfl⟩
        apply ri_temp w
        · intro p hp; simp [get_put, hp]
        · simp only [get_put, if_true]
          refine ⟨?_, hc.1, ?_⟩
          · rw [hb]
            intro u hu
            cases hg : get x.temp r.peer with
            | none => simp only [hg] at htr; rw [htr] at hu; cases hu
            | some t =>
              cases t with
              | stored v =>
                simp only [hg] at htr
                have hc2 : v < til := by have h := hc.2; rw [hg] at h; exact of_decide_eq_true h
                rw [htr] at hu; simp only [Option.some.injEq] at hu; omega
              | new v =>
                simp only [hg] at htr
                have hc2 : v < til := by have h := hc.2; rw [hg] at h; exact of_decide_eq_true h
                have := htr.1 u hu; omega
          · rw [hov2.2]
            exact j.due a r b tag rfl hkind (by rw [hes]; exact tooMany_of_over _ _ _ _ hov2.1)
      · refine ⟨w.good, ?_, fun p u h => ri_live w p u h, hist _ rfl⟩
        exact ri_temp w _ (fun p hp => rfl) (same _ rfl)

end Tycho.Bans
