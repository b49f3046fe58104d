import Verif.BcastFilter.Deliver
/-! Points that come while a round is flushed, and where deliveries come from. -/
namespace Tycho.BcastFilter
open Tycho.Table (Table get put del get_put get_del)

/-- The rounds that a running flush has yet to finish. -/
def St.captured (s : St) : List Nat := match s.flush with
  | none => []
  | some f => f.todo.map (·.1) ++ (match f.cur with | some (r, _, _) => [r] | none => [])

/-- The step removes no round from under a running flush: only a clean-up could. -/
def Calm (c : Conf) (s : St) : Op → Prop
  | .clean round h => ∀ r ∈ s.captured, h.bottom ≤ r ∧ round ≤ r + c.total ∧ r ≤ round + c.keep
  | _ => True

/-- No clean-up of a history removes a round from under a running flush. -/
def CalmAll (c : Conf) (ops : List Op) : Prop := ∀ pre o post, ops = pre ++ o :: post → Calm c (run c pre) o

/-- Rounds that a flush works on are the cached ones; every point of an open round is delivered, owed, or waits for the
flush at work. -/
structure Served (s : St) : Prop where
  todo : ∀ todo cur, s.flush = some ⟨todo, cur⟩ → ∀ x ∈ todo, ∃ i, get s.rounds x.1 = some i ∧ i.map = x.2
  cur : ∀ todo r m need, s.flush = some ⟨todo, some (r, m, need)⟩ → ∃ i, get s.rounds r = some i ∧ i.map = m
  served : ∀ r i, get s.rounds r = some i → i.flagged = true → ∀ a e p, get (s.maps i.map) a = some e → p ∈ e.items →
    (r, p) ∈ s.dag ∨ (r, p) ∈ s.pending ∨ ∃ todo need, s.flush = some ⟨todo, some (r, i.map, need)⟩ ∧ a ∈ need

theorem step_served (c : Conf) (s : St) (L : Nat → List Pt) (g : Agrees s L) (k : Ordered s) (w : Served s) (o : Op)
    (hc : Calm c s o) : Served (step c s o) := by
  cases o with
  | add h r a d v ev mn =>
    rcases add_cases c s h r a d v ev mn with ⟨e, _⟩ | ⟨p, _, ⟨_, e⟩ | ⟨i, f, n, hi, e⟩⟩
    · rw [e]; exact w
    · rw [e]
      refine ⟨w.todo, w.cur, ?_⟩
      intro r' i' h1 h2 a' e' p' h3 h4
      rcases w.served r' i' h1 h2 a' e' p' h3 h4 with h | h | h
      · exact Or.inl h
      · exact Or.inr (Or.inl (by simp [h]))
      · exact Or.inr (Or.inr h)
    · rw [e]
      have keep : ∀ r' j, get s.rounds r' = some j →
          ∃ j', get (put s.rounds r { i with count := n }) r' = some j' ∧ j'.map = j.map := by
        intro r' j hj
        rw [get_put]
        split
        · rename_i hr; subst hr
          rcases hi with ⟨hi, _⟩ | ⟨hi, _⟩
          · rw [hi] at hj; cases hj; exact ⟨_, rfl, rfl⟩
          · rw [hi] at hj; cases hj
        · exact ⟨j, hj, rfl⟩
      refine ⟨?_, ?_, ?_⟩
      · intro todo cur hf x hx
        obtain ⟨j, h1, h2⟩ := w.todo todo cur hf x hx
        obtain ⟨j', h3, h4⟩ := keep _ _ h1
        exact ⟨j', h3, h4.trans h2⟩
      · intro todo r' m need hf
        obtain ⟨j, h1, h2⟩ := w.cur todo r' m need hf
        obtain ⟨j', h3, h4⟩ := keep _ _ h1
        exact ⟨j', h3, h4.trans h2⟩
      · intro r' j h1 h2 a' e' p' h3 h4
        simp only [get_put] at h1 h3 ⊢
        by_cases hr : r' = r
        · subst hr
          rw [if_pos rfl] at h1; cases h1
          simp only at h2 h3
          rcases hi with ⟨hi, _⟩ | ⟨_, _, hi, _⟩
          · simp only [if_true, get_put] at h3
            have old : ∀ e0, get (s.maps i.map) a' = some e0 → p' ∈ e0.items →
                (r', p') ∈ s.dag ∨ (r', p') ∈ s.pending ++ owed (i.flagged || (decide (r' ≤ h.next) && h.has r')) r' p ∨
                  ∃ todo need, s.flush = some ⟨todo, some (r', i.map, need)⟩ ∧ a' ∈ need := by
              intro e0 h5 h6
              rcases w.served r' i hi h2 a' e0 p' h5 h6 with h | h | h
              · exact Or.inl h
              · exact Or.inr (Or.inl (by simp [h]))
              · exact Or.inr (Or.inr h)
            by_cases ha : a' = p.author
            · rw [if_pos ha] at h3; cases h3
              rcases (entry_items _ p p').1 h4 with ⟨e0, h5, h6⟩ | ⟨h5, h6⟩
              · exact old e0 (by rw [ha]; exact h5) h6
              · right; left
                apply List.mem_append_right
                rw [mem_owed]; exact ⟨by simp [h2], h6, by rw [h5]⟩
            · rw [if_neg ha] at h3; exact old e' h3 h4
          · rw [hi] at h2; cases h2
        · rw [if_neg hr] at h1
          have hm : ¬ j.map = i.map := by
            intro hm
            rcases hi with ⟨hi, _⟩ | ⟨_, hi, _⟩
            · exact hr (g.apart _ _ _ _ h1 hi hm)
            · have := g.old _ _ h1; omega
          rw [if_neg hm] at h3
          rcases w.served r' j h1 h2 a' e' p' h3 h4 with h | h | h
          · exact Or.inl h
          · exact Or.inr (Or.inl (by simp [h]))
          · exact Or.inr (Or.inr h)
  | deliver j =>
    simp only [step, St.deliver]
    split
    · rename_i d hd
      refine ⟨w.todo, w.cur, ?_⟩
      intro r' i' h1 h2 a' e' p' h3 h4
      rcases w.served r' i' h1 h2 a' e' p' h3 h4 with h | h | h
      · exact Or.inl (by simp [h])
      · by_cases hx : (r', p') = d
        · left; simp [hx]
        · right; left
          obtain ⟨n, hn⟩ := List.mem_iff_getElem?.mp h
          have hnj : n ≠ j := by rintro rfl; rw [hn] at hd; exact hx (Option.some.inj hd)
          rw [List.mem_iff_getElem?]
          rcases Nat.lt_or_gt_of_ne hnj with hlt | hgt
          · exact ⟨n, by rw [List.getElem?_eraseIdx_of_lt hlt]; exact hn⟩
          · refine ⟨n - 1, ?_⟩
            rw [List.getElem?_eraseIdx_of_ge (by omega), show n - 1 + 1 = n by omega]; exact hn
      · exact Or.inr (Or.inr h)
    · exact w
  | clean q h =>
    have hkeep : ∀ x ∈ s.captured, get (step c s (.clean q h)).rounds x = get s.rounds x := by
      intro x hx
      have := hc x hx
      simp only [step, St.clean, get_del, decide_eq_true_eq]
      rw [if_neg]; omega
    refine ⟨?_, ?_, ?_⟩
    · intro todo cur hf x hx
      have hf' : s.flush = some ⟨todo, cur⟩ := hf
      rw [hkeep x.1 (by unfold St.captured; rw [hf']; simp only [List.mem_append, List.mem_map]; exact Or.inl ⟨x, hx, rfl⟩)]
      exact w.todo todo cur hf' x hx
    · intro todo r m need hf
      have hf' : s.flush = some ⟨todo, some (r, m, need)⟩ := hf
      rw [hkeep r (by unfold St.captured; rw [hf']; simp)]
      exact w.cur todo r m need hf'
    · intro r' i' h1 h2
      have h1' : get s.rounds r' = some i' := by
        simp only [step, St.clean, get_del] at h1
        split at h1
        · cases h1
        · exact h1
      exact w.served r' i' h1' h2
  | flushStart h =>
    simp only [step, St.flushStart]
    split
    · exact w
    · have hu := uniq_filter _ g.uniq (fun e => !outdated h e.1 e.2)
      refine ⟨?_, ?_, ?_⟩
      · intro todo cur hf x hx
        cases hf
        obtain ⟨i, h1, h2, _⟩ := (toFlush_mem h _ hu x.1 x.2).mp hx
        exact ⟨i, h1, h2⟩
      · intro todo r m need hf; cases hf
      · intro r' i' h1 h2
        simp only [get_filter_rounds _ g.uniq] at h1
        split at h1
        · split at h1
          · rename_i hx; cases h1
            simp only [outdated, Bool.not_or, Bool.and_eq_true, Bool.not_eq_true'] at hx
            rw [hx.2] at h2; cases h2
          · cases h1
        · cases h1
  | flushSet =>
    cases hf : s.flush with
    | none => have e : step c s .flushSet = s := by simp only [step, St.flushSet, hf]
              rw [e]; exact w
    | some x =>
      obtain ⟨todo, cur⟩ := x
      cases cur with
      | some y => have e : step c s .flushSet = s := by simp only [step, St.flushSet, hf]
                  rw [e]; exact w
      | none =>
        cases todo with
        | nil => have e : step c s .flushSet = s := by simp only [step, St.flushSet, hf]
                 rw [e]; exact w
        | cons z todo =>
          obtain ⟨r, m⟩ := z
          obtain ⟨i, hi, him⟩ := w.todo _ _ hf (r, m) (by simp)
          simp only at hi him
          have e : step c s .flushSet = { s with
              flush := some ⟨todo, some (r, m, (s.maps m).map (·.1))⟩, rounds := put s.rounds r { i with flagged := true } } := by
            simp only [step, St.flushSet, hf, hi]
          rw [e]
          have hp := List.pairwise_cons.mp (k.asc _ _ hf)
          refine ⟨?_, ?_, ?_⟩
          · intro t2 c2 h2 x hx
            cases h2
            have hlt := hp.1 x hx
            obtain ⟨j, h3, h4⟩ := w.todo _ _ hf x (by simp [hx])
            exact ⟨j, by simp only [get_put]; rw [if_neg (by simp only at hlt; omega)]; exact h3, h4⟩
          · intro t2 r2 m2 n2 h2
            cases h2
            exact ⟨{ i with flagged := true }, by simp only [get_put, if_true], him⟩
          · intro r' i' h1 h2 a' e' p' h3 h4
            simp only [get_put] at h1
            by_cases hr : r' = r
            · subst hr
              rw [if_pos rfl] at h1; cases h1
              right; right
              simp only at h3
              rw [him] at h3
              exact ⟨todo, _, by rw [him], mem_keys h3⟩
            · rw [if_neg hr] at h1
              rcases w.served r' i' h1 h2 a' e' p' h3 h4 with h | h | ⟨t2, n2, h, _⟩
              · exact Or.inl h
              · exact Or.inr (Or.inl h)
              · rw [hf] at h; cases h
  | flushVisit b =>
    simp only [step, St.flushVisit]
    split
    · rename_i todo r m need hf
      split
      · rename_i eb hb
        refine ⟨?_, ?_, ?_⟩
        · intro t2 c2 h2; cases h2; exact w.todo _ _ hf
        · intro t2 r2 m2 n2 h2; cases h2; exact w.cur _ _ _ _ hf
        · intro r' i' h1 h2 a' e' p' h3 h4
          rcases w.served r' i' h1 h2 a' e' p' h3 h4 with h | h | ⟨t2, n2, h, hn⟩
          · exact Or.inl (by simp [h])
          · exact Or.inr (Or.inl h)
          · rw [hf] at h; cases h
            by_cases hab : a' = b
            · subst hab
              rw [h3] at hb; cases hb
              left
              exact List.mem_append_right _ (List.mem_map_of_mem (f := fun p => (r, p)) h4)
            · right; right
              exact ⟨todo, _, rfl, by simp [hn, hab]⟩
      · exact w
    · exact w
  | flushNext =>
    simp only [step, St.flushNext]
    split
    · rename_i todo r m hf
      refine ⟨?_, ?_, ?_⟩
      · intro t2 c2 h2; cases h2; exact w.todo _ _ hf
      · intro t2 r2 m2 n2 h2; cases h2
      · intro r' i' h1 h2 a' e' p' h3 h4
        rcases w.served r' i' h1 h2 a' e' p' h3 h4 with h | h | ⟨t2, n2, h, hn⟩
        · exact Or.inl h
        · exact Or.inr (Or.inl h)
        · rw [hf] at h; cases h; simp at hn
    · exact w
  | flushEnd =>
    simp only [step, St.flushEnd]
    split
    · rename_i hf
      refine ⟨(fun _ _ h => by cases h), (fun _ _ _ _ h => by cases h), ?_⟩
      intro r' i' h1 h2 a' e' p' h3 h4
      rcases w.served r' i' h1 h2 a' e' p' h3 h4 with h | h | ⟨t2, n2, h, hn⟩
      · exact Or.inl h
      · exact Or.inr (Or.inl h)
      · rw [hf] at h; cases h
    · exact w

theorem calm_prefix {c : Conf} {ops : List Op} {o : Op} (h : CalmAll c (ops ++ [o])) : CalmAll c ops ∧ Calm c (run c ops) o :=
  ⟨fun pre x post e => h pre x (post ++ [o]) (by rw [e]; simp), h ops o [] rfl⟩

theorem served_run (c : Conf) (ops : List Op) (h : CalmAll c ops) : Served (run c ops) := by
  induction ops using List.reverseRecOn with
  | nil =>
    refine ⟨(fun _ _ h => by cases h), (fun _ _ _ _ h => by cases h), ?_⟩
    intro r i h1; simp [run, St.init, Table.get] at h1
  | append_singleton ops o ih =>
    obtain ⟨h1, h2⟩ := calm_prefix h
    rw [run_snoc]
    exact step_served c _ _ (agrees_run c ops) (ordered_run c ops) (ih h1) o h2

theorem kept_entry (c : Conf) (ops : List Op) (r : Nat) (i : Item) (a : Nat) (p : Pt)
    (hi : get (run c ops).rounds r = some i)
    (hp : firstBy (log c ops r) a = some p ∨ forkBy (log c ops r) a = some p) (hg : p.goes = true) :
    ∃ e, get ((run c ops).maps i.map) a = some e ∧ p ∈ e.items := by
  have hx := kept_exact c ops r i hi a
  cases he : get ((run c ops).maps i.map) a with
  | none => rw [he] at hx; simp only [Option.map_none, Option.bind_none] at hx
            rcases hp with hp | hp
            · rw [← hx.1] at hp; cases hp
            · rw [← hx.2] at hp; cases hp
  | some e =>
    refine ⟨e, rfl, ?_⟩
    rw [he] at hx
    simp only [Option.map_some, Option.bind_some] at hx
    rw [mem_items]
    refine ⟨?_, hg⟩
    rcases hp with hp | hp
    · rw [← hx.1] at hp; left; exact (Option.some.inj hp).symm
    · rw [← hx.2] at hp
      right
      cases hf : e.fork with
      | none => rw [hf] at hp; cases hp
      | some f => rw [hf] at hp; exact ⟨f, rfl, (Option.some.inj hp).symm⟩

/-- When no flush runs, every kept point of a round that a flush has opened is in the DAG, or a call is about to put it there:
whether it came before the flush, while it ran, or after. -/
theorem opened_delivered (c : Conf) (ops : List Op) (hc : CalmAll c ops) (hno : (run c ops).flush = none) (r : Nat) (i : Item)
    (hi : get (run c ops).rounds r = some i) (ho : i.flagged = true) (a : Nat) (p : Pt)
    (hp : firstBy (log c ops r) a = some p ∨ forkBy (log c ops r) a = some p) (hg : p.well = true ∨ p.full = true) :
    (r, p) ∈ (run c ops).dag ∨ (r, p) ∈ (run c ops).pending := by
  obtain ⟨e, h1, h2⟩ := kept_entry c ops r i a p hi hp ((goes_iff p).mpr hg)
  rcases (served_run c ops hc).served r i hi ho a e p h1 h2 with h | h | ⟨_, _, h, _⟩
  · exact Or.inl h
  · exact Or.inr h
  · rw [hno] at h; cases h

/-- A cached round leaves the cache only in three ways: a clean-up finds it out of its window, a flush finds it below the
bottom, or a flush finds it opened by an earlier one, and then every kept point is in the DAG or about to be put there. -/
theorem removed_was_served (c : Conf) (ops : List Op) (hc : CalmAll c ops) (o : Op) (r : Nat) (i : Item)
    (hi : get (run c ops).rounds r = some i) (hgone : get (run c (ops ++ [o])).rounds r = none) :
    (∃ round h, o = .clean round h ∧ ¬ (h.bottom ≤ r ∧ round ≤ r + c.total ∧ r ≤ round + c.keep)) ∨
    (∃ h, o = .flushStart h ∧ r < h.bottom) ∨
    (∃ h, o = .flushStart h ∧ ∀ a p, (firstBy (log c ops r) a = some p ∨ forkBy (log c ops r) a = some p) →
      (p.well = true ∨ p.full = true) → (r, p) ∈ (run c ops).dag ∨ (r, p) ∈ (run c ops).pending) := by
  rw [run_snoc] at hgone
  have g := agrees_run c ops
  have keep : (step c (run c ops) o).rounds = (run c ops).rounds → False := by
    intro h; rw [h, hi] at hgone; cases hgone
  cases o with
  | add h r' a d v ev mn =>
    rcases add_cases c (run c ops) h r' a d v ev mn with ⟨e, _⟩ | ⟨p, _, ⟨_, e⟩ | ⟨j, f, n, hj, e⟩⟩
    · exact (keep (by rw [e])).elim
    · exact (keep (by rw [e])).elim
    · rw [e] at hgone
      simp only [get_put] at hgone
      split at hgone
      · cases hgone
      · rw [hi] at hgone; cases hgone
  | deliver j => exact (keep (by simp only [step, St.deliver]; split <;> rfl)).elim
  | clean round h =>
    left
    refine ⟨round, h, rfl, ?_⟩
    intro hk
    simp only [step, St.clean, get_del, decide_eq_true_eq] at hgone
    rw [if_neg (by omega), hi] at hgone; cases hgone
  | flushStart h =>
    right
    cases hf : (run c ops).flush with
    | some x => exact (keep (by simp only [step, St.flushStart, hf])).elim
    | none =>
      simp only [step, St.flushStart, hf, get_filter_rounds _ g.uniq, hi] at hgone
      by_cases hb : r < h.bottom
      · exact Or.inl ⟨h, rfl, hb⟩
      · right
        have ho : i.flagged = true := by
          split at hgone
          · cases hgone
          · rename_i hx
            simp only [outdated, hb, decide_false, Bool.false_or, Bool.not_eq_true', Bool.not_eq_false] at hx
            exact hx
        exact ⟨h, rfl, fun a p hp hg => opened_delivered c ops hc hf r i hi ho a p hp hg⟩
  | flushSet =>
    simp only [step, St.flushSet] at hgone
    split at hgone
    · split at hgone
      · simp only [get_put] at hgone
        split at hgone
        · cases hgone
        · rw [hi] at hgone; cases hgone
      · simp only at hgone; rw [hi] at hgone; cases hgone
    · rw [hi] at hgone; cases hgone
  | flushVisit a => exact (keep (by
      simp only [step, St.flushVisit]; split
      · split <;> rfl
      · rfl)).elim
  | flushNext => exact (keep (by simp only [step, St.flushNext]; split <;> rfl)).elim
  | flushEnd => exact (keep (by simp only [step, St.flushEnd]; split <;> rfl)).elim

/-! ### Where deliveries come from -/

/-- The points of all verified calls. -/
def heardAll (c : Conf) (ops : List Op) : List (Nat × Pt) := ops.filterMap (Op.heard c.keep)

/-- Maps belong to rounds and hold points heard for them. -/
structure Origin (s : St) (H : List (Nat × Pt)) (R : Nat → Nat) : Prop where
  rounds : ∀ r i, get s.rounds r = some i → R i.map = r
  todo : ∀ todo cur, s.flush = some ⟨todo, cur⟩ → ∀ x ∈ todo, R x.2 = x.1 ∧ x.2 < s.fresh
  cur : ∀ todo r m need, s.flush = some ⟨todo, some (r, m, need)⟩ → R m = r ∧ m < s.fresh
  items : ∀ m a e p, get (s.maps m) a = some e → p ∈ e.items → (R m, p) ∈ H
  dag : ∀ x ∈ s.dag, x ∈ H
  pending : ∀ x ∈ s.pending, x ∈ H

theorem step_origin (c : Conf) (s : St) (L : Nat → List Pt) (g : Agrees s L) (H : List (Nat × Pt)) (R : Nat → Nat)
    (w : Origin s H R) (o : Op) :
    ∃ R', Origin (step c s o) (H ++ (o.heard c.keep).toList) R' := by
  have grow : ∀ {s'} {R'} (K), Origin s' H R' → Origin s' (H ++ K) R' := fun {s'} {R'} K w' =>
    ⟨w'.rounds, w'.todo, w'.cur, fun m a e p h1 h2 => List.mem_append_left _ (w'.items m a e p h1 h2),
      fun x hx => List.mem_append_left _ (w'.dag x hx), fun x hx => List.mem_append_left _ (w'.pending x hx)⟩
  cases o with
  | add h r a d v ev mn =>
    rcases add_cases c s h r a d v ev mn with ⟨e, hh⟩ | ⟨p, hh, ⟨_, e⟩ | ⟨i, f, n, hi, e⟩⟩
    · rw [e]; exact ⟨R, grow _ w⟩
    · rw [e, hh]
      refine ⟨R, w.rounds, w.todo, w.cur, fun m a e p h1 h2 => List.mem_append_left _ (w.items m a e p h1 h2),
        fun x hx => List.mem_append_left _ (w.dag x hx), ?_⟩
      intro x hx
      rcases List.mem_append.mp hx with hx | hx
      · exact List.mem_append_left _ (w.pending x hx)
      · rw [mem_owed] at hx; rw [hx.2.2]; simp
    · rw [e, hh]
      have hfr : s.fresh ≤ f := by rcases hi with ⟨_, h⟩ | ⟨_, _, _, h, _⟩ <;> omega
      have hpend : ∀ x ∈ s.pending ++ owed (i.flagged || (decide (r ≤ h.next) && h.has r)) r p, x ∈ H ++ (some (r, p)).toList := by
        intro x hx
        rcases List.mem_append.mp hx with hx | hx
        · exact List.mem_append_left _ (w.pending x hx)
        · rw [mem_owed] at hx; rw [hx.2.2]; simp
      rcases hi with ⟨hi, hf⟩ | ⟨hi, him, _, hf, _⟩
      · have hR := w.rounds r i hi
        refine ⟨R, ?_, ?_, ?_, ?_, fun x hx => List.mem_append_left _ (w.dag x hx), hpend⟩
        · intro r' j hj
          simp only [get_put] at hj
          split at hj
          · rename_i hr; cases hj; rw [hr]; exact hR
          · exact w.rounds r' j hj
        · intro t2 c2 h2 x hx; have := w.todo t2 c2 h2 x hx; exact ⟨this.1, by simp only; omega⟩
        · intro t2 r2 m2 n2 h2; have := w.cur t2 r2 m2 n2 h2; exact ⟨this.1, by simp only; omega⟩
        · intro m a' e' p' h1 h2
          simp only at h1
          by_cases hm : m = i.map
          · rw [if_pos hm, get_put] at h1
            by_cases ha : a' = p.author
            · rw [if_pos ha] at h1; cases h1
              rcases (entry_items _ p p').1 h2 with ⟨e0, h5, h6⟩ | ⟨h5, _⟩
              · exact List.mem_append_left _ (by rw [hm]; exact w.items _ _ _ _ h5 h6)
              · rw [h5, hm, hR]; simp
            · rw [if_neg ha] at h1; exact List.mem_append_left _ (w.items m a' e' p' h1 h2)
          · rw [if_neg hm] at h1; exact List.mem_append_left _ (w.items m a' e' p' h1 h2)
      · refine ⟨fun m => if m = s.fresh then r else R m, ?_, ?_, ?_, ?_, fun x hx => List.mem_append_left _ (w.dag x hx), hpend⟩
        · intro r' j hj
          simp only [get_put] at hj
          split at hj
          · rename_i hr; cases hj; simp only [him, if_true]; exact hr.symm
          · have := g.old _ _ hj
            rw [if_neg (by omega)]; exact w.rounds r' j hj
        · intro t2 c2 h2 x hx
          have := w.todo t2 c2 h2 x hx
          exact ⟨by rw [if_neg (by omega)]; exact this.1, by simp only; omega⟩
        · intro t2 r2 m2 n2 h2
          have := w.cur t2 r2 m2 n2 h2
          exact ⟨by rw [if_neg (by omega)]; exact this.1, by simp only; omega⟩
        · intro m a' e' p' h1 h2
          simp only at h1 ⊢
          by_cases hm : m = i.map
          · have hmf : m = s.fresh := hm.trans him
            rw [if_pos hm, get_put] at h1
            rw [if_pos hmf]
            have hemp : s.maps m = [] := g.empty m (by omega)
            by_cases ha : a' = p.author
            · rw [if_pos ha] at h1; cases h1
              rcases (entry_items _ p p').1 h2 with ⟨e0, h5, h6⟩ | ⟨h5, _⟩
              · rw [← hm, hemp] at h5; cases h5
              · rw [h5]; simp
            · rw [if_neg ha, hemp] at h1; cases h1
          · rw [if_neg hm] at h1
            rw [if_neg (by omega)]
            exact List.mem_append_left _ (w.items m a' e' p' h1 h2)
  | deliver j =>
    simp only [Op.heard, Option.toList_none, List.append_nil, step, St.deliver]
    split
    · rename_i d hd
      refine ⟨R, w.rounds, w.todo, w.cur, w.items, ?_, fun x hx => w.pending x (List.mem_of_mem_eraseIdx hx)⟩
      intro x hx
      rcases List.mem_append.mp hx with hx | hx
      · exact w.dag x hx
      · simp only [List.mem_singleton] at hx
        rw [hx]; exact w.pending d (List.mem_of_getElem? hd)
    · exact ⟨R, w⟩
  | clean q h =>
    simp only [Op.heard, Option.toList_none, List.append_nil]
    refine ⟨R, ?_, w.todo, w.cur, w.items, w.dag, w.pending⟩
    intro r i hi
    simp only [step, St.clean, get_del] at hi
    split at hi
    · cases hi
    · exact w.rounds r i hi
  | flushStart h =>
    simp only [Op.heard, Option.toList_none, List.append_nil, step, St.flushStart]
    split
    · exact ⟨R, w⟩
    · have hu := uniq_filter _ g.uniq (fun e => !outdated h e.1 e.2)
      have sub : ∀ r i, get (s.rounds.filter (fun e => !outdated h e.1 e.2)) r = some i → get s.rounds r = some i := by
        intro r i hi
        rw [get_filter_rounds _ g.uniq] at hi
        split at hi
        · split at hi
          · rename_i hx _; cases hi; exact hx
          · cases hi
        · cases hi
      refine ⟨R, fun r i hi => w.rounds r i (sub r i hi), ?_, ?_, w.items, w.dag, w.pending⟩
      · intro t2 c2 h2 x hx
        cases h2
        obtain ⟨i, h1, h2, _⟩ := (toFlush_mem h _ hu x.1 x.2).mp hx
        rw [← h2]
        exact ⟨w.rounds _ _ (sub _ _ h1), g.old _ _ (sub _ _ h1)⟩
      · intro t2 r2 m2 n2 h2; cases h2
  | flushSet =>
    simp only [Op.heard, Option.toList_none, List.append_nil, step, St.flushSet]
    split
    · rename_i r m todo hf
      have ht := w.todo _ _ hf
      split
      · rename_i i hi
        refine ⟨R, ?_, ?_, ?_, w.items, w.dag, w.pending⟩
        · intro r' j hj
          simp only [get_put] at hj
          split at hj
          · rename_i hr; cases hj; rw [hr]; exact w.rounds r i hi
          · exact w.rounds r' j hj
        · intro t2 c2 h2 x hx; cases h2; exact ht x (by simp [hx])
        · intro t2 r2 m2 n2 h2; cases h2; exact ht (r, m) (by simp)
      · refine ⟨R, w.rounds, ?_, ?_, w.items, w.dag, w.pending⟩
        · intro t2 c2 h2 x hx; cases h2; exact ht x (by simp [hx])
        · intro t2 r2 m2 n2 h2; cases h2; exact ht (r, m) (by simp)
    · exact ⟨R, w⟩
  | flushVisit b =>
    simp only [Op.heard, Option.toList_none, List.append_nil, step, St.flushVisit]
    split
    · rename_i todo r m need hf
      split
      · rename_i e he
        refine ⟨R, w.rounds, ?_, ?_, w.items, ?_, w.pending⟩
        · intro t2 c2 h2 x hx; cases h2; exact w.todo _ _ hf x hx
        · intro t2 r2 m2 n2 h2; cases h2; exact w.cur _ _ _ _ hf
        · intro x hx
          rcases List.mem_append.mp hx with hx | hx
          · exact w.dag x hx
          · obtain ⟨p, h1, rfl⟩ := List.mem_map.mp hx
            have := w.items m b e p he h1
            rw [(w.cur _ _ _ _ hf).1] at this; exact this
      · exact ⟨R, w⟩
    · exact ⟨R, w⟩
  | flushNext =>
    simp only [Op.heard, Option.toList_none, List.append_nil, step, St.flushNext]
    split
    · rename_i hf
      refine ⟨R, w.rounds, ?_, ?_, w.items, w.dag, w.pending⟩
      · intro t2 c2 h2 x hx; cases h2; exact w.todo _ _ hf x hx
      · intro t2 r2 m2 n2 h2; cases h2
    · exact ⟨R, w⟩
  | flushEnd =>
    simp only [Op.heard, Option.toList_none, List.append_nil, step, St.flushEnd]
    split
    · exact ⟨R, w.rounds, (fun _ _ h => by cases h), (fun _ _ _ _ h => by cases h), w.items, w.dag, w.pending⟩
    · exact ⟨R, w⟩

theorem origin_run (c : Conf) (ops : List Op) : ∃ R, Origin (run c ops) (heardAll c ops) R := by
  induction ops using List.reverseRecOn with
  | nil =>
    refine ⟨fun _ => 0, ?_, (fun _ _ h => by cases h), (fun _ _ _ _ h => by cases h), ?_, ?_, ?_⟩
    · intro r i h; simp [run, St.init, Table.get] at h
    · intro m a e p h; simp [run, St.init, Table.get] at h
    · intro x hx; simp [run, St.init] at hx
    · intro x hx; simp [run, St.init] at hx
  | append_singleton ops o ih =>
    obtain ⟨R, w⟩ := ih
    obtain ⟨R', w'⟩ := step_origin c _ _ (agrees_run c ops) _ R w o
    refine ⟨R', ?_⟩
    rw [run_snoc]
    have : heardAll c (ops ++ [o]) = heardAll c ops ++ (o.heard c.keep).toList := by
      unfold heardAll; rw [List.filterMap_append]
      congr 1
    rw [this]; exact w'

/-- Everything that gets into the DAG was received in a verified call, by its author, for this round, with this digest and
with this outcome of the verification. -/
theorem delivered_was_heard (c : Conf) (ops : List Op) (x : Nat × Pt) (h : x ∈ (run c ops).dag) :
    ∃ o ∈ ops, o.heard c.keep = some x := by
  obtain ⟨R, w⟩ := origin_run c ops
  have := w.dag x h
  unfold heardAll at this
  exact List.mem_filterMap.mp this

end Tycho.BcastFilter
