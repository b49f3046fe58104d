import Verif.BcastFilter.Inv
/-! What the filter keeps, counts and reports, for all histories. -/
namespace Tycho.BcastFilter
open Tycho.Table (Table get put del get_put get_del)

/-- Of every author a cached round keeps the first point and the first different one, and nothing else, so at most two; with
the number of copies of each. -/
theorem kept_exact (c : Conf) (ops : List Op) (r : Nat) (i : Item) (h : get (run c ops).rounds r = some i) (a : Nat) :
    (get ((run c ops).maps i.map) a).map (·.first.item) = firstBy (log c ops r) a ∧
    (get ((run c ops).maps i.map) a).bind (fun e => e.fork.map (·.item)) = forkBy (log c ops r) a := by
  rw [(agrees_run c ops).entries r i h a]
  unfold entryOf
  cases hf : firstBy (log c ops r) a with
  | none => simp [forkBy, hf]
  | some f => simp [Function.comp_def]

/-- A point of a peer is reported for a round exactly when one was heard since the round is cached. -/
theorem has_point_iff (c : Conf) (ops : List Op) (r a : Nat) :
    (run c ops).hasPoint r a = true ↔ ∃ p ∈ log c ops r, p.author = a := by
  have g := agrees_run c ops
  unfold St.hasPoint
  split
  · rename_i h; simp [g.none r h]
  · rename_i i h
    rw [g.entries r i h a]
    unfold entryOf
    cases hf : firstBy (log c ops r) a with
    | none =>
      simp only [Option.map_none, Option.isSome_none, Bool.false_eq_true, false_iff]
      rintro ⟨p, h1, h2⟩
      have := List.find?_eq_none.mp hf p h1
      simp [h2] at this
    | some f => simp only [Option.map_some, Option.isSome_some, true_iff]; exact ⟨f, (firstBy_author hf).2, (firstBy_author hf).1⟩

/-- The minority that a call compares with: that of the cached round, or its own if it creates the round. -/
def St.minorityFor (s : St) (r m : Nat) : Nat := match get s.rounds r with | some i => i.minority | none => m

/-- The call `o`, which is heard as `p` for round `r`, as a call of `cache`. -/
theorem heard_cache (c : Conf) (s : St) (h : Head) (r a d : Nat) (v : Verdict) (ev : Bool) (mn : Option Nat) (r' : Nat) (p : Pt)
    (hh : (Op.add h r a d v ev mn).heard c.keep = some (r', p)) :
    r' = r ∧ ¬ r < h.bottom ∧ p.author = a ∧ p.digest = d ∧ ∃ m, mn = some m ∧
      s.add c.keep h r a d v ev mn = s.cache h r p ev m := by
  cases mn with
  | none => simp [Op.heard] at hh
  | some m =>
    unfold Op.heard at hh
    simp only at hh
    split at hh
    · cases hh
    · rename_i hb
      cases v <;> simp only [Option.some.injEq, Prod.mk.injEq, reduceCtorEq] at hh
      · obtain ⟨rfl, rfl⟩ := hh; exact ⟨rfl, hb, rfl, rfl, m, rfl, rfl⟩
      · obtain ⟨rfl, rfl⟩ := hh; exact ⟨rfl, hb, rfl, rfl, m, rfl, rfl⟩

/-- The reports of a call, from the points heard before. -/
theorem cache_info (s : St) (L : Nat → List Pt) (g : Agrees s L) (h : Head) (r : Nat) (p : Pt) (ev : Bool) (m : Nat)
    (hb : ¬ r < h.bottom) :
    ((s.cache h r p ev m).2.reached = true ↔
      (goodAuthors (L r)).card < (goodAuthors (L r ++ [p])).card ∧ h.next < r ∧
        ((goodAuthors (L r ++ [p])).card = s.minorityFor r m ∨
          ((goodAuthors (L r ++ [p])).card < s.minorityFor r m ∧ ev = true))) ∧
    (∀ k, (s.cache h r p ev m).2.duplicates = some k ↔
      (k > 3 ∧ k = min 65535 (times (L r ++ [p]) p.author p.digest - 1) ∧
        ((∃ f, firstBy (L r) p.author = some f ∧ f.digest = p.digest) ∨
          ∃ f, forkBy (L r) p.author = some f ∧ f.digest = p.digest))) ∧
    (∀ d, (s.cache h r p ev m).2.equivocation = some d ↔
      ∃ f, firstBy (L r) p.author = some f ∧ f.digest = d ∧ d ≠ p.digest) := by
  cases hl : s.lookup h r m with
  | none =>
    unfold St.lookup at hl
    split at hl
    · cases hl
    · rename_i hn
      split at hl
      · rename_i hle
        have e : (s.cache h r p ev m).2 = .default := by
          unfold St.cache St.lookup; rw [if_neg hb, hn]; simp [hle]
        rw [e, g.none r hn]
        refine ⟨?_, ?_, ?_⟩
        · simp only [Info.default]; constructor
          · intro h; cases h
          · rintro ⟨_, h, _⟩; omega
        · intro k; simp [Info.default, firstBy, forkBy]
        · intro d; simp [Info.default, firstBy]
      · cases hl
  | some x =>
    obtain ⟨i, f⟩ := x
    obtain ⟨l1, l2, _, _, _⟩ := lookup_some s L g h r m i f hl
    have hm : i.minority = s.minorityFor r m := by
      unfold St.lookup at hl; unfold St.minorityFor
      split at hl
      · rename_i j hj; cases hl; rw [hj]
      · rename_i hj
        split at hl
        · cases hl
        · cases hl; rw [hj]
    rw [cache_found s h r p ev m i f hb hl]
    have cs := count_step (L r) p
    simp only
    rw [l1, l2, hm]
    refine ⟨?_, ?_, ?_⟩
    · rw [← cs]
      have hcnt : ((entry (entryOf (L r) p.author) p).2.1 && p.well) = true ↔
          (goodAuthors (L r)).card < (goodAuthors (L r ++ [p])).card := by
        rw [cs]; split
        · rename_i hx; simp only [hx, true_iff]; omega
        · rename_i hx; simp only [hx]; constructor
          · intro h; exact absurd h (by simp)
          · intro h; omega
      rw [Bool.and_eq_true, hcnt]
      unfold reached
      simp only [Bool.and_eq_true, decide_eq_true_eq, gt_iff_lt]
      refine and_congr_right fun _ => and_congr_right fun _ => ?_
      split
      · rename_i hx
        constructor
        · intro h; exact Or.inr ⟨hx, h⟩
        · rintro (h | ⟨_, h⟩)
          · omega
          · exact h
      · rename_i hx
        simp only [decide_eq_true_eq]
        constructor
        · intro h; exact Or.inl h
        · rintro (h | ⟨h, _⟩)
          · exact h
          · omega
    · intro k
      unfold entryOf
      cases hf : firstBy (L r) p.author with
      | none => simp [entry, forkBy, hf]
      | some f =>
        obtain ⟨hfa, hfm⟩ := firstBy_author hf
        by_cases hd : f.digest = p.digest
        · simp only [Option.map_some, entry, hd, if_true, times_snoc, and_self]
          have ht := times_pos hfm
          rw [hfa, hd] at ht
          have : inc16 (min 65535 (times (L r) p.author p.digest - 1)) = min 65535 (times (L r) p.author p.digest + 1 - 1) := by
            unfold inc16; omega
          rw [this]
          unfold dupInfo
          split
          · rename_i hx
            simp only [Option.some.injEq]
            constructor
            · intro h; refine ⟨by omega, by omega, Or.inl ⟨f, rfl, hd⟩⟩
            · rintro ⟨_, h, _⟩; omega
          · rename_i hx
            constructor
            · intro h; cases h
            · rintro ⟨h1, h2, _⟩; exact absurd h1 (by omega)
        · cases hk : forkBy (L r) p.author with
          | none => simp [entry, hd]
          | some q =>
            obtain ⟨hqa, hqm, f', hf', hq⟩ := forkBy_author hk
            by_cases hqd : q.digest = p.digest
            · simp only [Option.map_some, entry, hd, hqd, if_false, if_true, times_snoc, and_self]
              have ht := times_pos hqm
              rw [hqa, hqd] at ht
              have : inc16 (min 65535 (times (L r) p.author p.digest - 1)) = min 65535 (times (L r) p.author p.digest + 1 - 1) := by
                unfold inc16; omega
              rw [this]
              unfold dupInfo
              split
              · rename_i hx
                simp only [Option.some.injEq]
                constructor
                · intro h; refine ⟨by omega, by omega, Or.inr ⟨q, rfl, hqd⟩⟩
                · rintro ⟨_, h, _⟩; omega
              · rename_i hx
                constructor
                · intro h; cases h
                · rintro ⟨h1, h2, _⟩; exact absurd h1 (by omega)
            · simp [entry, hd, hqd]
    · intro d
      unfold entryOf
      cases hf : firstBy (L r) p.author with
      | none => simp [entry]
      | some f =>
        by_cases hd : f.digest = p.digest
        · simp only [Option.map_some, entry, hd, if_true]
          constructor
          · intro h; cases h
          · rintro ⟨x, hx, h1, h2⟩; cases hx; exact absurd (h1.symm.trans hd) h2
        · have key : (entry (some ⟨⟨f, min 65535 (times (L r) p.author f.digest - 1)⟩, (forkBy (L r) p.author).map
              fun q => ⟨q, min 65535 (times (L r) p.author q.digest - 1)⟩⟩) p).2.2.2 = some f.digest := by
            cases hk : forkBy (L r) p.author with
            | none => simp [entry, hd]
            | some q =>
              simp only [Option.map_some, entry, hd, if_false]
              split <;> rfl
          rw [Option.map_some, key]
          simp only [Option.some.injEq]
          constructor
          · rintro rfl; exact ⟨f, rfl, rfl, hd⟩
          · rintro ⟨x, rfl, h, _⟩; exact h

/-- A call reports that the round is reached exactly when the round is ahead of the caller's head, the point makes one more
author with a well-formed point among its first two, and the number of such authors is now exactly the reliable minority,
or it is still below and the point has evidence. -/
theorem threshold_exact (c : Conf) (ops : List Op) (h : Head) (r a d : Nat) (v : Verdict) (ev : Bool) (m : Nat) (r' : Nat)
    (p : Pt) (hh : (Op.add h r a d v ev (some m)).heard c.keep = some (r', p)) :
    ((run c ops).add c.keep h r a d v ev (some m)).2.reached = true ↔
      (goodAuthors (log c ops r)).card < (goodAuthors (log c ops r ++ [p])).card ∧ h.next < r ∧
        ((goodAuthors (log c ops r ++ [p])).card = (run c ops).minorityFor r m ∨
          ((goodAuthors (log c ops r ++ [p])).card < (run c ops).minorityFor r m ∧ ev = true)) := by
  obtain ⟨_, hb, _, _, m', hm, he⟩ := heard_cache c (run c ops) h r a d v ev (some m) r' p hh
  cases hm
  rw [he]
  exact (cache_info (run c ops) (log c ops) (agrees_run c ops) h r p ev m hb).1

/-- Duplicates are reported exactly for a copy of one of the two kept points that came more than three times again, with the
number of repetitions. -/
theorem duplicates_exact (c : Conf) (ops : List Op) (h : Head) (r a d : Nat) (v : Verdict) (ev : Bool) (m : Nat) (r' : Nat)
    (p : Pt) (hh : (Op.add h r a d v ev (some m)).heard c.keep = some (r', p)) (k : Nat) :
    ((run c ops).add c.keep h r a d v ev (some m)).2.duplicates = some k ↔
      (k > 3 ∧ k = min 65535 (times (log c ops r ++ [p]) a d - 1) ∧
        ((∃ f, firstBy (log c ops r) a = some f ∧ f.digest = d) ∨
          ∃ f, forkBy (log c ops r) a = some f ∧ f.digest = d)) := by
  obtain ⟨_, hb, rfl, rfl, m', hm, he⟩ := heard_cache c (run c ops) h r a d v ev (some m) r' p hh
  cases hm
  rw [he]
  exact (cache_info (run c ops) (log c ops) (agrees_run c ops) h r p ev m hb).2.1 k

/-- Equivocation is reported exactly when the author's first point is a different one, with its digest. -/
theorem equivocation_exact (c : Conf) (ops : List Op) (h : Head) (r a d : Nat) (v : Verdict) (ev : Bool) (m : Nat) (r' : Nat)
    (p : Pt) (hh : (Op.add h r a d v ev (some m)).heard c.keep = some (r', p)) (x : Nat) :
    ((run c ops).add c.keep h r a d v ev (some m)).2.equivocation = some x ↔
      ∃ f, firstBy (log c ops r) a = some f ∧ f.digest = x ∧ x ≠ d := by
  obtain ⟨_, hb, rfl, rfl, m', hm, he⟩ := heard_cache c (run c ops) h r a d v ev (some m) r' p hh
  cases hm
  rw [he]
  exact (cache_info (run c ops) (log c ops) (agrees_run c ops) h r p ev m hb).2.2 x

/-- A call that is not heard changes nothing and reports nothing. -/
theorem unheard_ignored (c : Conf) (s : St) (h : Head) (r a d : Nat) (v : Verdict) (ev : Bool) (mn : Option Nat)
    (hh : (Op.add h r a d v ev mn).heard c.keep = none) :
    s.add c.keep h r a d v ev mn = (s, .default) := by
  cases mn with
  | none => rfl
  | some m =>
    unfold Op.heard at hh
    simp only at hh
    split at hh
    · rename_i hb
      unfold St.add St.cache
      cases v <;> simp [hb]
    · cases v <;> simp at hh <;> rfl

/-- The minority of a cached round does not change. -/
theorem minority_fixed (c : Conf) (ops : List Op) (o : Op) (r : Nat) (i j : Item)
    (h1 : get (run c ops).rounds r = some i) (h2 : get (run c (ops ++ [o])).rounds r = some j) : j.minority = i.minority := by
  rw [run_snoc] at h2
  have g := agrees_run c ops
  cases o with
  | add h r' a d v ev mn =>
    cases hh : (Op.add h r' a d v ev mn).heard c.keep with
    | none =>
      simp only [step, unheard_ignored c _ h r' a d v ev mn hh] at h2
      rw [h1] at h2; cases h2; rfl
    | some x =>
      obtain ⟨q, p⟩ := x
      obtain ⟨_, hb, _, _, m', hm, he⟩ := heard_cache c (run c ops) h r' a d v ev mn q p hh
      simp only [step, he] at h2
      cases hl : (run c ops).lookup h r' m' with
      | none =>
        unfold St.cache at h2; rw [if_neg hb, hl] at h2
        simp only at h2; rw [h1] at h2; cases h2; rfl
      | some y =>
        obtain ⟨k, f⟩ := y
        rw [cache_found _ _ _ _ _ _ _ _ hb hl] at h2
        simp only [get_put] at h2
        by_cases hr : r = r'
        · subst hr
          rw [if_pos rfl] at h2; cases h2
          unfold St.lookup at hl; rw [h1] at hl; cases hl; rfl
        · rw [if_neg hr, h1] at h2; cases h2; rfl
  | deliver k =>
    have : (step c (run c ops) (.deliver k)).rounds = (run c ops).rounds := by simp only [step, St.deliver]; split <;> rfl
    rw [this, h1] at h2; cases h2; rfl
  | clean q h =>
    simp only [step, St.clean, get_del] at h2
    split at h2
    · cases h2
    · rw [h1] at h2; cases h2; rfl
  | flushStart h =>
    simp only [step, St.flushStart] at h2
    split at h2
    · rw [h1] at h2; cases h2; rfl
    · simp only [get_filter_rounds _ g.uniq, h1] at h2
      split at h2
      · cases h2; rfl
      · cases h2
  | flushSet =>
    simp only [step, St.flushSet] at h2
    split at h2
    · split at h2
      · rename_i hx
        simp only [get_put] at h2
        split at h2
        · rename_i hr; subst hr; rw [h1] at hx; cases hx; cases h2; rfl
        · rw [h1] at h2; cases h2; rfl
      · simp only at h2; rw [h1] at h2; cases h2; rfl
    · rw [h1] at h2; cases h2; rfl
  | flushVisit a =>
    have : (step c (run c ops) (.flushVisit a)).rounds = (run c ops).rounds := by
      simp only [step, St.flushVisit]; split
      · split <;> rfl
      · rfl
    rw [this, h1] at h2; cases h2; rfl
  | flushNext =>
    have : (step c (run c ops) .flushNext).rounds = (run c ops).rounds := by simp only [step, St.flushNext]; split <;> rfl
    rw [this, h1] at h2; cases h2; rfl
  | flushEnd =>
    have : (step c (run c ops) .flushEnd).rounds = (run c ops).rounds := by simp only [step, St.flushEnd]; split <;> rfl
    rw [this, h1] at h2; cases h2; rfl

/-- When a cached round has the reliable minority of authors, there was a call that completed it, and this call reported it
unless its caller's head was already there. -/
theorem threshold_reported (c : Conf) (ops : List Op) (r : Nat) (i : Item) (hi : get (run c ops).rounds r = some i)
    (hpos : 0 < i.minority) (hc : i.minority ≤ (goodAuthors (log c ops r)).card) :
    ∃ pre post h a d v ev m, ops = pre ++ Op.add h r a d v ev (some m) :: post ∧
      (goodAuthors (log c pre r)).card + 1 = i.minority ∧
      (goodAuthors (log c (pre ++ [Op.add h r a d v ev (some m)]) r)).card = i.minority ∧
      (h.next < r → ((run c pre).add c.keep h r a d v ev (some m)).2.reached = true) := by
  induction ops using List.reverseRecOn generalizing i with
  | nil => simp [run, St.init, Table.get] at hi
  | append_singleton ops o ih =>
    have g := agrees_run c ops
    by_cases hprev : ∃ j, get (run c ops).rounds r = some j ∧ i.minority ≤ (goodAuthors (log c ops r)).card
    · obtain ⟨j, hj, hle⟩ := hprev
      have hm := minority_fixed c ops o r j i hj hi
      obtain ⟨pre, post, h, a, d, v, ev, m, e, h1, h2, h3⟩ := ih j hj (by omega) (by omega)
      exact ⟨pre, post ++ [o], h, a, d, v, ev, m, by rw [e]; simp, by omega, by omega, h3⟩
    · have hlt : (goodAuthors (log c ops r)).card < i.minority := by
        by_contra hge
        apply hprev
        cases hx : get (run c ops).rounds r with
        | none => rw [g.none r hx, good_nil] at hge; omega
        | some j => exact ⟨j, rfl, by omega⟩
      have hlog : log c (ops ++ [o]) r = logStep c (run c ops) (log c ops) o r := by rw [log_snoc]
      have hi' : get (step c (run c ops) o).rounds r = some i := by rw [← run_snoc]; exact hi
      cases hh : o.heard c.keep with
      | none =>
        rw [hlog] at hc; unfold logStep at hc; rw [hi', hh] at hc; simp only at hc; omega
      | some x =>
        obtain ⟨r', p⟩ := x
        by_cases hr : r' = r
        · cases o with
          | add h q a d v ev mn =>
            obtain ⟨hq, hb, _, _, m, hm, he⟩ := heard_cache c (run c ops) h q a d v ev mn r' p hh
            subst hm; subst hq; subst hr
            have hl : log c (ops ++ [Op.add h r' a d v ev (some m)]) r' = log c ops r' ++ [p] := by
              rw [hlog]; unfold logStep; rw [hi', hh]; simp
            rw [hl] at hc
            have cs := count_step (log c ops r') p
            have hcard : (goodAuthors (log c ops r' ++ [p])).card = (goodAuthors (log c ops r')).card + 1 := by
              split at cs <;> omega
            refine ⟨ops, [], h, a, d, v, ev, m, rfl, by omega, by rw [hl]; omega, ?_⟩
            intro hn
            rw [threshold_exact c ops h r' a d v ev m r' p hh]
            refine ⟨by omega, hn, Or.inl ?_⟩
            have : (run c ops).minorityFor r' m = i.minority := by
              unfold St.minorityFor
              cases hx : get (run c ops).rounds r' with
              | some j => exact (minority_fixed c ops _ r' j i hx hi).symm
              | none =>
                simp only [step, he] at hi'
                have hlk : (run c ops).lookup h r' m = some (⟨(run c ops).fresh, false, m, 0⟩, (run c ops).fresh + 1) := by
                  unfold St.lookup; rw [hx, if_neg (by omega)]
                rw [cache_found _ _ _ _ _ _ _ _ hb hlk] at hi'
                simp only [get_put, if_true] at hi'
                cases hi'; rfl
            rw [this]; omega
          | _ => simp [Op.heard] at hh
        · rw [hlog] at hc; unfold logStep at hc; rw [hi', hh] at hc; simp only [if_neg hr] at hc; omega

/-- After a clean-up only rounds of its window are cached. -/
theorem clean_window (c : Conf) (ops : List Op) (round : Nat) (h : Head) (r : Nat) :
    get (run c (ops ++ [.clean round h])).rounds r =
      if h.bottom ≤ r ∧ round ≤ r + c.total ∧ r ≤ round + c.keep then get (run c ops).rounds r else none := by
  rw [run_snoc]
  simp only [step, St.clean, get_del, decide_eq_true_eq]
  by_cases hk : h.bottom ≤ r ∧ round ≤ r + c.total ∧ r ≤ round + c.keep
  · rw [if_pos hk, if_neg]; omega
  · rw [if_neg hk, if_pos]; omega

end Tycho.BcastFilter
