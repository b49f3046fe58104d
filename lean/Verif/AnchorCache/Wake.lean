import Verif.AnchorCache.Props
/-!
Closing hides exactly what comes after; duplicates and forks; no wake-up is lost.
-/
namespace Tycho.AnchorCache

/-! ### Closing -/

/-- **A closed cache answers as if what comes after were not there**, for every request; dropping it when the cache is
opened again changes no answer, and keeping it gives the answers of the whole cache. -/
theorem closed_hides_the_rest (c : Cache) (h : Ordered c.anchors) (x : Nat) (hx : c.off = some x) (r : Req) :
    c.answer r = specAnswer (c.anchors.filter (fun a => decide (a.id ≤ x))) r ∧
      (c.reopen true).1.answer r = c.answer r ∧ (c.reopen true).1.anchors = c.anchors.filter (fun a => decide (a.id ≤ x)) ∧
      (c.reopen false).1.answer r = specAnswer c.anchors r ∧ (c.reopen true).2 = some x ∧
      (∀ a, c.answer r = .some a → a ∈ c.anchors ∧ a.id ≤ x) := by
  have hv : c.visible = c.anchors.filter (fun a => decide (a.id ≤ x)) := by unfold Cache.visible; rw [hx]
  have h1 := answer_exact c h r
  rw [hv] at h1
  have hcut : c.anchors.take (pos c.anchors (x + 1)) = c.anchors.filter (fun a => decide (a.id ≤ x)) := by
    rw [take_pos, takeWhile_eq_filter h]
    congr 1
    funext a
    rw [decide_eq_decide]
    omega
  have e1 : (c.reopen true).1 =
      { c with off := none, anchors := c.anchors.filter (fun a => decide (a.id ≤ x)), owed := c.owed + 1 } := by
    unfold Cache.reopen; rw [hx]; simp only [if_true]; rw [hcut]
  have e2 : (c.reopen false).1 = { c with off := none, owed := c.owed + 1 } := by
    unfold Cache.reopen; rw [hx]; rfl
  refine ⟨h1, ?_, by rw [e1], ?_, by unfold Cache.reopen; rw [hx]; rfl, ?_⟩
  · rw [h1, e1]
    exact answer_exact _ (h.sub List.filter_sublist) r
  · rw [e2]
    exact answer_exact { c with off := none, owed := c.owed + 1 } h r
  · intro a ha
    rw [h1] at ha
    have : a ∈ c.anchors.filter (fun a => decide (a.id ≤ x)) := by
      cases r with
      | byId id =>
        simp only [specAnswer, specById] at ha
        split at ha
        · rename_i b hb
          injection ha with ha
          exact ha ▸ List.mem_of_find?_eq_some hb
        · split at ha <;> cases ha
      | next prev =>
        simp only [specAnswer, specNext] at ha
        split at ha
        · cases ha
        · rename_i n hn
          have hmem := List.mem_of_find?_eq_some hn
          split at ha
          · split at ha
            · injection ha with ha; exact ha ▸ hmem
            · cases ha
          · split at ha
            · cases ha
            · split at ha
              · injection ha with ha; exact ha ▸ hmem
              · split at ha <;> cases ha
    have := List.mem_filter.1 this
    exact ⟨this.1, of_decide_eq_true this.2⟩

/-! ### Duplicates and forks -/

/-- The same anchor as the known one, except that the link to the previous one may be missing. -/
def sameAs (old new : Anchor) : Prop :=
  old.id = new.id ∧ (new.prev = none ∨ new.prev = old.prev) ∧ old.author = new.author ∧ old.time = new.time ∧
    old.exts = new.exts

theorem zip_any_ne (l m : List Nat) (h : l.length = m.length) :
    (l.zip m).any (fun p => decide (p.1 ≠ p.2)) = false ↔ l = m := by
  induction l generalizing m with
  | nil =>
    cases m with
    | nil => simp
    | cons b m => simp at h
  | cons a l ih =>
    cases m with
    | nil => simp at h
    | cons b m =>
      have := ih m (by simpa using h)
      simp only [List.zip_cons_cons, List.any_cons, Bool.or_eq_false_iff, this]
      simp

/-- **An anchor is never replaced**: pushing an id that is known changes nothing; it succeeds exactly if the anchor is
the same in every part (only the link to the previous one may be missing), and is an error otherwise. -/
theorem anchor_never_replaced (c : Cache) (old new : Anchor) (h : Ordered c.anchors) (ho : old ∈ c.anchors)
    (hid : old.id = new.id) : (c.push new).1 = c ∧ ((c.push new).2 = true ↔ sameAs old new) := by
  have hf : find c.anchors new.id = some old := (find_some_iff h new.id old).2 ⟨ho, hid⟩
  unfold Cache.push
  rw [hf]
  refine ⟨rfl, ?_⟩
  unfold forked sameAs
  by_cases hl : old.exts.length = new.exts.length
  · have hz := zip_any_ne _ _ hl
    simp only [Bool.not_eq_true', Bool.or_eq_false_iff, hz]
    have hp : (new.prev.isSome && decide (old.prev ≠ new.prev)) = false ↔ (new.prev = none ∨ new.prev = old.prev) := by
      cases new.prev with
      | none => simp
      | some p =>
        constructor
        · intro hh
          right
          by_contra hc
          have : old.prev ≠ some p := fun e => hc e.symm
          simp [this] at hh
        · rintro (hh | hh)
          · cases hh
          · simp [← hh]
    rw [hp]
    simp only [decide_eq_false_iff_not, ne_eq, Decidable.not_not]
    constructor
    · rintro ⟨⟨⟨⟨h1, h2⟩, _⟩, h3⟩, h4⟩; exact ⟨hid, h1, h4, h2, h3⟩
    · rintro ⟨_, h1, h4, h2, h3⟩; exact ⟨⟨⟨⟨h1, h2⟩, hl⟩, h3⟩, h4⟩
  · constructor
    · intro hh
      simp [hl] at hh
    · rintro ⟨_, _, _, _, h5⟩
      exact absurd (congrArg _ h5) hl

/-! ### Wake-ups -/

/-- Steps in which new anchors come in the order of ids. -/
def Step.ok (s : Sys) : Step → Prop
  | .push a => (∃ b ∈ s.cache.anchors, b.id = a.id) ∨ ∀ b ∈ s.cache.anchors, b.id < a.id
  | _ => True

/-- A history of such steps. -/
def runOk (s : Sys) : List Step → Prop
  | [] => True
  | a :: l => a.ok s ∧ runOk (s.step a) l

theorem push_ordered {c : Cache} (h : Ordered c.anchors) (a : Anchor)
    (hok : (∃ b ∈ c.anchors, b.id = a.id) ∨ ∀ b ∈ c.anchors, b.id < a.id) : Ordered (c.push a).1.anchors := by
  unfold Cache.push
  cases hf : find c.anchors a.id with
  | some old => exact h
  | none =>
    simp only
    rw [find_none_iff] at hf
    rcases hok with ⟨b, hb, he⟩ | hlt
    · exact absurd he (hf b hb)
    · refine List.pairwise_append.2 ⟨h, by simp, ?_⟩
      intro b hb d hd
      rw [List.mem_singleton] at hd
      exact hd ▸ hlt b hb

theorem reopen_sub (c : Cache) (d : Bool) : (c.reopen d).1.anchors.Sublist c.anchors := by
  unfold Cache.reopen
  split
  · exact List.Sublist.refl _
  · split
    · exact List.take_sublist _ _
    · exact List.Sublist.refl _

/-- A reader that has nothing to return is not helped by the removal of old anchors. -/
theorem clear_keeps_waiting (c : Cache) (h : Ordered c.anchors) (b : Nat) (r : Req) (hw : c.answer r = .wait) :
    (c.clear b).answer r = .wait := by
  have hsub : (c.clear b).anchors.Sublist c.anchors := List.drop_sublist _ _
  rw [answer_exact c h] at hw
  rw [answer_exact _ (h.sub hsub)]
  have hvis : ∀ a, a ∈ (c.clear b).visible → a ∈ c.visible := by
    intro a ha
    obtain ⟨h1, h2⟩ := (mem_visible _ a).1 ha
    exact (mem_visible _ a).2 ⟨hsub.subset h1, h2⟩
  cases r with
  | byId id =>
    simp only [specAnswer, specById] at *
    split at hw
    · cases hw
    · rename_i hn
      split at hw
      · cases hw
      · rename_i hnany
        rw [(find_none_iff _ _).2 (fun a ha => (find_none_iff _ _).1 hn a (hvis a ha))]
        simp only
        rw [if_neg]
        intro hany
        obtain ⟨a, ha, hl⟩ := List.any_eq_true.1 hany
        exact hnany (List.any_eq_true.2 ⟨a, hvis a ha, hl⟩)
  | next prev =>
    simp only [specAnswer, specNext] at *
    have : c.visible.find? (fun a => decide (prev < a.id)) = none := by
      split at hw
      · rename_i hn; exact hn
      · split at hw
        · split at hw <;> cases hw
        · split at hw
          · cases hw
          · split at hw
            · cases hw
            · split at hw <;> cases hw
    rw [List.find?_eq_none] at this
    rw [show (c.clear b).visible.find? (fun a => decide (prev < a.id)) = none from ?_]
    rw [List.find?_eq_none]
    exact fun a ha => this a (hvis a ha)

/-- What holds between steps: nobody sleeps on an answer. -/
structure Awake (s : Sys) : Prop where
  ord : Ordered s.cache.anchors
  sub : ∀ r g, (r, Stage.subscribed g) ∈ s.readers → g ≤ s.cache.gen
  wait : ∀ r g, (r, Stage.waiting g) ∈ s.readers → g ≤ s.cache.gen ∧
    (g = s.cache.gen → s.cache.owed = 0 → s.cache.answer r = .wait)

theorem mem_modify {α : Type} (l : List α) (i : Nat) (f : α → α) (x : α) (h : x ∈ l.modify i f) :
    x ∈ l ∨ ∃ y ∈ l, x = f y := by
  induction l generalizing i with
  | nil => simp at h
  | cons a l ih =>
    cases i with
    | zero =>
      simp only [List.modify_zero_cons, List.mem_cons] at h
      rcases h with h | h
      · exact Or.inr ⟨a, List.mem_cons_self, h⟩
      · exact Or.inl (List.mem_cons_of_mem _ h)
    | succ i =>
      simp only [List.modify_succ_cons, List.mem_cons] at h
      rcases h with h | h
      · exact Or.inl (by rw [h]; exact List.mem_cons_self)
      · rcases ih i h with h | ⟨y, h1, h2⟩
        · exact Or.inl (List.mem_cons_of_mem _ h)
        · exact Or.inr ⟨y, List.mem_cons_of_mem _ h1, h2⟩

theorem awake_step {s : Sys} (h : Awake s) (a : Step) (hok : a.ok s) : Awake (s.step a) := by
  cases a with
  | close x =>
    exact ⟨h.ord, h.sub, fun r g hm => ⟨(h.wait r g hm).1, fun _ ho => absurd ho (Nat.succ_ne_zero _)⟩⟩
  | reopen d =>
    refine ⟨h.ord.sub (reopen_sub _ _), fun r g hm => ?_, fun r g hm => ?_⟩
    · have : (s.cache.reopen d).1.gen = s.cache.gen := by
        unfold Cache.reopen
        split
        · rfl
        · split <;> rfl
      exact Nat.le_trans (h.sub r g hm) (by rw [← this]; exact Nat.le_refl _)
    · obtain ⟨h1, h2⟩ := h.wait r g hm
      change g ≤ (s.cache.reopen d).1.gen ∧ (g = (s.cache.reopen d).1.gen → (s.cache.reopen d).1.owed = 0 →
        (s.cache.reopen d).1.answer r = .wait)
      unfold Cache.reopen
      split
      · exact ⟨h1, h2⟩
      · split <;> exact ⟨h1, fun _ ho => absurd ho (Nat.succ_ne_zero _)⟩
  | push a =>
    refine ⟨push_ordered h.ord a hok, fun r g hm => ?_, fun r g hm => ?_⟩
    · have : (s.cache.push a).1.gen = s.cache.gen := by unfold Cache.push; split <;> rfl
      exact Nat.le_trans (h.sub r g hm) (by rw [← this]; exact Nat.le_refl _)
    · obtain ⟨h1, h2⟩ := h.wait r g hm
      change g ≤ (s.cache.push a).1.gen ∧ (g = (s.cache.push a).1.gen → (s.cache.push a).1.owed = 0 →
        (s.cache.push a).1.answer r = .wait)
      unfold Cache.push
      split
      · exact ⟨h1, h2⟩
      · exact ⟨h1, fun _ ho => absurd ho (Nat.succ_ne_zero _)⟩
  | setPaused p =>
    exact ⟨h.ord, h.sub, fun r g hm => ⟨(h.wait r g hm).1, fun _ ho => absurd ho (Nat.succ_ne_zero _)⟩⟩
  | clear b =>
    refine ⟨h.ord.sub (List.drop_sublist _ _), h.sub, fun r g hm => ⟨(h.wait r g hm).1, fun hg ho => ?_⟩⟩
    exact clear_keeps_waiting _ h.ord b r ((h.wait r g hm).2 hg ho)
  | notify =>
    unfold Sys.step
    simp only
    split
    · exact h
    · refine ⟨h.ord, fun r g hm => ?_, fun r g hm => ?_⟩
      · exact Nat.le_succ_of_le (h.sub r g hm)
      · have := (h.wait r g hm).1
        exact ⟨Nat.le_succ_of_le this, fun he => absurd he (by simp only; omega)⟩
  | call r =>
    refine ⟨h.ord, fun r' g hm => ?_, fun r' g hm => ?_⟩
    · rcases List.mem_append.1 hm with hm | hm
      · exact h.sub r' g hm
      · simp at hm
    · rcases List.mem_append.1 hm with hm | hm
      · exact h.wait r' g hm
      · simp at hm
  | subscribe i =>
    refine ⟨h.ord, fun r g hm => ?_, fun r g hm => ?_⟩ <;> rcases mem_modify _ _ _ _ hm with hm | ⟨⟨r', y⟩, hy, he⟩
    · exact h.sub r g hm
    · unfold subscribeStage at he
      split at he
      · injection he with e1 e2; injection e2 with e2; exact e2 ▸ Nat.le_refl _
      · exact h.sub r g (he ▸ hy)
    · exact h.wait r g hm
    · unfold subscribeStage at he
      split at he
      · injection he with e1 e2; cases e2
      · exact h.wait r g (he ▸ hy)
  | attempt i =>
    refine ⟨h.ord, fun r g hm => ?_, fun r g hm => ?_⟩ <;> rcases mem_modify _ _ _ _ hm with hm | ⟨⟨r', y⟩, hy, he⟩
    · exact h.sub r g hm
    · unfold attemptStage at he
      split at he
      · rename_i r'' g'' heq
        injection he with e1 e2
        unfold afterAttempt at e2
        split at e2 <;> cases e2
      · exact h.sub r g (he ▸ hy)
    · exact h.wait r g hm
    · unfold attemptStage at he
      split at he
      · rename_i r'' g'' heq
        injection heq with q1 q2
        subst q1 q2
        injection he with e1 e2
        subst e1
        unfold afterAttempt at e2
        split at e2
        · rename_i hw
          injection e2 with e2
          subst e2
          exact ⟨h.sub _ _ hy, fun _ _ => hw⟩
        · cases e2
      · exact h.wait r g (he ▸ hy)
  | wake i =>
    refine ⟨h.ord, fun r g hm => ?_, fun r g hm => ?_⟩ <;> rcases mem_modify _ _ _ _ hm with hm | ⟨⟨r', y⟩, hy, he⟩
    · exact h.sub r g hm
    · unfold wakeStage at he
      split at he
      · split at he <;> (injection he with e1 e2; cases e2)
      · exact h.sub r g (he ▸ hy)
    · exact h.wait r g hm
    · unfold wakeStage at he
      split at he
      · rename_i r'' g'' heq
        injection heq with q1 q2
        subst q1 q2
        split at he
        · injection he with e1 e2; cases e2
        · injection he with e1 e2
          injection e2 with e2
          subst e1 e2
          exact h.wait _ _ hy
      · exact h.wait r g (he ▸ hy)

theorem awake_run (l : List Step) : ∀ {s : Sys}, Awake s → runOk s l → Awake (s.run l) := by
  induction l with
  | nil => exact fun h _ => h
  | cons a l ih => exact fun h hok => ih (awake_step h a hok.1) hok.2

theorem awake_new : Awake .new := ⟨List.Pairwise.nil, by simp [Sys.new], by simp [Sys.new]⟩

/-- **No reader sleeps on an answer.** After any interleaving of writers and readers (in which anchors come in order):
if a reader waits, all operations have returned, and there is an answer to its request, then its notification has come:
it wakes, tries again and returns the answer. -/
theorem no_lost_wakeup (l : List Step) (hok : runOk .new l) (i : Nat) (r : Req) (g : Nat)
    (hr : (Sys.new.run l).readers[i]? = some (r, .waiting g)) (ho : (Sys.new.run l).cache.owed = 0)
    (ha : (Sys.new.run l).cache.answer r ≠ .wait) :
    ((Sys.new.run l).run [.wake i, .subscribe i, .attempt i]).readers[i]? =
      some (r, .done ((Sys.new.run l).cache.answer r)) := by
  have h := awake_run l awake_new hok
  generalize Sys.new.run l = s at *
  have hm : (r, Stage.waiting g) ∈ s.readers := List.mem_of_getElem? hr
  obtain ⟨h1, h2⟩ := h.wait r g hm
  have hg : g < s.cache.gen := by
    by_contra hc
    exact ha (h2 (by omega) ho)
  simp only [Sys.run, List.foldl_cons, List.foldl_nil, Sys.step, List.getElem?_modify_eq, hr, Option.map_some,
    Option.map_eq_map, wakeStage, if_pos hg, subscribeStage, attemptStage, afterAttempt]

end Tycho.AnchorCache
