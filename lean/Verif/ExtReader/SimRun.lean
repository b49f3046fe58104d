import Verif.ExtReader.SimColl
/-! The refill goes through the groups of the run up to its end. -/
namespace Tycho.ExtReader
variable {B : Type}

def simKey (r : Range B) : Nat × Nat × Nat × B × Key := (r.seqno, r.ct, r.skip, r.buf, r.cur)

theorem Aligned.congr {o : Ops B} {key : Key} {rs rs2 FR ps : List (Range B)} (h : Aligned o key rs FR ps)
    (he : rs2.map simKey = rs.map simKey) : Aligned o key rs2 FR ps := by
  obtain ⟨pre, rs', preF, Xs, ext, Ps, h1, h2, h3, h4, h5, h6⟩ := h
  rw [h1, List.map_append] at he
  obtain ⟨pre2, rs2', k1, k2, k3⟩ := List.map_eq_append_iff.1 he
  refine ⟨pre2, rs2', preF, Xs, ext, Ps, k1, h2, h3, h4.congr k3, h5, ?_⟩
  cases h6 with
  | none =>
    have : pre2 = [] := by simpa using k2
    rw [this]; exact Pre.none
  | one r x b1 b2 =>
    cases pre2 with
    | nil => simp at k2
    | cons q t =>
      cases t with
      | cons _ _ => simp at k2
      | nil =>
        simp only [List.map_cons, List.map_nil, List.cons.injEq, and_true, simKey, Prod.mk.injEq] at k2
        exact Pre.one q x (by rw [k2.2.2.2.1]; exact b1) (by rw [k2.2.2.2.2]; exact b2)

theorem futOf_append (A Y : List Anchor) (h : H B) (hA : h.anchors = A) : futOf (A ++ Y) h = Y := by
  simp [futOf, hA]

theorem futA_imp {c : Cfg B} {all : List Anchor} {h : H B} (a : Anchor) (log : List Item)
    (hexp : expiredAt c.timeout h.st.ct a.ct = false)
    (hA : FutA c.timeout all ⟨importAnchor c.ours a h.st, h.anchors ++ [a], log⟩) :
    FutA c.timeout all h ∧ futOf all h = a :: futOf all ⟨importAnchor c.ours a h.st, h.anchors ++ [a], log⟩ := by
  have hfut : futOf all h = a :: futOf all ⟨importAnchor c.ours a h.st, h.anchors ++ [a], log⟩ := by
    have := hA.eq
    simp only [List.append_assoc, List.cons_append, List.nil_append] at this
    generalize futOf all ⟨importAnchor c.ours a h.st, h.anchors ++ [a], log⟩ = X at this ⊢
    rw [this]
    exact futOf_append _ _ _ rfl
  refine ⟨⟨?_, ?_, hA.sorted⟩, hfut⟩
  · rw [hfut]
    have := hA.eq
    simpa using this
  · rw [hfut]
    intro x hx
    rcases List.mem_cons.1 hx with h1 | h1
    · rw [h1]; exact hexp
    · exact hA.fresh x h1

theorem sim_imp {c : Cfg B} {all : List Anchor} {FR : List (Range B)} {h : H B} {P : St B} (a : Anchor) (log : List Item)
    (hfut : futOf all h = a :: futOf all ⟨importAnchor c.ours a h.st, h.anchors ++ [a], log⟩) (hs : Sim c all FR h P) :
    Sim c all FR ⟨importAnchor c.ours a h.st, h.anchors ++ [a], log⟩ P := by
  refine ⟨hs.al, hs.off, hs.procTo, ?_, hs.block, hs.allF⟩
  obtain ⟨J, h1, h2⟩ := hs.cache
  refine ⟨J, ?_, h2⟩
  rw [h1, hfut, List.filter_cons]
  simp only [importAnchor, hasOurs]
  split <;> simp

theorem fin_off (s : St B) : (finalize s).off = s.off ∧ (finalize s).procTo = s.procTo ∧ (finalize s).cache = s.cache ∧
    (finalize s).ranges.map simKey = s.ranges.map simKey := by
  unfold finalize
  split
  · exact ⟨rfl, rfl, rfl, rfl⟩
  · rename_i r hl
    split
    · refine ⟨rfl, rfl, rfl, ?_⟩
      obtain ⟨l, h1⟩ := List.getLast?_eq_some_iff.1 hl
      simp only [h1, List.dropLast_concat, List.map_append]
      rfl
    · exact ⟨rfl, rfl, rfl, rfl⟩

theorem getLast_simKey {l l' : List (Range B)} (h : l'.map simKey = l.map simKey) {r : Range B} (hr : l.getLast? = some r) :
    ∃ q, l'.getLast? = some q ∧ simKey q = simKey r := by
  have h1 : (l'.map simKey).getLast? = some (simKey r) := by rw [h, List.getLast?_map, hr]; rfl
  rw [List.getLast?_map] at h1
  cases hq : l'.getLast? with
  | none => rw [hq] at h1; cases h1
  | some q => rw [hq] at h1; exact ⟨q, rfl, by simpa using h1⟩

theorem sim_block {c : Cfg B} {all : List Anchor} {FR : List (Range B)} {h : H B} {P : St B} (b ct : Nat) (log : List Item)
    (hs : Sim c all FR h P) : Sim c all FR ⟨newBlock b ct (finalize h.st), h.anchors, log⟩ P := by
  obtain ⟨f1, f2, f3, f4⟩ := fin_off h.st
  have hr : (newBlock b ct (finalize h.st)).ranges.map simKey = h.st.ranges.map simKey := by
    rw [← f4]; simp only [newBlock, List.map_map]; rfl
  refine ⟨hs.al.congr hr, ?_, ?_, ?_, hs.block, hs.allF⟩
  · rw [hs.off]; exact f1.symm
  · rw [hs.procTo]; exact f2.symm
  · obtain ⟨J, h1, h2⟩ := hs.cache
    refine ⟨J, ?_, ?_⟩
    · rw [h1]
      change _ = J ++ ((finalize h.st).cache ++ _)
      rw [f3]; rfl
    · intro a ha
      obtain ⟨r, r1, r2⟩ := h2 a ha
      obtain ⟨q, q1, q2⟩ := getLast_simKey hr r1
      simp only [simKey, Prod.mk.injEq] at q2
      exact ⟨q, q1, by rw [q2.2.2.2.2, q2.2.1]; exact r2⟩

theorem futA_block {c : Cfg B} {all : List Anchor} {h : H B} (b ct : Nat) (log : List Item) (hct : h.st.ct ≤ ct)
    (hA : FutA c.timeout all ⟨newBlock b ct (finalize h.st), h.anchors, log⟩) : FutA c.timeout all h := by
  refine ⟨hA.eq, fun x hx => ?_, hA.sorted⟩
  have h1 := hA.fresh x hx
  cases h2 : expiredAt c.timeout h.st.ct x.ct with
  | false => rfl
  | true =>
    have := expired_mono h2 hct
    change expiredAt c.timeout ct x.ct = false at h1
    rw [h1] at this; cases this

/-- A run without a group after which all read messages are collected. -/
inductive Seg (c : Cfg B) (f : Collect B) : G B → G B → Prop
  | refl (g : G B) : Seg c f g g
  | head {g g' F : G B} : SegStep c f g g' → Seg c f g' F → Seg c f g F

theorem seg_step_group {c : Cfg B} {f : Collect B} {h : H B} (hi : Inv c.ours c.timeout h) (limit : Nat) (np reading : Bool)
    (hn : allCollected c.ops (group (c.env limit np) .continue_ reading f h.st).st.off
        (group (c.env limit np) .continue_ reading f h.st).st.ranges = false) :
    (group (c.env limit np) .continue_ reading f h.st).st.off = h.st.off + 1 ∧
      (group (c.env limit np) .continue_ reading f h.st).st.procTo = h.st.procTo ∧
      (group (c.env limit np) .continue_ reading f h.st).st.ct = h.st.ct := by
  obtain ⟨s2, h1, h2, h3, _, h4⟩ := group_parts hi limit np reading hn
  rw [h3]
  refine ⟨by simp only [h1], h2, ?_⟩
  rcases h4 with ⟨b, h5, _⟩ | ⟨_, l, r, b, _, _, h5⟩ | ⟨_, _, b, h5⟩ <;> rw [h5] <;> rfl

structure SegFacts (c : Cfg B) (g F : G B) : Prop where
  off : g.h.st.off ≤ F.h.st.off
  procTo : F.h.st.procTo = g.h.st.procTo
  reach : Reach c.ours c.timeout F.h
  ne : F.h.st.ranges ≠ []
  block : g.h.st.block ≤ F.h.st.block

theorem group_block (e : Env B) (gm : GMode) (reading : Bool) (f : Collect B) (s : St B) : (group e gm reading f s).st.block = s.block := by
  have h1 : (readAll e gm s).st.block = s.block := by
    unfold readAll
    simp only
    split
    · rfl
    · split
      · rfl
      · split <;> rfl
  have h2 : ∀ s : St B, (collectStep e f s).block = s.block := by
    intro s
    unfold collectStep
    simp only
    split
    · unfold finishCollected; split <;> rfl
    · rfl
  unfold group
  have h3 : (if (!reading || (decide (gm = .refill) && offsetReached s)) = true then (⟨s, [], false⟩ : Res B) else readAll e gm s).st.block = s.block := by
    split
    · rfl
    · exact h1
  simp only
  generalize (if (!reading || (decide (gm = .refill) && offsetReached s)) = true then (⟨s, [], false⟩ : Res B) else readAll e gm s) = r at h3 ⊢
  split
  · exact h3
  · exact (h2 _).trans h3

theorem seg_facts {c : Cfg B} {f : Collect B} {g F : G B} (hs : Seg c f g F) (hr : Reach c.ours c.timeout g.h) (hne : g.h.st.ranges ≠ []) :
    SegFacts c g F := by
  induction hs with
  | refl g => exact ⟨Nat.le_refl _, rfl, hr, hne, Nat.le_refl _⟩
  | @head g g' F h1 h2 ih =>
    have hi := inv_reach hr
    have ih := ih (Reach.step hr h1.toStep) (seg_ranges_ne hi h1 hne)
    have hoff : g.h.st.off ≤ g'.h.st.off ∧ g'.h.st.procTo = g.h.st.procTo ∧ g.h.st.block ≤ g'.h.st.block := by
      cases h1 with
      | imp a _ _ => exact ⟨Nat.le_refl _, rfl, Nat.le_refl _⟩
      | reset => exact ⟨Nat.le_refl _, rfl, Nat.le_refl _⟩
      | group limit np reading _ hn =>
        obtain ⟨k1, k2, _⟩ := seg_step_group hi limit np reading hn
        exact ⟨by simp only [k1]; omega, k2, by simp only [group_block]; omega⟩
      | block b ct hb _ =>
        obtain ⟨f1, f2, _, _⟩ := fin_off g.h.st
        exact ⟨by simp only [newBlock, f1]; omega, f2, by simp only [newBlock]; omega⟩
    exact ⟨Nat.le_trans hoff.1 ih.off, by rw [ih.procTo]; exact hoff.2.1, ih.reach, ih.ne, Nat.le_trans hoff.2.2 ih.block⟩

/-- What is known at the end holds in all states. -/
theorem seg_fut {c : Cfg B} {f : Collect B} {g F : G B} (hs : Seg c f g F) (hr : Reach c.ours c.timeout g.h) (hne : g.h.st.ranges ≠ []) :
    Fut c.timeout g.h.st g.rd g.h.st.off (finalize F.h.st).ranges := by
  induction hs with
  | refl g => exact fut_end (inv_reach hr) hne g.rd
  | head h1 _ ih =>
    have hi := inv_reach hr
    exact fut_step hi hne h1 (ih (Reach.step hr h1.toStep) (seg_ranges_ne hi h1 hne))

theorem seg_futA {c : Cfg B} {f : Collect B} {all : List Anchor} {g F : G B} (hs : Seg c f g F) (hA : FutA c.timeout all F.h)
    (hr : Reach c.ours c.timeout g.h) : FutA c.timeout all g.h := by
  induction hs with
  | refl g => exact hA
  | head h1 _ ih =>
    have ih := ih hA (Reach.step hr h1.toStep)
    cases h1 with
    | imp a _ hexp => exact (futA_imp a _ hexp ih).1
    | reset => exact ⟨ih.eq, ih.fresh, ih.sorted⟩
    | group limit np reading _ hn =>
      obtain ⟨_, _, k3⟩ := seg_step_group (inv_reach hr) limit np reading hn
      refine ⟨ih.eq, fun x hx => ?_, ih.sorted⟩
      have := ih.fresh x hx
      simp only [k3] at this
      exact this
    | block b ct _ hct => exact futA_block b ct _ hct ih

/-- The refill from a state that matches the start of the run gets to one that matches its end. -/
theorem refill_seg {c : Cfg B} {f : Collect B} (hf : c.Fair f) {all : List Anchor} {g F : G B} (hs : Seg c f g F)
    (hr : Reach c.ours c.timeout g.h) (hne : g.h.st.ranges ≠ []) (hA : FutA c.timeout all F.h) (lim : Nat) (np : Bool)
    (z : Range B) (hz : (finalize F.h.st).ranges.getLast? = some z) (hzp : z.proc = F.h.st.off) {P : St B}
    (hsim : Sim c all (finalize F.h.st).ranges g.h P) :
    ∃ m Q, (∀ n, refill (c.env lim np) f (m + n) P = refill (c.env lim np) f n Q) ∧ Sim c all (finalize F.h.st).ranges F.h Q := by
  induction hs generalizing P with
  | refl g => exact ⟨0, P, fun n => by rw [Nat.zero_add], hsim⟩
  | @head g g' F h1 h2 ih =>
    have hi := inv_reach hr
    have hr' := Reach.step hr h1.toStep
    have hne' := seg_ranges_ne hi h1 hne
    have ih := fun P => @ih hr' hne' hA hz hzp P
    cases h1 with
    | imp a _ hexp =>
      exact ih P (sim_imp a _ (futA_imp a _ hexp (seg_futA h2 hA hr')).2 hsim)
    | reset => exact ih P ⟨hsim.al, hsim.off, hsim.procTo, hsim.cache, hsim.block, hsim.allF⟩
    | block b ct _ _ => exact ih P (sim_block b ct _ hsim)
    | group limit np' reading hrd hn =>
      have hfa := seg_facts h2 hr' hne'
      have hoff := (seg_step_group hi limit np' reading hn).1
      have hle := hfa.off
      simp only [hoff] at hle
      have hFA : FutA c.timeout all g.h := seg_futA (Seg.head (SegStep.group g limit np' reading hrd hn) h2) hA hr
      obtain ⟨k1, k2⟩ := sim_group hf hi (af_reach hr) hne hsim hFA limit lim np' np reading hn (seg_fut h2 hr' hne') z hz (by omega)
        (g.h.log ++ (group (c.env limit np') .continue_ reading f g.h.st).put.map (·.2))
      obtain ⟨m, Q, m1, m2⟩ := ih _ k2
      refine ⟨m + 1, Q, fun n => ?_, m2⟩
      rw [← m1, show m + 1 + n = (m + n) + 1 from by omega, refill, k1]
      rfl

end Tycho.ExtReader
