import Verif.CumulStats.Inv

/-! The operations that change the statistics preserve the invariant. -/
namespace Tycho.CumulStats
open Tycho.Table

/-! ### an update of processed positions -/

/-- What an update makes of the value of a diff. -/
def updF (env : Env) (c : Cum) (dst : Nat) (pt : ProcTo) (a : Nat) (id : DiffId) : Nat :=
  if selId pt id = true ∧ env.contains dst a = true then 0
  else if stagedFor env (stgOf c) id a then 0 else lk c.diffs id a

theorem updF_pending {env : Env} {c : Cum} {s : Snap} (hb : Body env c s) {dst : Nat} {pt : ProcTo}
    (hl : ∀ x, Table.get s.proc dst = some x → Later x.2 pt) {r : Diff} (hr : r ∈ s.applied) (a : Nat) :
    pendingIn env (put s.proc dst (true, pt)) r a = updF env c dst pt a r.id := by
  have hu : Uniq s.proc := by rw [← hb.proc]; exact hb.uproc
  rw [pendingIn_put hu hl]
  unfold updF
  rw [← hb.pw r hr a]

theorem upd_vals {env : Env} {c : Cum} {s : Snap} (hb : Body env c s) {dst : Nat} {pt : ProcTo}
    (hl : ∀ x, Table.get s.proc dst = some x → Later x.2 pt) (p a : Nat) (u : Nat → Nat → Nat) :
    sumP (fun (d : Diff) a => if selId pt d.id = true ∧ env.contains dst a = true then 0 else eff env (stgOf c) d a) c.diffs p a =
      Snap.pending env ⟨s.applied, put s.proc dst (true, pt), u⟩ p a := by
  refine sum_pending hb.uapp hb.udiffs hb.ids _ a (updF env c dst pt a) _ ?_ ?_ ?_ p u
  · intro d hd
    unfold updF eff
    rw [lk_mem hb.udiffs hd]
  · intro r hr
    exact updF_pending hb hl hr a
  · intro id hid
    unfold updF
    rw [lk_not_mem hid]
    split
    · rfl
    · split <;> rfl

theorem staged_lk {env : Env} {c : Cum} {dst : Nat} {pt : ProcTo} {stg' : List (Nat × DiffId)}
    (h : ∀ x, x ∈ stg' ↔ x ∈ stgOf c ∨ ∃ d ∈ c.diffs, selId pt d.id = true ∧ x = (dst, d.id)) (id : DiffId) (a : Nat) :
    (if stagedFor env stg' id a then 0 else lk c.diffs id a) = updF env c dst pt a id := by
  unfold updF
  by_cases hm : id ∈ c.diffs.map Diff.id
  · obtain ⟨d, hd, hid⟩ := List.mem_map.mp hm
    have hiff : stagedFor env stg' id a = true ↔ (selId pt id = true ∧ env.contains dst a = true) ∨ stagedFor env (stgOf c) id a = true := by
      unfold stagedFor
      rw [List.any_eq_true, List.any_eq_true]
      constructor
      · rintro ⟨x, hx, hx2⟩
        rcases (h x).mp hx with h1 | ⟨d', hd', hs, rfl⟩
        · exact Or.inr ⟨x, h1, hx2⟩
        · simp only [Bool.and_eq_true, decide_eq_true_eq] at hx2
          left
          rw [← hx2.1]
          exact ⟨hs, hx2.2⟩
      · rintro (⟨h1, h2⟩ | ⟨x, hx, hx2⟩)
        · refine ⟨(dst, d.id), (h _).mpr (Or.inr ⟨d, hd, by rw [hid]; exact h1, rfl⟩), ?_⟩
          simp [hid, h2]
        · exact ⟨x, (h x).mpr (Or.inl hx), hx2⟩
    by_cases h1 : selId pt id = true ∧ env.contains dst a = true
    · rw [if_pos (hiff.mpr (Or.inl h1)), if_pos h1]
    · rw [if_neg h1]
      by_cases h2 : stagedFor env (stgOf c) id a = true
      · rw [if_pos (hiff.mpr (Or.inr h2)), if_pos h2]
      · rw [if_neg h2, if_neg]
        intro h3
        rcases hiff.mp h3 with h4 | h4
        · exact h1 h4
        · exact h2 h4
  · rw [lk_not_mem hm]
    split
    · split
      · rfl
      · split <;> rfl
    · split
      · rfl
      · split <;> rfl

theorem inv_update {env : Env} (hdis : Disjoint env) {c : Cum} {s : Spec} (h : Inv env c s) {dst : Nat} {pt : ProcTo}
    (hl : Legal env s (.update dst pt)) :
    ∃ c', c.handleUpdate env dst pt = some c' ∧ Inv env c' (s.step env (.update dst pt)) := by
  obtain ⟨hb, ht⟩ := h
  simp only [Legal] at hl
  have hrv : ∀ p a, env.contains env.own a = false → rv c.result p a = iv c.result p a := by
    intro p a ha
    rw [hb.rems, ha]
    rfl
  have hiv : ∀ p a, iv c.result p a = 0 + sumP (eff env (stgOf c)) c.diffs p a := by
    intro p a; rw [hb.sumEff]; omega
  have hproc : c.proc = s.now.proc := hb.proc
  cases htx : c.tx with
  | some t =>
    have hstg : stgOf c = t.staged := by unfold stgOf; rw [htx]
    obtain ⟨res', stg', ds', hloop, post⟩ := loop_spec hdis (dst := dst) (pt := pt) (mode := .staged) (by simp)
      (stg := stgOf c) (R := fun _ _ => 0) hb.ures hb.ok hb.udiffs hb.dstats (fun _ _ _ => rfl) (by simp) hiv hrv
    have hds : ds' = c.diffs := by rw [post.dsEq]; simp
    have hstgIff : ∀ x, x ∈ stg' ↔ x ∈ stgOf c ∨ ∃ d ∈ c.diffs, selId pt d.id = true ∧ x = (dst, d.id) := by
      intro x; rw [post.stgIff]; simp
    refine ⟨⟨put c.proc dst (true, pt), c.diffs, res', some { t with staged := stg', updates := put t.updates dst pt }⟩, ?_, ?_, ?_⟩
    · unfold Cum.handleUpdate process
      rw [htx]
      simp only
      rw [← hstg, hloop, hds]
      rfl
    · simp only [Spec.step, Snap.step]
      constructor
      · simp only; rw [hproc]
      · exact uniq_put _ _ _ hb.uproc
      · exact uniq_of_keys post.rel.keys hb.ures
      · exact post.ok
      · have := flags_rel post.rel hb.flags
        rw [htx] at this
        exact this
      · exact hb.uapp
      · exact hb.udiffs
      · intro d hd
        obtain ⟨g1, g2, g3⟩ := hb.dstats d hd
        exact ⟨g1, g2, by simp only; rw [post.rel.isSome]; exact g3⟩
      · exact hb.ids
      · intro r hr a
        show (if stagedFor env stg' r.id a then 0 else lk c.diffs r.id a) = pendingIn env (put s.now.proc dst (true, pt)) r a
        rw [staged_lk hstgIff, updF_pending hb hl hr]
      · intro p a
        show iv res' p a = _
        rw [post.ivEq, Nat.zero_add]
        exact upd_vals hb hl p a s.now.unread
      · intro p a
        show rv res' p a = if env.contains env.own a then s.now.unread p a else iv res' p a
        cases ha : env.contains env.own a with
        | true =>
          rw [post.rvOwn p a ha, hb.rems, ha]
          rfl
        | false => rw [post.rvOther p a ha]; rfl
    · refine tx_rel_of ht rfl (by rw [htx]; rfl) ?_ ?_
      · intro t0 ht0 htok
        rw [htx] at ht0
        simp only [Option.some.injEq] at ht0
        subst ht0
        refine ⟨_, rfl, ?_⟩
        constructor
        · intro x hx
          simp only at hx ⊢
          rcases (hstgIff x).mp hx with h1 | ⟨d, hd, hs, rfl⟩
          · rw [hstg] at h1
            obtain ⟨pt0, hp0, hs0⟩ := htok.ka x h1
            by_cases hx1 : x.1 = dst
            · refine ⟨pt, by rw [get_put, if_pos hx1], ?_⟩
              obtain ⟨b, hb0⟩ := htok.kc x.1 pt0 hp0
              rw [hx1, hproc] at hb0
              exact sel_later (hl _ hb0) hs0
            · exact ⟨pt0, by rw [get_put, if_neg hx1]; exact hp0, hs0⟩
          · exact ⟨pt, by rw [get_put, if_pos rfl], hs⟩
        · intro dst' pt' hg d hd hs a ha
          simp only at hg hd ⊢
          rw [get_put] at hg
          split at hg
          · rename_i hd'
            simp only [Option.some.injEq] at hg
            subst hg; subst hd'
            exact Or.inl ((hstgIff _).mpr (Or.inr ⟨d, hd, hs, rfl⟩))
          · rcases htok.kb dst' pt' hg d hd hs a ha with h1 | h1
            · left
              apply (hstgIff _).mpr
              left
              rw [hstg]
              exact h1
            · exact Or.inr h1
        · intro dst' pt' hg
          simp only at hg ⊢
          rw [get_put] at hg ⊢
          split at hg
          · rename_i hd'
            simp only [Option.some.injEq] at hg
            subst hg
            exact ⟨true, by rw [if_pos hd']⟩
          · rename_i hd'
            rw [if_neg hd']
            exact htok.kc dst' pt' hg
        · intro x hx
          simp only at hx
          rcases (hstgIff x).mp hx with h1 | ⟨d, hd, hs, rfl⟩
          · rw [hstg] at h1
            exact htok.kd x h1
          · exact hb.ids d hd
        · exact uniq_put _ _ _ htok.uups
      · intro _
        rw [rollback_eq c t htx, rollback_eq _ _ rfl]
        simp only
        rw [undoR_rel post.rel (by rw [← htx]; exact hb.flags)]
  | none =>
    have hstg : stgOf c = [] := by unfold stgOf; rw [htx]
    obtain ⟨res', stg', ds', hloop, post⟩ := loop_spec hdis (dst := dst) (pt := pt) (mode := .immediate) (by simp)
      (stg := stgOf c) (R := fun _ _ => 0) hb.ures hb.ok hb.udiffs hb.dstats (fun _ _ _ => rfl) (fun _ => hstg) hiv hrv
    have hds : ds' = cutSel env dst pt c.diffs := by
      rw [post.dsEq]
      unfold cutSel
      simp
    have hcut : ((cutSel env dst pt c.diffs).map Diff.id).Nodup := by rw [cutSel_ids]; exact hb.udiffs
    have hmem : ∀ d' ∈ dropEmpty pt (cutSel env dst pt c.diffs), ∃ d ∈ c.diffs, d'.id = d.id ∧ d'.stats.Sublist d.stats := by
      intro d' hd'
      have hd := (List.mem_filter.mp hd').1
      unfold cutSel at hd
      obtain ⟨y, hy, rfl⟩ := List.mem_map.mp hd
      refine ⟨y, hy, ?_, ?_⟩
      · split <;> rfl
      · split
        · exact List.filter_sublist
        · exact List.Sublist.refl _
    refine ⟨⟨put c.proc dst (true, pt), dropEmpty pt (cutSel env dst pt c.diffs), res', none⟩, ?_, ?_, ?_⟩
    · unfold Cum.handleUpdate process
      rw [htx]
      simp only
      rw [← hstg, hloop, hds]
      rfl
    · simp only [Spec.step, Snap.step]
      constructor
      · simp only; rw [hproc]
      · exact uniq_put _ _ _ hb.uproc
      · exact uniq_of_keys post.rel.keys hb.ures
      · exact post.ok
      · have := flags_rel post.rel hb.flags
        rw [htx] at this
        exact this
      · exact hb.uapp
      · exact hcut.sublist (List.filter_sublist.map _)
      · intro d' hd'
        obtain ⟨d, hd, hid, hsub⟩ := hmem d' hd'
        obtain ⟨g1, g2, g3⟩ := hb.dstats d hd
        refine ⟨?_, fun e he => g2 e (hsub.subset he), ?_⟩
        · unfold Uniq at *; exact g1.sublist (hsub.map _)
        · simp only; rw [hid, post.rel.isSome]; exact g3
      · intro d' hd'
        obtain ⟨d, hd, hid, _⟩ := hmem d' hd'
        rw [hid]
        exact hb.ids d hd
      · intro r hr a
        show (if stagedFor env [] r.id a then 0 else lk (dropEmpty pt (cutSel env dst pt c.diffs)) r.id a) =
          pendingIn env (put s.now.proc dst (true, pt)) r a
        rw [updF_pending hb hl hr, lk_dropEmpty hcut, lk_cutSel]
        unfold updF
        rw [hstg]
        rfl
      · intro p a
        show iv res' p a = _
        rw [post.ivEq, Nat.zero_add]
        exact upd_vals hb hl p a s.now.unread
      · intro p a
        show rv res' p a = if env.contains env.own a then s.now.unread p a else iv res' p a
        cases ha : env.contains env.own a with
        | true =>
          rw [post.rvOwn p a ha, hb.rems, ha]
          rfl
        | false => rw [post.rvOther p a ha]; rfl
    · refine tx_rel_of ht rfl (by rw [htx]) ?_ ?_
      · intro t ht'; rw [htx] at ht'; simp at ht'
      · intro hh; rw [htx] at hh; simp at hh

end Tycho.CumulStats
