import Verif.KnownPeers.Aff
/-! The counters of affinity after any history. -/
namespace Tycho.KnownPeers
open Tycho.Table
open Tycho.Table (get)
variable {B : Nat → Prop} {R : List Nat} {n : Nat} {s t : St}

theorem counted_new : Counted (Bans []) (rejected []) 0 St.new := by
  refine ⟨fun i hi => ?_, fun i hi => ?_, ?_, fun i hi => ?_⟩
  · obtain ⟨l1, o, l2, he, _⟩ := hi; simp at he
  · simp [St.new] at hi
  · simp [St.new, rejected]
  · simp [rejected] at hi

/-- Nothing was banned or rejected. -/
theorem plain {C : Nat → Prop} {Q : List Nat} (h : Counted B R n t) (hC : ∀ i, C i ↔ B i) (hQ : Q = R) : Counted C Q n t := by
  subst hQ
  exact ⟨fun i hi => h.ban i ((hC i).1 hi), fun i hi hb => h.free i hi (fun hB => hb ((hC i).2 hB)), h.room, h.lim⟩

theorem counted_insertNew (h : Counted B R n s) (hl : n < banned) (hm : Mem s) (info : Info) (aff : Bool) :
    Counted B R (n + 1) ((s.alloc info aff).fromInner s.nextInner aff) := by
  cases aff with
  | false =>
    refine counted_alloc h rfl rfl hm (fun i hi => ?_) ?_
    · simp [St.fromInner, St.handleSimple, St.alloc, hi]
    · simp [St.fromInner, St.handleSimple, St.alloc]
  | true =>
    have h0 : Counted B R n (s.alloc info false) := by
      have := counted_alloc (t := s.alloc info false) h rfl rfl hm (fun i hi => by simp [St.alloc, hi]) (by simp [St.alloc])
      exact ⟨this.ban, this.free, h.room, this.lim⟩
    refine counted_gain h0 hl (mem_alloc hm info false) s.nextInner (Nat.lt_succ_self _) rfl rfl (fun j hj => ?_) ?_
    · simp [St.fromInner, St.handleAff, St.alloc, hj]
    · have hb : banned ≠ 0 := by decide
      simp [St.fromInner, St.handleAff, St.alloc, Inner.inc, Ne.symm hb]

theorem counted_insertOld (h : Counted B R n s) (hl : n < banned) (hm : Mem s) (i : Nat) (hi : i < s.nextInner) (info : Info)
    (aff : Bool) : Counted B R (n + 1) ((s.edit i (fun x => x.update info aff)).fromInner i aff) := by
  cases aff with
  | false =>
    refine counted_same h rfl rfl (fun j => ?_)
    by_cases hj : j = i
    · subst hj; simp [St.fromInner, St.handleSimple, St.edit, Inner.update, newer_aff]
    · simp [St.fromInner, St.handleSimple, St.edit, hj]
  | true =>
    refine counted_gain h hl hm i hi rfl rfl (fun j hj => ?_) ?_
    · simp [St.fromInner, St.handleAff, St.edit, hj]
    · simp [St.fromInner, St.handleAff, St.edit, Inner.update, newer_aff]

theorem find_stored {s : St} {p i : Nat} (he : get s.entries p = some (.stored i)) (hl : s.live i = true) :
    s.find p = some i := by
  unfold St.find; rw [he]; simp [hl]

theorem find_dead {s : St} {p i : Nat} (he : get s.entries p = some (.stored i)) (hl : ¬ s.live i = true) :
    s.find p = none := by
  unfold St.find; rw [he]; simp [hl]

theorem find_other {s : St} {p : Nat} (he : ∀ i, get s.entries p ≠ some (.stored i)) : s.find p = none := by
  unfold St.find
  split
  · rename_i i h; exact absurd h (he i)
  · rfl

theorem rejects_none {s : St} {info : Info} {aff allow : Bool}
    (h : ∀ i, s.find info.peer = some i → (s.inners i).isBanned = true ∨ ¬ info.created < (s.inners i).info.created ∨
      aff = false ∨ allow = true) : rejects s (.insert info aff allow) = none := by
  cases aff <;> cases allow <;> simp only [rejects]
  cases hf : s.find info.peer with
  | none => rfl
  | some i =>
    have := h i hf
    simp only [Option.bind_some, ite_eq_right_iff, reduceCtorEq, imp_false, not_and]
    intro hb hlt
    rcases this with h | h | h | h
    · rw [h] at hb; simp at hb
    · exact h hlt
    · simp at h
    · simp at h

theorem unwrap_wraps {s : St} {h w : Nat} (hs : s.shared h w = false) :
    (s.unwrap h w).wraps = del s.wraps (fun x => decide (x = w)) := by
  unfold St.unwrap; simp [hs]

theorem unwrap_inners (s : St) (h w : Nat) : (s.unwrap h w).inners = s.inners := by
  unfold St.unwrap; split <;> rfl

theorem unwrap_next (s : St) (h w : Nat) : (s.unwrap h w).nextInner = s.nextInner := by
  unfold St.unwrap; split <;> rfl

theorem counted_step (h : Counted B R n s) (hl : n < banned) (hm : Mem s) (o : Op)
    (hc : ∀ k w, o = .decrease k → get s.handles k = some (.aff w) → s.shared k w = false) :
    Counted (fun i => B i ∨ bannedBy s o = some i) (R ++ (rejects s o).toList) (n + 1) (s.step o) := by
  have P : bannedBy s o = none → rejects s o = none → Counted B R (n + 1) (s.step o) →
      Counted (fun i => B i ∨ bannedBy s o = some i) (R ++ (rejects s o).toList) (n + 1) (s.step o) := by
    intro h1 h2 h3
    exact plain h3 (by simp [h1]) (by simp [h2])
  have S : Counted B R (n + 1) s := counted_same h rfl rfl (fun _ => rfl)
  have PB : ∀ i, bannedBy s o = some i → rejects s o = none → i < s.nextInner → s.step o = s.edit i Inner.ban →
      Counted (fun i => B i ∨ bannedBy s o = some i) (R ++ (rejects s o).toList) (n + 1) (s.step o) := by
    intro i h1 h2 h3 h4
    rw [h1, h2, h4]
    exact plain (counted_ban h i h3 rfl rfl (fun j hj => by rw [edit_other _ _ _ _ hj]) (by rw [edit_same]; rfl))
      (fun _ => Iff.rfl) (by simp)
  cases o with
  | insert info aff allow =>
    cases he : get s.entries info.peer with
    | none =>
      have hr := rejects_none (s := s) (info := info) (aff := aff) (allow := allow)
        (by rw [find_other (by simp [he])]; simp)
      refine P rfl hr ?_
      simp only [St.step, St.insert, he]
      exact counted_insertNew h hl hm info aff
    | some e =>
      cases e with
      | banned =>
        have hr := rejects_none (s := s) (info := info) (aff := aff) (allow := allow)
          (by rw [find_other (by simp [he])]; simp)
        refine P rfl hr ?_
        simp only [St.step, St.insert, he]
        exact S
      | stored i =>
        by_cases hlv : s.live i = true
        · have hf := find_stored he hlv
          have hi := live_lt hm hlv
          by_cases hb : (s.inners i).isBanned = true
          · have hr := rejects_none (s := s) (info := info) (aff := aff) (allow := allow)
              (by intro j hj; rw [hf] at hj; simp only [Option.some.injEq] at hj; subst hj; exact .inl hb)
            refine P rfl hr ?_
            simp only [St.step, St.insert, he, hlv, hb, if_true]
            exact S
          · by_cases hlt : info.created < (s.inners i).info.created ∧ allow = false
            · have hst : s.step (.insert info aff allow) = s.edit i (fun x => x.update info aff) := by
                simp only [St.step, St.insert, he, hlv, hb, hlt]
                simp
              obtain ⟨h1, h2⟩ := hlt
              subst h2
              cases aff with
              | false =>
                refine P rfl rfl ?_
                rw [hst]
                refine counted_same h rfl rfl (fun j => ?_)
                by_cases hj : j = i
                · subst hj; rw [edit_same]; simp [Inner.update, newer_aff]
                · rw [edit_other _ _ _ _ hj]
              | true =>
                have hr : rejects s (.insert info true false) = some i := by
                  simp [rejects, hf, h1, hb]
                rw [hst, hr]
                refine plain (counted_reject h hl i hi (t := s.edit i (fun x => x.update info true)) rfl rfl
                  (fun j hj => by rw [edit_other _ _ _ _ hj]) ?_) (by simp [bannedBy]) rfl
                rw [edit_same]; simp [Inner.update, newer_aff]
            · have hr := rejects_none (s := s) (info := info) (aff := aff) (allow := allow)
                (by intro j hj; rw [hf] at hj; simp only [Option.some.injEq] at hj; subst hj
                    cases allow
                    · exact .inr (.inl (fun hx => hlt ⟨hx, rfl⟩))
                    · simp)
              refine P rfl hr ?_
              have hst : s.step (.insert info aff allow) = (s.edit i (fun x => x.update info aff)).fromInner i aff := by
                simp only [St.step, St.insert, he, hlv, hb, hlt]
                simp
              rw [hst]
              exact counted_insertOld h hl hm i hi info aff
        · have hr := rejects_none (s := s) (info := info) (aff := aff) (allow := allow)
            (by rw [find_dead he hlv]; simp)
          refine P rfl hr ?_
          simp only [St.step, St.insert, he, hlv]
          exact counted_insertNew h hl hm info aff
  | update k info =>
    refine P rfl rfl ?_
    simp only [St.step, St.update]
    split
    · exact S
    · rename_i i hi
      split
      · exact S
      · split
        · exact S
        · refine counted_same h rfl rfl (fun j => ?_)
          by_cases hj : j = i
          · subst hj; simp only [edit_same, newer_aff]
          · simp only [edit_other _ _ _ _ hj]
  | ban p =>
    cases he : get s.entries p with
    | none =>
      refine P (find_other (by simp [he])) rfl ?_
      simp only [St.step, St.ban, he]
      exact counted_same h rfl rfl (fun _ => rfl)
    | some e =>
      cases e with
      | banned =>
        refine P (find_other (by simp [he])) rfl ?_
        simp only [St.step, St.ban, he]
        exact S
      | stored i =>
        by_cases hlv : s.live i = true
        · exact PB i (find_stored he hlv) rfl (live_lt hm hlv) (by simp [St.step, St.ban, he, hlv])
        · refine P (find_dead he hlv) rfl ?_
          simp only [St.step, St.ban, he, hlv]
          exact counted_same h rfl rfl (fun _ => rfl)
  | banHandle k =>
    cases hk : (get s.handles k).bind s.innerOf with
    | none =>
      refine P hk rfl ?_
      simp only [St.step, St.banHandle, hk]
      exact S
    | some i => exact PB i hk rfl (live_lt hm (innerOf_lt hm hk)) (by simp [St.step, St.banHandle, hk])
  | make p aff =>
    refine P rfl rfl ?_
    simp only [St.step, St.make]
    split
    · exact S
    · rename_i i hf
      have hi := live_lt hm (find_some hf).2
      split
      · split
        · exact S
        · refine counted_gain h hl hm i hi rfl rfl (fun j hj => ?_) ?_
          · simp [St.handleAff, St.edit, hj]
          · simp [St.handleAff, St.edit]
      · exact counted_same h rfl rfl (fun _ => rfl)
  | clone k =>
    refine P rfl rfl ?_
    simp only [St.step, St.clone]
    split
    · exact S
    · exact counted_same h rfl rfl (fun _ => rfl)
  | upgrade i =>
    refine P rfl rfl ?_
    simp only [St.step, St.upgrade]
    split
    · exact counted_same h rfl rfl (fun _ => rfl)
    · exact S
  | increase k =>
    refine P rfl rfl ?_
    simp only [St.step, St.increase]
    split
    · rename_i i hk
      refine counted_gain h hl hm i (hm.il _ _ hk) rfl rfl (fun j hj => ?_) ?_
      · simp [St.wrap, St.edit, hj]
      · simp [St.wrap, St.edit]
    · exact S
  | decrease k =>
    refine P rfl rfl ?_
    simp only [St.step, St.decrease]
    split
    · rename_i w hk
      have hs := hc k w rfl hk
      split
      · rename_i i hw
        refine counted_loss h hl hm i w hw ?_ ?_ (fun j hj => ?_) ?_
        · simp only [St.toSimple]; rw [unwrap_next]; rfl
        · simp only [St.toSimple]; rw [unwrap_wraps]; rfl; exact hs
        · simp only [St.toSimple]; rw [unwrap_inners, edit_other _ _ _ _ hj]
        · simp only [St.toSimple]; rw [unwrap_inners, edit_same]
      · exact S
    · exact S
  | drop k =>
    refine P rfl rfl ?_
    simp only [St.step, St.drop]
    split
    · exact S
    · exact counted_same h (by rw [release_wraps]; rfl) (by rw [release_next]; rfl) (fun _ => by rw [release_inners]; rfl)
    · rename_i w hk
      split
      · exact counted_same h rfl rfl (fun _ => rfl)
      · rename_i hs
        split
        · rename_i i hw
          refine counted_loss h hl hm i w hw ?_ ?_ (fun j hj => ?_) ?_
          · rw [release_next]; simp only [St.forget]; rw [unwrap_next]; rfl
          · rw [release_wraps]; simp only [St.forget]; rw [unwrap_wraps]; rfl
            rw [Bool.not_eq_true] at hs; exact hs
          · rw [release_inners]; simp only [St.forget]; rw [unwrap_inners, edit_other _ _ _ _ hj]
          · rw [release_inners]; simp only [St.forget]; rw [unwrap_inners, edit_same]
        · exact S
  | finish k =>
    refine P rfl rfl ?_
    simp only [St.step, St.finish]
    split
    · exact S
    · exact counted_same h rfl rfl (fun _ => rfl)
  | peek p =>
    refine P rfl rfl ?_
    simp only [St.step, St.peek]
    split
    · exact counted_same h rfl rfl (fun _ => rfl)
    · exact S
  | unpeek i => exact P rfl rfl (counted_same h rfl rfl (fun _ => rfl))
  | remove p => exact P rfl rfl (counted_same h rfl rfl (fun _ => rfl))

theorem counted_run (l : List Op) (hl : l.length ≤ banned) (hc : Careful l) :
    Counted (Bans l) (rejected l) l.length (St.run l) := by
  induction l using List.reverseRecOn with
  | nil => exact counted_new
  | append_singleton l o ih =>
    rw [List.length_append] at hl
    simp only [List.length_singleton] at hl
    have h := counted_step (ih (by omega) (careful_init hc)) (by omega) (mem_run l) o
      (fun k w ho hk => hc l k [] w (by rw [ho]) hk)
    rw [run_snoc, List.length_append]
    exact plain h (fun i => bans_snoc l o i) (rejected_snoc l o)

end Tycho.KnownPeers
