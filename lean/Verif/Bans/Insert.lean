import Verif.Bans.Restore
import Mathlib.Data.List.Induction
/-!
New records and the soundness of a journal.
-/
namespace Tycho.Bans

theorem takeWhile_all {α : Type} (f : α → Bool) (l : List α) (h : ∀ x ∈ l, f x = true) : l.takeWhile f = l ∧ l.dropWhile f = [] := by
  induction l with
  | nil => exact ⟨rfl, rfl⟩
  | cons x l ih =>
    have h1 := h x (by simp)
    obtain ⟨h2, h3⟩ := ih (fun y hy => h y (by simp [hy]))
    rw [List.takeWhile_cons, List.dropWhile_cons, if_pos h1, if_pos h1, h2, h3]
    exact ⟨rfl, rfl⟩

/-- A record with the highest key goes to the end. -/
theorem insert_end (r : Rec) (l : List Rec) (h : ∀ x ∈ l, klt x.key r.key = true) : insert r l = l ++ [r] := by
  obtain ⟨h1, h2⟩ := takeWhile_all (fun x => klt x.key r.key) l h
  unfold insert
  rw [h1, h2]

/-- Any record goes somewhere; what comes after it is above it. -/
theorem insert_mid (r : Rec) (l : List Rec) (hup : Up (l.map (·.key))) : ∃ a b, l = a ++ b ∧ insert r l = a ++ r :: b ∧
    (∀ x ∈ a, klt x.key r.key = true) ∧ ∀ x ∈ b, klt x.key r.key = false := by
  refine ⟨l.takeWhile (fun x => klt x.key r.key), l.dropWhile (fun x => klt x.key r.key), List.takeWhile_append_dropWhile.symm, rfl,
    takeWhile_lt _ _, ?_⟩
  induction l with
  | nil => simp
  | cons y l ih =>
    have h2 := List.pairwise_cons.1 hup
    rw [List.dropWhile_cons]
    split
    · exact ih h2.2
    · rename_i hy
      intro x hx
      rcases List.mem_cons.1 hx with rfl | hx
      · simpa using hy
      · cases hc : klt x.key r.key with
        | false => rfl
        | true => exact absurd (klt_trans (h2.1 x.key (List.mem_map_of_mem hx)) hc) hy

theorem promised_append {b : List Rec} {p v : Nat} (c : List Rec) (h : Promised b p v) : Promised (b ++ c) p v := by
  obtain ⟨l1, r, l2, rfl, h1, h2, h3⟩ := h
  exact ⟨l1, r, l2 ++ c, by simp, h1, h2, h3⟩

theorem promised_insert {a b : List Rec} {p v : Nat} {e : Rec} {tag : Nat} (he : e.kind = .event tag) (h : Promised (a ++ b) p v) :
    Promised (a ++ e :: b) p v := by
  obtain ⟨l1, r, l2, e1, h1, h2, h3⟩ := h
  rcases List.append_eq_append_iff.1 e1 with ⟨c, ec, ed⟩ | ⟨c, ec, ed⟩
  · -- a is a prefix of l1
    subst ec
    refine ⟨a ++ e :: c, r, l2, by rw [ed]; simp, h1, h2, ?_⟩
    intro x hx
    simp only [List.mem_append, List.mem_cons] at hx
    rcases hx with hx | rfl | hx
    · exact h3 x (by simp [hx])
    · intro hl; have h9 := hl.2; rw [he] at h9; cases h9
    · exact h3 x (by simp [hx])
  · subst ec
    cases c with
    | nil =>
      simp only [List.nil_append] at ed
      refine ⟨l1 ++ [e], r, l2, by rw [← ed]; simp, h1, h2, ?_⟩
      intro x hx
      simp only [List.mem_append, List.mem_singleton] at hx
      rcases hx with hx | rfl
      · exact h3 x hx
      · intro hl; have h9 := hl.2; rw [he] at h9; cases h9
    | cons y c =>
      simp only [List.cons_append, List.cons.injEq] at ed
      obtain ⟨rfl, rfl⟩ := ed
      exact ⟨l1, r, c ++ e :: b, by simp, h1, h2, h3⟩

/-- A record that is no event at the end. -/
theorem jok_end {cfg : Config} {j : List Rec} (w : Jok cfg j) (r : Rec) (h : ∀ x ∈ j, klt x.key r.key = true)
    (hk : ∀ tag, r.kind ≠ .event tag) (hb : ∀ u, r.kind = .banned u → u ≤ r.key.1 + cfg.ttl) : Jok cfg (j ++ [r]) := by
  refine ⟨?_, ?_, ?_⟩
  · rw [List.map_append]
    refine List.pairwise_append.2 ⟨w.up, by simp, ?_⟩
    intro x hx y hy
    obtain ⟨z, hz, rfl⟩ := List.mem_map.1 hx
    simp only [List.map_cons, List.map_nil, List.mem_singleton] at hy
    rw [hy]; exact h z hz
  · intro x hx u hu
    rcases List.mem_append.1 hx with hx | hx
    · exact w.inTime x hx u hu
    · rw [List.mem_singleton] at hx; subst hx; exact hb u hu
  · intro a e b tag e1 he ht
    rcases List.append_eq_append_iff.1 e1 with ⟨c, ec, ed⟩ | ⟨c, ec, ed⟩
    · cases c with
      | nil =>
        simp only [List.nil_append, List.cons.injEq] at ed
        obtain ⟨rfl, _⟩ := ed
        exact absurd he (hk tag)
      | cons y c => simp at ed
    · cases c with
      | nil =>
        simp only [List.nil_append, List.cons.injEq] at ed
        obtain ⟨rfl, _⟩ := ed
        exact absurd he (hk tag)
      | cons y c =>
        simp only [List.cons_append, List.cons.injEq] at ed
        obtain ⟨rfl, rfl⟩ := ed
        exact promised_append _ (w.due a e c tag ec he ht)

/-- An event before nothing but bans, with the ban that is due for it at the end. -/
theorem jok_event {cfg : Config} {a b : List Rec} (w : Jok cfg (a ++ b)) (e : Rec) (tag : Nat) (he : e.kind = .event tag)
    (h1 : ∀ x ∈ a, klt x.key e.key = true) (h2 : ∀ x ∈ b, klt e.key x.key = true) (hb : ∀ x ∈ b, ∃ u, x.kind = .banned u)
    (l : List Rec) (h3 : ∀ x ∈ a ++ b, ∀ y ∈ l, klt x.key y.key = true) (h4 : ∀ y ∈ l, klt e.key y.key = true)
    (hl : l = [] ∨ ∃ r u, l = [r] ∧ r.kind = .banned u ∧ u ≤ r.key.1 + cfg.ttl)
    (hdue : tooMany (cfg.of tag) (eventsOf (a ++ [e]) e.peer tag) e.key.1 → ∃ r, l = [r] ∧ r.peer = e.peer ∧
      r.kind = .banned (e.key.1 + (cfg.of tag).dur)) : Jok cfg (a ++ e :: b ++ l) := by
  have hbl : ∀ x ∈ b ++ l, ∃ u, x.kind = .banned u := by
    intro x hx
    rcases List.mem_append.1 hx with hx | hx
    · exact hb x hx
    · rcases hl with rfl | ⟨r, u, rfl, h, _⟩
      · cases hx
      · rw [List.mem_singleton] at hx; subst hx; exact ⟨u, h⟩
  have hul : Up (l.map (·.key)) := by
    rcases hl with rfl | ⟨r, u, rfl, _⟩ <;> simp [Up]
  refine ⟨?_, ?_, ?_⟩
  · have hw : (a ++ b).Pairwise (fun x y => klt x.key y.key = true) := List.pairwise_map.1 w.up
    obtain ⟨ha, hbp, hab⟩ := List.pairwise_append.1 hw
    refine List.pairwise_map.2 (List.pairwise_append.2 ⟨List.pairwise_append.2 ⟨ha, List.pairwise_cons.2 ⟨h2, hbp⟩, ?_⟩, List.pairwise_map.1 hul, ?_⟩)
    · intro x hx y hy
      rcases List.mem_cons.1 hy with rfl | hy
      · exact h1 x hx
      · exact hab x hx y hy
    · intro x hx y hy
      rcases List.mem_append.1 hx with hx | hx
      · exact h3 x (by simp [hx]) y hy
      · rcases List.mem_cons.1 hx with rfl | hx
        · exact h4 y hy
        · exact h3 x (by simp [hx]) y hy
  · intro x hx u hu
    simp only [List.mem_append, List.mem_cons] at hx
    rcases hx with (hx | rfl | hx) | hx
    · exact w.inTime x (by simp [hx]) u hu
    · rw [he] at hu; cases hu
    · exact w.inTime x (by simp [hx]) u hu
    · rcases hl with rfl | ⟨r, v, rfl, h, hv⟩
      · cases hx
      · rw [List.mem_singleton] at hx; subst hx
        rw [h] at hu; simp only [Kind.banned.injEq] at hu; omega
  · intro a' e' b' tg e1 he' ht
    have e2 : a ++ (e :: (b ++ l)) = a' ++ e' :: b' := by rw [← e1]; simp
    rcases List.append_eq_append_iff.1 e2 with ⟨c, ec, ed⟩ | ⟨c, ec, ed⟩
    · cases c with
      | nil =>
        simp only [List.nil_append, List.cons.injEq] at ed
        obtain ⟨rfl, rfl⟩ := ed
        rw [List.append_nil] at ec; subst ec
        rw [he] at he'; simp only [Kind.event.injEq] at he'; subst he'
        obtain ⟨r, rfl, hr1, hr2⟩ := hdue ht
        refine ⟨b, r, [], rfl, hr1, hr2, ?_⟩
        intro x hx hlift
        obtain ⟨u, hu⟩ := hb x hx
        have h9 := hlift.2; rw [hu] at h9; cases h9
      | cons y c =>
        simp only [List.cons_append, List.cons.injEq] at ed
        obtain ⟨rfl, ed⟩ := ed
        obtain ⟨u, hu⟩ := hbl e' (by rw [ed]; simp)
        rw [hu] at he'; cases he'
    · cases c with
      | nil =>
        simp only [List.nil_append, List.cons.injEq] at ed
        obtain ⟨rfl, rfl⟩ := ed
        rw [List.append_nil] at ec; subst ec
        rw [he] at he'; simp only [Kind.event.injEq] at he'; subst he'
        obtain ⟨r, rfl, hr1, hr2⟩ := hdue ht
        refine ⟨b, r, [], rfl, hr1, hr2, ?_⟩
        intro x hx hlift
        obtain ⟨u, hu⟩ := hb x hx
        have h9 := hlift.2; rw [hu] at h9; cases h9
      | cons y c =>
        simp only [List.cons_append, List.cons.injEq] at ed
        obtain ⟨rfl, rfl⟩ := ed
        have := w.due a' e' (c ++ b) tg (by rw [ec]; simp) he' ht
        have h5 := promised_append l (promised_insert he this)
        simpa using h5

/-- An event does not change who is banned. -/
theorem banNow_event (st : Nat) (a b : List Rec) (e : Rec) (tag : Nat) (he : e.kind = .event tag) (p : Nat) :
    banNow st (a ++ e :: b) p = banNow st (a ++ b) p := by
  unfold banNow
  rw [List.foldl_append, List.foldl_cons, List.foldl_append]
  congr 1
  unfold banStep; simp [he]

/-- Nor do bans change the events. -/
theorem eventsOf_bans (a b : List Rec) (hb : ∀ x ∈ b, ∀ tag, x.kind ≠ .event tag) (p tag : Nat) : eventsOf (a ++ b) p tag = eventsOf a p tag := by
  unfold eventsOf
  rw [List.filter_append]
  have : b.filter (fun r => decide (r.peer = p ∧ r.kind = .event tag)) = [] := by
    rw [List.filter_eq_nil_iff]
    intro x hx
    have := hb x hx tag
    simp [this]
  rw [this, List.append_nil]

/-- Seen later, only the bans that are over are missing. -/
theorem banNow_later (st st' : Nat) (h : st ≤ st') (j : List Rec) (p : Nat) :
    banNow st' j p = (banNow st j p).filter (fun u => decide (st' < u)) ∧ ∀ u, banNow st j p = some u → st < u := by
  induction j using List.reverseRecOn with
  | nil => simp [banNow]
  | append_singleton j r ih =>
    rw [banNow_snoc, banNow_snoc, ih.1]
    have h2 := ih.2
    generalize banNow st j p = o at h2
    unfold banStep
    by_cases hp : r.peer = p
    · simp only [if_pos hp]
      cases r.kind with
      | event tag => exact ⟨rfl, h2⟩
      | unbanned => simp
      | banned u =>
        simp only
        cases o with
        | none =>
          by_cases hu : st < u <;> by_cases hu' : st' < u <;> simp [hu, hu', Option.filter] <;> omega
        | some v =>
          have hv := h2 v rfl
          by_cases hu : st < u <;> by_cases hu' : st' < u <;> by_cases hv' : st' < v <;>
            simp [hu, hu', hv', Option.filter] <;> omega
    · simp only [if_neg hp]
      exact ⟨trivial, h2⟩

end Tycho.Bans
