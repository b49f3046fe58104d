import Verif.Bans.Inv2
/-!
Bans, timers and the channel between them: for each peer the ban its timer is for and the bans on their way go up, and the
last of them is the present one.
-/
namespace Tycho.Bans
open Tycho.Table (Table get put del get_put get_del Uniq)

/-- The ban of the peer an item tells of. -/
def itemBan (p : Nat) : Item → Option Nat
  | .banned q u => if q = p then some u else none
  | _ => none

def chain (s : St) (p : Nat) : List Nat := ((get s.last p).map (·.1)).toList ++ s.chan.filterMap (itemBan p)

structure CInv (s : St) : Prop where
  inc : ∀ p, (chain s p).Pairwise (· < ·)
  bans : ∀ p, get s.bans p = (chain s p).getLast?
  dl : ∀ p u d, get s.last p = some (u, d) → u ≤ d ∧ d ≤ max u s.now
  net : ∀ n, s.net = some n → ∀ p, (get n p).isSome = (get s.bans p).isSome

theorem le_last (l : List Nat) (h : l.Pairwise (· < ·)) (m : Nat) (hm : l.getLast? = some m) : ∀ x ∈ l, x ≤ m := by
  induction l using List.reverseRecOn with
  | nil => simp
  | append_singleton l y _ =>
    rw [List.getLast?_concat] at hm
    simp only [Option.some.injEq] at hm; subst hm
    intro x hx
    rcases List.mem_append.1 hx with hx | hx
    · exact Nat.le_of_lt ((List.pairwise_append.1 h).2.2 x hx y (by simp))
    · rw [List.mem_singleton] at hx; omega

theorem cinv_upsert {s : St} (w : CInv s) (p til : Nat) : CInv (s.upsert p til).1 := by
  have hc : ∀ q, chain { s with chan := s.chan ++ [.banned p til] } q = if q = p then chain s q ++ [til] else chain s q := by
    intro q
    unfold chain
    rw [List.filterMap_append, ← List.append_assoc]
    by_cases hq : q = p
    · subst hq; simp [itemBan]
    · have : ¬ p = q := fun e => hq e.symm
      simp [itemBan, hq, this]
  have hinc : (∀ m, get s.bans p = some m → m < til) → ∀ q, (chain { s with chan := s.chan ++ [.banned p til] } q).Pairwise (· < ·) := by
    intro hlt q
    rw [hc]
    split
    · rename_i hq
      subst hq
      refine List.pairwise_append.2 ⟨w.inc q, by simp, ?_⟩
      intro x hx y hy
      rw [List.mem_singleton] at hy; subst hy
      cases hl : (chain s q).getLast? with
      | none => rw [List.getLast?_eq_none_iff] at hl; rw [hl] at hx; cases hx
      | some m =>
        have h1 := le_last _ (w.inc q) m hl x hx
        have := hlt m (by rw [w.bans, hl])
        omega
    · exact w.inc q
  have hb : ∀ q, get (put s.bans p til) q = (chain { s with chan := s.chan ++ [.banned p til] } q).getLast? := by
    intro q
    rw [get_put, hc]
    by_cases hq : q = p
    · subst hq; simp
    · simp [hq, w.bans q]
  unfold St.upsert
  cases hg : get s.bans p with
  | none =>
    simp only [St.netBan]
    refine ⟨hinc (by rw [hg]; intro m h; cases h), hb, w.dl, ?_⟩
    intro n hn q
    simp only at hn
    cases hs : s.net with
    | none => rw [hs] at hn; cases hn
    | some n0 =>
      rw [hs] at hn
      simp only [Option.map_some, Option.some.injEq] at hn
      subst hn
      simp only [get_put]
      by_cases hq : q = p
      · subst hq; simp
      · simp [hq, w.net n0 hs q]
  | some old =>
    simp only
    split
    · rename_i hlt
      refine ⟨hinc (by rw [hg]; intro m h; simp only [Option.some.injEq] at h; omega), hb, w.dl, ?_⟩
      intro n hn q
      simp only [get_put]
      have := w.net n hn q
      by_cases hq : q = p
      · subst hq; rw [hg] at this; simp [this]
      · simp [hq, this]
    · exact w

theorem CInv.same {s s' : St} (w : CInv s) (h1 : s.now ≤ s'.now) (h2 : s'.bans = s.bans) (h3 : ∀ p, s'.chan.filterMap (itemBan p) = s.chan.filterMap (itemBan p)) (h4 : s'.last = s.last) (h5 : s'.net = s.net) : CInv s' := by
  have hc : ∀ p, chain s' p = chain s p := by intro p; unfold chain; rw [h4, h3]
  refine ⟨fun p => by rw [hc]; exact w.inc p, fun p => by rw [hc, h2]; exact w.bans p, ?_, ?_⟩
  · intro p u d h
    rw [h4] at h
    have := w.dl p u d h
    omega
  · intro n hn p; rw [h2]; rw [h5] at hn; exact w.net n hn p

/-- A ban that is taken from the channel: nothing is wrong with it. -/
theorem cinv_onBanned {s : St} (w : CInv s) (p til : Nat) (l : List Item) (hc : s.chan = .banned p til :: l) :
    CInv (St.onBanned { s with chan := l } p til) ∧ (St.onBanned { s with chan := l } p til).bad = s.bad ∧
      (St.onBanned { s with chan := l } p til).bans = s.bans ∧ (St.onBanned { s with chan := l } p til).chan = l := by
  have key : ∀ (o : Option (Nat × Nat)), get s.last p = o → (∀ x, o = some x → x.1 < til) →
      CInv { s with chan := l, last := put s.last p (til, s.now + (til - s.now)) } := by
    intro o ho hlt
    have hq : ∀ q, q ≠ p → chain { s with chan := l, last := put s.last p (til, s.now + (til - s.now)) } q = chain s q := by
      intro q hq
      have hq' : ¬ p = q := fun e => hq e.symm
      unfold chain
      rw [hc]
      simp [get_put, hq, hq', itemBan]
    have hp : chain s p = (o.map (·.1)).toList ++ chain { s with chan := l, last := put s.last p (til, s.now + (til - s.now)) } p := by
      unfold chain
      rw [hc, ho]
      simp [get_put, itemBan]
    have hne : chain { s with chan := l, last := put s.last p (til, s.now + (til - s.now)) } p ≠ [] := by
      unfold chain; simp [get_put]
    refine ⟨?_, ?_, ?_, w.net⟩
    · intro q
      by_cases h : q = p
      · subst h
        have := w.inc q
        rw [hp] at this
        exact (List.pairwise_append.1 this).2.1
      · rw [hq q h]; exact w.inc q
    · intro q
      by_cases h : q = p
      · subst h
        have := w.bans q
        rw [hp, List.getLast?_append] at this
        cases hz : (chain { s with chan := l, last := put s.last q (til, s.now + (til - s.now)) } q).getLast? with
        | none => exact absurd (List.getLast?_eq_none_iff.1 hz) hne
        | some m => rw [hz] at this; simpa using this
      · rw [hq q h]; exact w.bans q
    · intro q u d h
      simp only [get_put] at h
      by_cases hqp : q = p
      · simp only [hqp, if_true, Option.some.injEq, Prod.mk.injEq] at h
        obtain ⟨rfl, rfl⟩ := h
        simp only; omega
      · simp only [hqp, if_false] at h
        exact w.dl q u d h
  unfold St.onBanned
  simp only
  cases hg : get s.last p with
  | none => exact ⟨key none hg (by simp), rfl, rfl, rfl⟩
  | some x =>
    obtain ⟨old, d⟩ := x
    have hlt : old < til := by
      have := w.inc p
      unfold chain at this
      rw [hg, hc] at this
      simp [itemBan] at this
      exact this.1.1
    simp only
    rw [if_pos hlt]
    exact ⟨key _ hg (by intro x hx; simp only [Option.some.injEq] at hx; subst hx; exact hlt), rfl, rfl, rfl⟩

/-- The ban of a timer is lifted: nothing is wrong with it, and a later ban stays. -/
theorem cinv_unban {s : St} (w : CInv s) (p til d : Nat) (hl : get s.last p = some (til, d)) :
    let x := St.unban { s with last := del s.last (fun x => decide (x = p)) } p til
    CInv x.1 ∧ x.2 = some (decide (get s.bans p = some til)) := by
  have hch : chain s p = til :: s.chan.filterMap (itemBan p) := by unfold chain; rw [hl]; rfl
  have hq : ∀ s' : St, s'.last = del s.last (fun x => decide (x = p)) → s'.chan = s.chan → ∀ q, q ≠ p → chain s' q = chain s q := by
    intro s' h1 h2 q hq
    unfold chain
    rw [h1, h2]
    simp [get_del, hq]
  have hpn : ∀ s' : St, s'.last = del s.last (fun x => decide (x = p)) → s'.chan = s.chan → chain s' p = s.chan.filterMap (itemBan p) := by
    intro s' h1 h2
    unfold chain
    rw [h1, h2]
    simp [get_del]
  have hdl : ∀ q u d, get (del s.last (fun x => decide (x = p))) q = some (u, d) → u ≤ d ∧ d ≤ max u s.now := by
    intro q u d h
    rw [get_del] at h
    by_cases hqp : q = p
    · simp [hqp] at h
    · simp [hqp] at h; exact w.dl q u d h
  have hinc := w.inc p
  rw [hch] at hinc
  have hinc2 := List.pairwise_cons.1 hinc
  have hb := w.bans p
  rw [hch] at hb
  cases hg : get s.bans p with
  | none => rw [hg] at hb; exact absurd (List.getLast?_eq_none_iff.1 hb.symm) (by simp)
  | some cur =>
    rw [hg] at hb
    have hle := le_last _ hinc cur hb.symm
    unfold St.unban
    simp only [hg]
    have h1 := hle til (by simp)
    rw [if_neg (by omega)]
    split
    · rename_i he
      have hnil : s.chan.filterMap (itemBan p) = [] := by
        cases hr : s.chan.filterMap (itemBan p) with
        | nil => rfl
        | cons y r =>
          have h2 := hle y (by rw [hr]; simp)
          have h3 := hinc2.1 y (by rw [hr]; simp)
          omega
      have i1 : ∀ s' : St, s'.last = del s.last (fun x => decide (x = p)) → s'.chan = s.chan → ∀ q, (chain s' q).Pairwise (· < ·) := by
        intro s' e1 e2 q
        by_cases h : q = p
        · subst h; rw [hpn s' e1 e2, hnil]; simp
        · rw [hq s' e1 e2 q h]; exact w.inc q
      have i2 : ∀ s' : St, s'.last = del s.last (fun x => decide (x = p)) → s'.chan = s.chan →
          s'.bans = del s.bans (fun x => decide (x = p)) → ∀ q, get s'.bans q = (chain s' q).getLast? := by
        intro s' e1 e2 e3 q
        by_cases h : q = p
        · subst h; rw [hpn s' e1 e2, hnil, e3]; simp [get_del]
        · rw [hq s' e1 e2 q h, e3]; simp [get_del, h, w.bans q]
      refine ⟨⟨i1 _ rfl rfl, i2 _ rfl rfl rfl, hdl, ?_⟩, by simp [he]⟩
      · intro n hn q
        simp only [St.netUnban] at hn ⊢
        cases hs : s.net with
        | none => rw [hs] at hn; cases hn
        | some n0 =>
          rw [hs] at hn
          simp only [Option.map_some, Option.some.injEq] at hn
          subst hn
          by_cases h : q = p
          · subst h; simp [get_del]
          · simp [get_del, h, w.net n0 hs q]
    · rename_i he
      have hne : s.chan.filterMap (itemBan p) ≠ [] := by
        intro h; rw [h] at hb; simp at hb; omega
      have i1 : ∀ s' : St, s'.last = del s.last (fun x => decide (x = p)) → s'.chan = s.chan → ∀ q, (chain s' q).Pairwise (· < ·) := by
        intro s' e1 e2 q
        by_cases h : q = p
        · subst h; rw [hpn s' e1 e2]; exact hinc2.2
        · rw [hq s' e1 e2 q h]; exact w.inc q
      have i2 : ∀ s' : St, s'.last = del s.last (fun x => decide (x = p)) → s'.chan = s.chan →
          s'.bans = s.bans → ∀ q, get s'.bans q = (chain s' q).getLast? := by
        intro s' e1 e2 e3 q
        by_cases h : q = p
        · subst h
          rw [hpn s' e1 e2, e3, hg, hb]
          cases hr : s.chan.filterMap (itemBan q) with
          | nil => exact absurd hr hne
          | cons y r => rw [List.getLast?_cons_cons]
        · rw [hq s' e1 e2 q h, e3]; exact w.bans q
      exact ⟨⟨i1 _ rfl rfl, i2 _ rfl rfl rfl, hdl, w.net⟩, by simp [he]⟩

end Tycho.Bans
