import Verif.Rpc.ShardReset

namespace Tycho.Rpc
open Tycho.Table

/-- A history of the index: blocks, each a step of the state of accounts, and resets of shards to a state (`2 ^ k * (2 * q + 1)` is the prefix of the shard). -/
inductive CReach : Codes → World → Prop where
  | init : CReach ⟨[], []⟩ (fun _ => (false, none))
  | block {d w} (l : List AccBlock) (w' : World) (h : CReach d w) (hb : BlockOf l w w') : CReach (d.block l) w'
  | reset {d w} (wc q k : Nat) (hk : 2 ^ k * (2 * q + 1) < 2 ^ 64) (accounts : List (Nat × Option Nat)) (hn : (accounts.map (·.1)).Nodup)
      (hin : ∀ e ∈ accounts, InShard wc q k e.1) (w' : World) (ha : Active w')
      (hs : ∀ a, InShard wc q k a → (w' a).2 = (get accounts a).getD none) (ho : ∀ a, ¬ InShard wc q k a → w' a = w a) (h : CReach d w) :
      CReach (d.reset wc (2 ^ k * (2 * q + 1)) accounts) w'

theorem reach_indexed {d : Codes} {w : World} (h : CReach d w) : Indexed d (fun a => (w a).2) ∧ Active w := by
  induction h with
  | init =>
    refine ⟨⟨List.Pairwise.nil, fun a => rfl, fun k => ⟨fun h => (by cases h), fun h => (by cases h)⟩⟩, fun _ _ => rfl⟩
  | block l w' _ hb ih => exact block_indexed _ l _ w' ih.2 ih.1 hb
  | @reset d w wc q k hk accounts hn hin w' ha hs ho _ ih =>
    refine ⟨?_, ha⟩
    have h1 := reset_exact d _ ih.1 wc q k hk accounts hn hin
    have : (fun a => (w' a).2) = (fun a => if InShard wc q k a then (get accounts a).getD none else (w a).2) := by
      funext a
      by_cases hin : InShard wc q k a
      · rw [if_pos hin]; exact hs a hin
      · rw [if_neg hin, ho a hin]
    rw [this]
    exact h1

theorem accounts_mem (d : Codes) (code x : Nat) (ho : COrdered d.main) (hx : x < maxAddr) :
    x ∈ d.accounts code none ↔ (⟨code, x⟩ : CKey) ∈ d.main := by
  unfold Codes.accounts
  simp only [Option.getD_none, Option.isSome_none, Bool.false_eq_true, if_false, List.mem_map, List.mem_filter, Bool.and_eq_true, Bool.not_eq_true']
  constructor
  · rintro ⟨k, ⟨h1, h2, h3⟩, rfl⟩
    rw [← Bool.not_eq_true, cbefore_iff] at h2
    rw [cbefore_iff] at h3
    dsimp only at h2 h3
    have : k.code = code := by omega
    cases k
    simp only at this
    subst this
    exact h1
  · intro h
    refine ⟨_, ⟨h, ?_, ?_⟩, rfl⟩
    · rw [← Bool.not_eq_true, cbefore_iff]; simp
    · rw [cbefore_iff]; exact .inr ⟨rfl, hx⟩

/-- **Accounts by code hash**: exactly the accounts which have the code now, in the order of addresses, after any number of blocks. The address
`-1:ff..ff` is never returned. -/
theorem accounts_exact {d : Codes} {w : World} (h : CReach d w) (code : Nat) :
    (∀ x, x < maxAddr → (x ∈ d.accounts code none ↔ (w x).2 = some code)) ∧ (d.accounts code none).Pairwise (· < ·) := by
  obtain ⟨hi, _⟩ := reach_indexed h
  refine ⟨fun x hx => ?_, ?_⟩
  · rw [accounts_mem d code x hi.ordered hx, hi.main]
  · unfold Codes.accounts
    simp only [Option.getD_none, Option.isSome_none, Bool.false_eq_true, if_false]
    rw [List.pairwise_map]
    refine List.Pairwise.imp_of_mem ?_ (List.Pairwise.filter _ hi.ordered)
    intro a b ha hb hab
    rw [List.mem_filter, Bool.and_eq_true, Bool.not_eq_true'] at ha hb
    have h1 := ha.2; have h2 := hb.2
    rw [← Bool.not_eq_true, cbefore_iff, cbefore_iff] at h1 h2
    rw [cbefore_iff] at hab
    dsimp only at h1 h2
    omega

theorem filter_tail_of_mem (l : List CKey) (ho : COrdered l) (code a : Nat) (h : (⟨code, a⟩ : CKey) ∈ l) (ha : a < maxAddr) :
    (l.filter (fun k => !k.before ⟨code, a⟩ && k.before ⟨code, maxAddr⟩)).tail =
      l.filter (fun k => (⟨code, a⟩ : CKey).before k && k.before ⟨code, maxAddr⟩) := by
  induction l with
  | nil => cases h
  | cons k l ih =>
    have hp := List.pairwise_cons.1 ho
    rcases List.mem_cons.1 h with rfl | h
    · rw [List.filter_cons_of_pos, List.tail_cons, List.filter_cons_of_neg]
      · apply List.filter_congr
        intro x hx
        have h1 := hp.1 x hx
        have h2 : x.before ⟨code, a⟩ = false := by
          rw [← Bool.not_eq_true]; rw [cbefore_iff] at *; omega
        rw [h1, h2]; rfl
      · rw [cbefore_irrefl]; simp
      · rw [cbefore_irrefl]
        simp only [Bool.not_false, Bool.true_and]
        rw [cbefore_iff]; exact .inr ⟨rfl, ha⟩
    · have h1 := hp.1 _ h
      have h2 : (⟨code, a⟩ : CKey).before k = false := by
        rw [← Bool.not_eq_true]; rw [cbefore_iff] at *; omega
      rw [List.filter_cons_of_neg (by rw [h1]; simp), List.filter_cons_of_neg (by rw [h2]; simp)]
      exact ih hp.2 h

/-- **Continuation**: the next page starts after the account given, if it has the code still. -/
theorem accounts_continue {d : Codes} {w : World} (h : CReach d w) (code a : Nat) (ha : a < maxAddr) (hm : (w a).2 = some code) :
    d.accounts code (some a) = (d.accounts code none).filter (fun x => decide (a < x)) := by
  obtain ⟨hi, _⟩ := reach_indexed h
  have hmem : (⟨code, a⟩ : CKey) ∈ d.main := (hi.main _).2 hm
  unfold Codes.accounts
  simp only [Option.getD_some, Option.isSome_some, if_true, Option.getD_none, Option.isSome_none, Bool.false_eq_true, if_false]
  rw [filter_tail_of_mem _ hi.ordered code a hmem ha, List.filter_map, List.filter_filter]
  congr 1
  apply List.filter_congr
  intro k _
  have e1 := cbefore_iff ⟨code, a⟩ k
  have e2 := cbefore_iff k ⟨code, maxAddr⟩
  have e3 := cbefore_iff k ⟨code, 0⟩
  dsimp only at e1 e2 e3
  simp only [Function.comp_apply]
  rw [Bool.eq_iff_iff]
  simp only [Bool.and_eq_true, decide_eq_true_eq, Bool.not_eq_true']
  rw [← Bool.not_eq_true, e1, e2, e3]
  omega

/-- pages of `n` accounts, each starting after the last account of the previous one -/
def Codes.pages (d : Codes) (code n : Nat) : Nat → Option Nat → List Nat
  | 0, _ => []
  | fuel + 1, cont =>
    let page := (d.accounts code cont).take n
    match page.getLast? with
    | none => []
    | some x => page ++ d.pages code n fuel (some x)

theorem sorted_after_take (l : List Nat) (n x : Nat) (hs : l.Pairwise (· < ·)) (hx : (l.take n).getLast? = some x) :
    l.filter (fun y => decide (x < y)) = l.drop n := by
  have h := List.take_append_drop n l
  have hp : (l.take n ++ l.drop n).Pairwise (· < ·) := by rw [h]; exact hs
  have h1 := List.pairwise_append.1 hp
  obtain ⟨l', hl'⟩ := List.getLast?_eq_some_iff.1 hx
  calc l.filter (fun y => decide (x < y)) = (l.take n ++ l.drop n).filter (fun y => decide (x < y)) := by rw [h]
    _ = l.drop n := by
      rw [List.filter_append, List.filter_eq_nil_iff.2, List.filter_eq_self.2, List.nil_append]
      · intro y hy
        exact decide_eq_true (h1.2.2 x (List.mem_of_getLast? hx) y hy)
      · intro y hy
        simp only [decide_eq_true_eq, Nat.not_lt]
        rw [hl'] at hy h1
        rcases List.mem_append.1 hy with hy | hy
        · exact Nat.le_of_lt ((List.pairwise_append.1 h1.1).2.2 y hy x (by simp))
        · rw [List.mem_singleton] at hy; omega

/-- **Pages over a snapshot give every account once**, in order. -/
theorem pages_exact {d : Codes} {w : World} (h : CReach d w) (code n : Nat) (hn : 0 < n) (fuel : Nat) (hf : (d.accounts code none).length < fuel) :
    d.pages code n fuel none = d.accounts code none := by
  obtain ⟨hmem, hs⟩ := accounts_exact h code
  have hlt : ∀ x ∈ d.accounts code none, x < maxAddr := by
    intro x hx
    unfold Codes.accounts at hx
    simp only [Option.getD_none, Option.isSome_none, Bool.false_eq_true, if_false, List.mem_map, List.mem_filter, Bool.and_eq_true, Bool.not_eq_true'] at hx
    obtain ⟨k, ⟨_, h2, h3⟩, rfl⟩ := hx
    rw [← Bool.not_eq_true, cbefore_iff] at h2
    rw [cbefore_iff] at h3
    dsimp only at h2 h3
    omega
  have key : ∀ (fuel : Nat) (cont : Option Nat) (rest : List Nat), rest.length < fuel → d.accounts code cont = rest → rest.Pairwise (· < ·) →
      (∀ x ∈ rest, x ∈ d.accounts code none) → (∀ x ∈ rest, (d.accounts code none).filter (fun y => decide (x < y)) = rest.filter (fun y => decide (x < y))) →
      d.pages code n fuel cont = rest := by
    intro fuel
    induction fuel with
    | zero => intro _ rest h; omega
    | succ fuel ih =>
      intro cont rest hlen hr hp hsub hfil
      rw [Codes.pages, hr]
      cases hl : (rest.take n).getLast? with
      | none =>
        rw [List.getLast?_eq_none_iff, List.take_eq_nil_iff] at hl
        rcases hl with hl | hl
        · omega
        · exact hl.symm
      | some x =>
        dsimp only
        have hxr : x ∈ rest := List.mem_of_mem_take (List.mem_of_getLast? hl)
        have hd := sorted_after_take rest n x hp hl
        have hx := hsub x hxr
        have hacc : d.accounts code (some x) = rest.drop n := by
          rw [accounts_continue h code x (hlt x hx) ((hmem x (hlt x hx)).1 hx), hfil x hxr, hd]
        rw [ih (some x) (rest.drop n) (by
          have : rest ≠ [] := by rintro rfl; cases hxr
          have := List.length_pos_iff.2 this
          rw [List.length_drop]; omega) hacc (hp.sublist (List.drop_sublist _ _)) (fun y hy => hsub y (List.mem_of_mem_drop hy)) ?_]
        · exact List.take_append_drop n rest
        · intro y hy
          have hyr := List.mem_of_mem_drop hy
          rw [hfil y hyr]
          have hxy : x < y := by
            rw [← hd, List.mem_filter] at hy; simpa using hy.2
          rw [← hd, List.filter_filter]
          apply List.filter_congr
          intro z _
          rw [Bool.eq_iff_iff]
          simp only [Bool.and_eq_true, decide_eq_true_eq]
          omega
  exact key fuel none _ hf rfl hs (fun x hx => hx) (fun x _ => rfl)

end Tycho.Rpc
