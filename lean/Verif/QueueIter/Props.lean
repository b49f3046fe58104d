import Verif.QueueIter.Model
import Verif.Queue.Commit

/-!
C12: iterating the internal queue.
-/
namespace Tycho.QueueIter
open Tycho.Table Tycho.Queue

/-- What the iteration has to return: the stored messages of the partition that lie in the range of their source shard
and are addressed to the receiver. -/
def Wanted (db : DB) (p : Part) (rs : List ShardRange) (recv : Msg → Bool) (x : Item) : Prop :=
  get db.msgs (p, x.shard, x.key) = some x.msg ∧ recv x.msg = true ∧
  ∃ r ∈ rs, r.shard = x.shard ∧ r.lo ≤ x.key ∧ x.key < r.hi

/-! ### the invariant -/

/-- Addressed messages not yet returned. -/
def pend (recv : Msg → Bool) (σ : It) : List Item :=
  σ.heap ++ σ.iters.flatMap (fun e => (e.2.filter (fun x => recv x.2)).map (fun x => ⟨e.1, x.1, x.2⟩))

structure Ok (σ : It) : Prop where
  uniq : Uniq σ.iters
  sorted : ∀ e ∈ σ.iters, e.2.Pairwise (fun a b => a.1 < b.1)
  heapQ : ∀ h ∈ σ.heap, h.shard ∈ σ.inQueue
  qHeap : ∀ s ∈ σ.inQueue, ∃ h ∈ σ.heap, h.shard = s
  heap1 : (σ.heap.map (·.shard)).Nodup
  q1 : σ.inQueue.Nodup
  ahead : ∀ h ∈ σ.heap, ∀ e ∈ σ.iters, e.1 = h.shard → ∀ x ∈ e.2, h.key < x.1
  posHeap : ∀ s k, get σ.pos s = some k → ∀ h ∈ σ.heap, h.shard = s → k < h.key
  posIter : ∀ s k, get σ.pos s = some k → ∀ e ∈ σ.iters, e.1 = s → ∀ x ∈ e.2, k < x.1

theorem pull_spec (recv : Msg → Bool) (s : Shard) (l : List (Nat × Msg)) (pos : Table Shard Nat)
    (hs : l.Pairwise (fun a b => a.1 < b.1)) :
    (∀ t, t ≠ s → get (pull recv s l pos).1 t = get pos t) ∧
    (∀ k, get (pull recv s l pos).1 s = some k → get pos s = some k ∨ ∃ x ∈ l, x.1 = k ∧ recv x.2 = false) ∧
    (∀ k, get pos s = some k → (∀ x ∈ l, k < x.1) → ∃ k', get (pull recv s l pos).1 s = some k' ∧ k ≤ k') ∧
    match (pull recv s l pos).2 with
    | none => l.filter (fun x => recv x.2) = []
    | some (m, rest) => l.filter (fun x => recv x.2) = m :: rest.filter (fun x => recv x.2) ∧ recv m.2 = true ∧
        rest.Pairwise (fun a b => a.1 < b.1) ∧ (∀ x ∈ rest, m.1 < x.1) ∧ m ∈ l ∧ (∀ x ∈ rest, x ∈ l) ∧
        (∀ k, get (pull recv s l pos).1 s = some k → get pos s = some k ∨ k < m.1) := by
  induction l generalizing pos with
  | nil => exact ⟨fun _ _ => rfl, fun k h => Or.inl h, fun k h _ => ⟨k, h, Nat.le_refl _⟩, rfl⟩
  | cons e l ih =>
    obtain ⟨h1, h2⟩ := List.pairwise_cons.mp hs
    unfold pull
    by_cases hr : recv e.2 = true
    · rw [if_pos hr]
      refine ⟨fun _ _ => rfl, fun k h => Or.inl h, fun k h _ => ⟨k, h, Nat.le_refl _⟩, ?_⟩
      simp only [List.filter_cons, hr, if_true]
      exact ⟨trivial, trivial, h2, fun x hx => h1 x hx, by simp, fun x hx => by simp [hx], fun k h => Or.inl h⟩
    · rw [if_neg hr]
      obtain ⟨i1, i2, i3, i4⟩ := ih (put pos s e.1) h2
      have hr' : recv e.2 = false := by simpa using hr
      refine ⟨?_, ?_, ?_, ?_⟩
      · intro t ht; rw [i1 t ht, get_put, if_neg ht]
      · intro k hk
        rcases i2 k hk with h | ⟨x, hx, h⟩
        · rw [get_put, if_pos rfl] at h
          cases h
          exact Or.inr ⟨e, by simp, rfl, hr'⟩
        · exact Or.inr ⟨x, by simp [hx], h⟩
      · intro k hk hlt
        obtain ⟨k', hk', hle⟩ := i3 e.1 (by rw [get_put, if_pos rfl]) (fun x hx => h1 x hx)
        have := hlt e (by simp)
        exact ⟨k', hk', by omega⟩
      · split
        · rename_i hn
          rw [hn] at i4
          simp only at i4
          simp [hr', i4]
        · rename_i m rest hsome
          rw [hsome] at i4
          simp only at i4
          obtain ⟨a, b, c, d, e1, f, g⟩ := i4
          refine ⟨by simp [hr', a], b, c, d, by simp [e1], fun x hx => by simp [f x hx], ?_⟩
          intro k hk
          rcases g k hk with h | h
          · rw [get_put, if_pos rfl] at h
            cases h
            exact Or.inr (h1 m e1)
          · exact Or.inr h

/-- The invariant while `refill` is under way: `todo` is not yet examined. -/
structure Mid (σ : It) (todo : Table Shard (List (Nat × Msg))) : Prop where
  ok : Ok { σ with iters := σ.iters ++ todo }
  done : ∀ e ∈ σ.iters, e.1 ∈ σ.inQueue

theorem refillOne_mid (recv : Msg → Bool) (σ : It) (e : Shard × List (Nat × Msg)) (todo : Table Shard (List (Nat × Msg)))
    (h : Mid σ (e :: todo)) :
    Mid (refillOne recv σ e) todo ∧
    (pend recv { refillOne recv σ e with iters := (refillOne recv σ e).iters ++ todo }).Perm
      (pend recv { σ with iters := σ.iters ++ e :: todo }) ∧
    (∀ s k, get σ.pos s = some k → ∃ k', get (refillOne recv σ e).pos s = some k' ∧ k ≤ k') := by
  obtain ⟨ok, done⟩ := h
  unfold refillOne
  split
  · rename_i hin
    refine ⟨⟨by simpa using ok, ?_⟩, by simp [pend], fun s k hk => ⟨k, hk, Nat.le_refl _⟩⟩
    intro x hx
    rcases List.mem_append.mp hx with hx | hx
    · exact done x hx
    · simp only [List.mem_singleton] at hx; subst hx; exact hin
  · rename_i hnin
    obtain ⟨o1, o2, o3, o4, o5, o6, o7, o8, o9⟩ := ok
    simp only at o1 o2 o3 o4 o5 o6 o7 o8 o9
    have hmem : e ∈ σ.iters ++ e :: todo := by simp
    have hsub : ∀ x, x ∈ σ.iters ++ todo → x ∈ σ.iters ++ e :: todo := by
      intro x hx
      rcases List.mem_append.mp hx with hx | hx <;> simp [hx]
    have hother : ∀ x ∈ σ.iters ++ todo, x.1 ≠ e.1 := by
      intro x hx heq
      unfold Uniq at o1
      rw [List.map_append, List.map_cons] at o1
      have hn : e.1 ∉ σ.iters.map (·.1) ++ todo.map (·.1) := by
        have := (List.perm_middle.nodup_iff.mp o1)
        exact (List.nodup_cons.mp this).1
      apply hn
      rw [← List.map_append, ← heq]
      exact List.mem_map_of_mem hx
    have huniq : Uniq (σ.iters ++ todo) := by
      unfold Uniq at o1 ⊢
      refine List.Nodup.sublist ?_ o1
      apply List.Sublist.map
      exact List.Sublist.append_left (List.sublist_cons_self _ _) _
    have hsp := pull_spec recv e.1 e.2 σ.pos (o2 e hmem)
    obtain ⟨p1, p2, p3, p4⟩ := hsp
    have hmono : ∀ s k, get σ.pos s = some k → ∃ k', get (pull recv e.1 e.2 σ.pos).1 s = some k' ∧ k ≤ k' := by
      intro s k hk
      by_cases hs : s = e.1
      · subst hs
        exact p3 k hk (fun x hx => o9 _ k hk e hmem rfl x hx)
      · exact ⟨k, by rw [p1 s hs, hk], Nat.le_refl _⟩
    have hnoheap : ∀ h ∈ σ.heap, h.shard ≠ e.1 := by
      intro h hh heq
      exact hnin (heq ▸ o3 h hh)
    cases hpull : (pull recv e.1 e.2 σ.pos).2 with
    | none =>
      have hpe : pull recv e.1 e.2 σ.pos = ((pull recv e.1 e.2 σ.pos).1, none) := by rw [← hpull]
      rw [hpull] at p4
      simp only at p4
      rw [hpe]
      simp only
      refine ⟨⟨⟨huniq, fun x hx => o2 x (hsub x hx), o3, o4, o5, o6, fun h hh x hx => o7 h hh x (hsub x hx), ?_, ?_⟩, done⟩, ?_, hmono⟩
      · intro s k hk h hh hs
        have hne : s ≠ e.1 := fun heq => hnoheap h hh (by rw [hs, heq])
        simp only at hk
        rw [p1 s hne] at hk
        exact o8 s k hk h hh hs
      · intro s k hk x hx hs
        have hne : s ≠ e.1 := by
          have := hother x hx
          rw [← hs]; exact this
        simp only at hk
        rw [p1 s hne] at hk
        exact o9 s k hk x (hsub x hx) hs
      · simp [pend, p4]
    | some mr =>
      obtain ⟨m, rest⟩ := mr
      have hpe : pull recv e.1 e.2 σ.pos = ((pull recv e.1 e.2 σ.pos).1, some (m, rest)) := by rw [← hpull]
      rw [hpull] at p4
      simp only at p4
      obtain ⟨q1, q2, q3, q4, q5, q6, q7⟩ := p4
      rw [hpe]
      simp only
      have hmem' : ∀ x, x ∈ (σ.iters ++ [(e.1, rest)]) ++ todo → x = (e.1, rest) ∨ x ∈ σ.iters ++ todo := by
        intro x hx
        simp only [List.mem_append, List.mem_singleton] at hx ⊢
        rcases hx with (hx | hx) | hx
        · exact Or.inr (Or.inl hx)
        · exact Or.inl hx
        · exact Or.inr (Or.inr hx)
      have hposm : ∀ k, get (pull recv e.1 e.2 σ.pos).1 e.1 = some k → k < m.1 := by
        intro k hk
        rcases q7 k hk with h | h
        · exact o9 _ k h e hmem rfl m q5
        · exact h
      refine ⟨⟨⟨?_, ?_, ?_, ?_, ?_, ?_, ?_, ?_, ?_⟩, ?_⟩, ?_, hmono⟩
      · unfold Uniq at o1 ⊢
        simpa using o1
      · intro x hx
        rcases hmem' x hx with rfl | hx
        · exact q3
        · exact o2 x (hsub x hx)
      · intro h hh
        rcases List.mem_cons.mp hh with rfl | hh
        · simp
        · simp [o3 h hh]
      · intro s hs
        rcases List.mem_cons.mp hs with rfl | hs
        · exact ⟨⟨e.1, m.1, m.2⟩, by simp, rfl⟩
        · obtain ⟨h, hh, hs⟩ := o4 s hs
          exact ⟨h, by simp [hh], hs⟩
      · simp only [List.map_cons, List.nodup_cons]
        refine ⟨?_, o5⟩
        intro hm
        obtain ⟨h, hh, hs⟩ := List.mem_map.mp hm
        exact hnoheap h hh hs
      · exact List.nodup_cons.mpr ⟨hnin, o6⟩
      · intro h hh x hx hs y hy
        rcases hmem' x hx with rfl | hx
        · rcases List.mem_cons.mp hh with rfl | hh
          · exact q4 y hy
          · exact absurd hs.symm (hnoheap h hh)
        · rcases List.mem_cons.mp hh with rfl | hh
          · exact absurd hs (hother x hx)
          · exact o7 h hh x (hsub x hx) hs y hy
      · intro s k hk h hh hs
        simp only at hk
        rcases List.mem_cons.mp hh with rfl | hh
        · simp only at hs
          subst hs
          exact hposm k hk
        · have hne : s ≠ e.1 := fun heq => hnoheap h hh (by rw [hs, heq])
          rw [p1 s hne] at hk
          exact o8 s k hk h hh hs
      · intro s k hk x hx hs y hy
        simp only at hk
        rcases hmem' x hx with rfl | hx
        · simp only at hs hy
          subst hs
          exact Nat.lt_trans (hposm k hk) (q4 y hy)
        · have hne : s ≠ e.1 := by rw [← hs]; exact hother x hx
          rw [p1 s hne] at hk
          exact o9 s k hk x (hsub x hx) hs y hy
      · intro x hx
        rcases List.mem_append.mp hx with hx | hx
        · simp [done x hx]
        · simp only [List.mem_singleton] at hx; subst hx; simp
      · simp only [pend, List.flatMap_append, List.flatMap_cons, List.flatMap_nil, q1, List.map_cons, List.append_nil,
          List.append_assoc, List.cons_append]
        rw [List.perm_iff_count]
        intro a
        simp only [List.count_cons, List.count_append, List.count_nil]
        omega

theorem refill_fold (recv : Msg → Bool) (todo : Table Shard (List (Nat × Msg))) (σ : It) (h : Mid σ todo) :
    Mid (todo.foldl (refillOne recv) σ) [] ∧
    (pend recv (todo.foldl (refillOne recv) σ)).Perm (pend recv { σ with iters := σ.iters ++ todo }) ∧
    (∀ s k, get σ.pos s = some k → ∃ k', get (todo.foldl (refillOne recv) σ).pos s = some k' ∧ k ≤ k') := by
  induction todo generalizing σ with
  | nil => exact ⟨h, by simp, fun s k hk => ⟨k, hk, Nat.le_refl _⟩⟩
  | cons e todo ih =>
    obtain ⟨a, b, c⟩ := refillOne_mid recv σ e todo h
    obtain ⟨a', b', c'⟩ := ih _ a
    refine ⟨a', b'.trans b, ?_⟩
    intro s k hk
    obtain ⟨k1, h1, l1⟩ := c s k hk
    obtain ⟨k2, h2, l2⟩ := c' s k1 h1
    exact ⟨k2, h2, Nat.le_trans l1 l2⟩

theorem refill_ok (recv : Msg → Bool) (σ : It) (h : Ok σ) :
    Ok (refill recv σ) ∧ (∀ e ∈ (refill recv σ).iters, e.1 ∈ (refill recv σ).inQueue) ∧
    (pend recv (refill recv σ)).Perm (pend recv σ) ∧
    (∀ s k, get σ.pos s = some k → ∃ k', get (refill recv σ).pos s = some k' ∧ k ≤ k') := by
  have hm : Mid { σ with iters := [] } σ.iters := ⟨by simpa using h, by simp⟩
  obtain ⟨⟨a, a'⟩, b, c⟩ := refill_fold recv σ.iters _ hm
  refine ⟨?_, a', by simpa [refill] using b, c⟩
  simpa [refill] using a

/-- One call: nothing is left, or a least remaining message is returned and the position of its shard is its key. -/
theorem next_spec (pick : List Item → Option Item) (hpick : PickOk pick) (recv : Msg → Bool) (σ : It) (h : Ok σ) :
    match next pick recv σ with
    | (none, σ') => pend recv σ = [] ∧ Ok σ' ∧ pend recv σ' = [] ∧
        (∀ s k, get σ.pos s = some k → ∃ k', get σ'.pos s = some k' ∧ k ≤ k')
    | (some m, σ') => (pend recv σ).Perm (m :: pend recv σ') ∧ Ok σ' ∧ (∀ x ∈ pend recv σ, m.key ≤ x.key) ∧
        get σ'.pos m.shard = some m.key ∧
        (∀ s k, get σ.pos s = some k → ∃ k', get σ'.pos s = some k' ∧ k ≤ k') := by
  obtain ⟨ok, done, perm, mono⟩ := refill_ok recv σ h
  unfold next
  by_cases hh : (refill recv σ).heap = []
  · rw [hh, hpick.nil]
    simp only
    have hq : (refill recv σ).inQueue = [] := by
      cases hq : (refill recv σ).inQueue with
      | nil => rfl
      | cons s l =>
        obtain ⟨x, hx, _⟩ := ok.qHeap s (by rw [hq]; simp)
        rw [hh] at hx; simp at hx
    have hi : (refill recv σ).iters = [] := by
      cases hi : (refill recv σ).iters with
      | nil => rfl
      | cons e l =>
        have := done e (by rw [hi]; simp)
        rw [hq] at this; simp at this
    have hp : pend recv (refill recv σ) = [] := by simp [pend, hh, hi]
    refine ⟨?_, ok, hp, mono⟩
    rw [hp] at perm
    exact perm.symm.eq_nil
  · obtain ⟨m, hm, hpk, hle⟩ := hpick.cons _ hh
    rw [hpk]
    simp only
    obtain ⟨o1, o2, o3, o4, o5, o6, o7, o8, o9⟩ := ok
    have hpm : (pend recv (refill recv σ)).Perm (m :: pend recv { refill recv σ with
        heap := (refill recv σ).heap.erase m
        inQueue := (refill recv σ).inQueue.erase m.shard
        pos := put (refill recv σ).pos m.shard m.key }) := by
      unfold pend
      simp only
      exact (List.Perm.append_right _ (List.perm_cons_erase hm))
    have hers : ∀ x ∈ (refill recv σ).heap.erase m, x ∈ (refill recv σ).heap ∧ x.shard ≠ m.shard := by
      intro x hx
      refine ⟨List.mem_of_mem_erase hx, ?_⟩
      intro heq
      have hp := (List.perm_cons_erase hm).map (·.shard)
      have hnd := hp.nodup_iff.mp o5
      rw [List.map_cons, List.nodup_cons] at hnd
      apply hnd.1
      rw [← heq]
      exact List.mem_map_of_mem hx
    refine ⟨perm.symm.trans hpm, ⟨o1, o2, ?_, ?_, ?_, ?_, ?_, ?_, ?_⟩, ?_, by rw [get_put, if_pos rfl], ?_⟩
    · intro x hx
      obtain ⟨h1, h2⟩ := hers x hx
      exact (List.mem_erase_of_ne h2).mpr (o3 x h1)
    · intro s hs
      have h1 := (List.Nodup.mem_erase_iff o6).mp hs
      obtain ⟨x, hx, he⟩ := o4 s h1.2
      refine ⟨x, ?_, he⟩
      apply (List.mem_erase_of_ne ?_).mpr hx
      intro heq; apply h1.1; rw [← he, heq]
    · exact List.Nodup.sublist (List.Sublist.map _ List.erase_sublist) o5
    · exact o6.erase _
    · intro x hx
      exact o7 x (hers x hx).1
    · intro s k hk x hx hs
      obtain ⟨h1, h2⟩ := hers x hx
      simp only [get_put] at hk
      rw [if_neg (by rw [← hs]; exact h2)] at hk
      exact o8 s k hk x h1 hs
    · intro s k hk e he hs x hx
      simp only [get_put] at hk
      split at hk
      · rename_i heq
        cases hk
        exact o7 m hm e he (by rw [hs, heq]) x hx
      · exact o9 s k hk e he hs x hx
    · intro x hx
      have hx := perm.symm.subset hx
      unfold pend at hx
      rcases List.mem_append.mp hx with hx | hx
      · exact hle x hx
      · simp only [List.mem_flatMap, List.mem_map, List.mem_filter] at hx
        obtain ⟨e, he, y, ⟨hy, _⟩, rfl⟩ := hx
        obtain ⟨w, hw, hws⟩ := o4 _ (done e he)
        have := o7 w hw e he hws.symm y hy
        have := hle w hw
        simp only
        omega
    · intro s k hk
      obtain ⟨k', h1, h2⟩ := mono s k hk
      simp only [get_put]
      by_cases hs : s = m.shard
      · rw [if_pos hs]
        have := o8 s k' h1 m hm hs.symm
        exact ⟨m.key, rfl, by omega⟩
      · rw [if_neg hs]
        exact ⟨k', h1, h2⟩

theorem calls_spec (pick : List Item → Option Item) (hpick : PickOk pick) (recv : Msg → Bool) (n : Nat) (σ : It) (h : Ok σ) :
    Ok (calls pick recv n σ).2 ∧
    (pend recv σ).Perm ((calls pick recv n σ).1 ++ pend recv (calls pick recv n σ).2) ∧
    (calls pick recv n σ).1.Pairwise (fun a b => a.key ≤ b.key) ∧
    ((pend recv σ).length ≤ n → pend recv (calls pick recv n σ).2 = []) ∧
    (∀ x ∈ (calls pick recv n σ).1, ∃ k, get (calls pick recv n σ).2.pos x.shard = some k ∧ x.key ≤ k) ∧
    (∀ s k, get σ.pos s = some k → ∃ k', get (calls pick recv n σ).2.pos s = some k' ∧ k ≤ k') := by
  induction n generalizing σ with
  | zero =>
    refine ⟨h, by simp [calls], by simp [calls], ?_, by simp [calls], fun s k hk => ⟨k, hk, Nat.le_refl _⟩⟩
    intro hl
    simpa [calls] using hl
  | succ n ih =>
    have hn := next_spec pick hpick recv σ h
    unfold calls
    cases hx : next pick recv σ with
    | mk r σ' =>
      rw [hx] at hn
      cases r with
      | none =>
        simp only at hn ⊢
        obtain ⟨e1, ok, e2, mono⟩ := hn
        obtain ⟨a, b, c, d, p, q⟩ := ih σ' ok
        refine ⟨a, by rw [e1, ← e2]; exact b, c, fun _ => d (by rw [e2]; simp), p, ?_⟩
        intro s k hk
        obtain ⟨k1, h1, l1⟩ := mono s k hk
        obtain ⟨k2, h2, l2⟩ := q s k1 h1
        exact ⟨k2, h2, Nat.le_trans l1 l2⟩
      | some m =>
        simp only at hn ⊢
        obtain ⟨e1, ok, e2, hpos, mono⟩ := hn
        obtain ⟨a, b, c, d, p, q⟩ := ih σ' ok
        refine ⟨a, ?_, ?_, ?_, ?_, ?_⟩
        · rw [List.cons_append]
          exact e1.trans (List.Perm.cons m b)
        · refine List.pairwise_cons.mpr ⟨?_, c⟩
          intro x hx
          apply e2
          apply e1.symm.subset
          right
          exact b.symm.subset (List.mem_append_left _ hx)
        · intro hl
          apply d
          have := e1.length_eq
          simp only [List.length_cons] at this
          omega
        · intro x hx
          rcases List.mem_cons.mp hx with rfl | hx
          · exact q _ _ hpos
          · exact p x hx
        · intro s k hk
          obtain ⟨k1, h1, l1⟩ := mono s k hk
          obtain ⟨k2, h2, l2⟩ := q s k1 h1
          exact ⟨k2, h2, Nat.le_trans l1 l2⟩

/-! ### the initial state -/

theorem ins_perm (x : Nat × Msg) (l : List (Nat × Msg)) : (ins x l).Perm (x :: l) := by
  induction l with
  | nil => exact List.Perm.refl _
  | cons y l ih =>
    unfold ins
    split
    · exact List.Perm.refl _
    · exact (List.Perm.cons y ih).trans (List.Perm.swap x y l)

theorem sortKeys_perm (l : List (Nat × Msg)) : (sortKeys l).Perm l := by
  induction l with
  | nil => exact List.Perm.refl _
  | cons x l ih => exact (ins_perm x _).trans (List.Perm.cons x ih)

theorem ins_sorted (x : Nat × Msg) (l : List (Nat × Msg)) (h : l.Pairwise (fun a b => a.1 ≤ b.1)) :
    (ins x l).Pairwise (fun a b => a.1 ≤ b.1) := by
  induction l with
  | nil => simp [ins]
  | cons y l ih =>
    obtain ⟨h1, h2⟩ := List.pairwise_cons.mp h
    unfold ins
    split
    · rename_i hle
      refine List.pairwise_cons.mpr ⟨?_, h⟩
      intro z hz
      rcases List.mem_cons.mp hz with rfl | hz
      · exact hle
      · exact Nat.le_trans hle (h1 z hz)
    · rename_i hle
      refine List.pairwise_cons.mpr ⟨?_, ih h2⟩
      intro z hz
      rcases List.mem_cons.mp ((ins_perm x l).subset hz) with rfl | hz
      · omega
      · exact h1 z hz

theorem sortKeys_sorted (l : List (Nat × Msg)) : (sortKeys l).Pairwise (fun a b => a.1 ≤ b.1) := by
  induction l with
  | nil => simp [sortKeys]
  | cons x l ih => exact ins_sorted x _ ih

theorem stream_sorted (db : DB) (hu : Uniq db.msgs) (p : Part) (r : ShardRange) :
    (stream db p r).Pairwise (fun a b => a.1 < b.1) := by
  unfold stream
  have hs := sortKeys_sorted ((db.msgs.filter (inRange p r)).map (fun e => (e.1.2.2, e.2)))
  have hn : (((db.msgs.filter (inRange p r)).map (fun e => (e.1.2.2, e.2))).map (·.1)).Nodup := by
    rw [List.map_map]
    unfold List.Nodup
    rw [List.pairwise_map]
    have hf : ((db.msgs.filter (inRange p r)).map (·.1)).Nodup :=
      List.Nodup.sublist (List.Sublist.map _ List.filter_sublist) hu
    unfold List.Nodup at hf
    rw [List.pairwise_map] at hf
    refine List.Pairwise.imp_of_mem ?_ hf
    intro a b ha hb hne heq
    have h1 := (List.mem_filter.mp ha).2
    have h2 := (List.mem_filter.mp hb).2
    unfold inRange at h1 h2
    simp only [Bool.and_eq_true, dec_iff] at h1 h2
    obtain ⟨⟨⟨a1, a2⟩, _⟩, _⟩ := h1
    obtain ⟨⟨⟨b1, b2⟩, _⟩, _⟩ := h2
    simp only [Function.comp] at heq
    apply hne
    obtain ⟨⟨pa, sa, ka⟩, va⟩ := a
    obtain ⟨⟨pb, sb, kb⟩, vb⟩ := b
    simp only at *
    rw [a1, a2, b1, b2, heq]
  have hn' : (sortKeys ((db.msgs.filter (inRange p r)).map (fun e => (e.1.2.2, e.2)))).Pairwise (fun a b => a.1 ≠ b.1) := by
    have := ((sortKeys_perm ((db.msgs.filter (inRange p r)).map (fun e => (e.1.2.2, e.2)))).map (·.1)).nodup_iff.mpr hn
    unfold List.Nodup at this
    rwa [List.pairwise_map] at this
  refine List.Pairwise.imp ?_ (hs.and hn')
  intro a b hab
  obtain ⟨h1, h2⟩ := hab
  omega

theorem mem_stream (db : DB) (hu : Uniq db.msgs) (p : Part) (r : ShardRange) (x : Nat × Msg) :
    x ∈ stream db p r ↔ get db.msgs (p, r.shard, x.1) = some x.2 ∧ r.lo ≤ x.1 ∧ x.1 < r.hi := by
  unfold stream
  rw [(sortKeys_perm _).mem_iff]
  simp only [List.mem_map, List.mem_filter, inRange, Bool.and_eq_true, dec_iff]
  rw [← mem_iff_get _ hu]
  constructor
  · rintro ⟨⟨⟨a, b, c⟩, v⟩, ⟨hm, ⟨⟨rfl, rfl⟩, h3⟩, h4⟩, rfl⟩
    exact ⟨hm, h3, h4⟩
  · rintro ⟨hm, h3, h4⟩
    exact ⟨((p, r.shard, x.1), x.2), ⟨hm, ⟨⟨rfl, rfl⟩, h3⟩, h4⟩, rfl⟩

theorem mkIters_spec (db : DB) (p : Part) (rs : List ShardRange) (acc r : Table Shard (List (Nat × Msg)))
    (hu : Uniq acc) (h : mkIters db p acc rs = some r) :
    Uniq r ∧ (∀ s l, (s, l) ∈ r ↔ (s, l) ∈ acc ∨ ∃ q ∈ rs, q.shard = s ∧ l = stream db p q) ∧
    (rs.map (·.shard)).Nodup ∧ ∀ q ∈ rs, get acc q.shard = none := by
  induction rs generalizing acc with
  | nil => simp only [mkIters, Option.some.injEq] at h; subst h; simp [hu]
  | cons q rs ih =>
    unfold mkIters at h
    split at h
    · cases h
    · rename_i hq
      obtain ⟨h1, h2, h3, h4⟩ := ih _ (uniq_put _ _ _ hu) h
      have hqs : q.shard ∉ rs.map (·.shard) := by
        intro hm
        obtain ⟨q', hq', he⟩ := List.mem_map.mp hm
        have := h4 q' hq'
        rw [get_put, if_pos he] at this
        cases this
      refine ⟨h1, ?_, List.nodup_cons.mpr ⟨hqs, h3⟩, ?_⟩
      · intro s l
        rw [h2, mem_iff_get _ (uniq_put _ _ _ hu), get_put, mem_iff_get _ hu]
        constructor
        · rintro (h | ⟨q', hq', h⟩)
          · split at h
            · rename_i hs
              cases h
              exact Or.inr ⟨q, by simp, hs.symm, rfl⟩
            · exact Or.inl h
          · exact Or.inr ⟨q', by simp [hq'], h⟩
        · rintro (h | ⟨q', hq', hs, hl⟩)
          · left
            rw [if_neg, h]
            intro hs; rw [hs, hq] at h; cases h
          · rcases List.mem_cons.mp hq' with rfl | hq'
            · left; rw [if_pos hs.symm, hl]
            · exact Or.inr ⟨q', hq', hs, hl⟩
      · intro q' hq'
        rcases List.mem_cons.mp hq' with rfl | hq'
        · exact hq
        · have := h4 q' hq'
          rw [get_put] at this
          split at this
          · cases this
          · exact this

theorem mkIt_ok (db : DB) (hu : Uniq db.msgs) (p : Part) (rs : List ShardRange) (σ : It) (h : mkIt db p rs = some σ)
    (recv : Msg → Bool) :
    Ok σ ∧ (∀ x, x ∈ pend recv σ ↔ Wanted db p rs recv x) ∧ (pend recv σ).Nodup ∧ (∀ s, get σ.pos s = none) := by
  unfold mkIt at h
  split at h
  · cases h
  · rename_i iters hit
    simp only [Option.some.injEq] at h
    subst h
    obtain ⟨h1, h2, _, _⟩ := mkIters_spec db p rs [] iters uniq_nil hit
    have hst : ∀ e ∈ iters, ∃ q ∈ rs, q.shard = e.1 ∧ e.2 = stream db p q := by
      intro e he
      rcases (h2 e.1 e.2).mp he with h | h
      · simp at h
      · exact h
    refine ⟨⟨h1, ?_, by simp, by simp, by simp, by simp, by simp, by simp, ?_⟩, ?_, ?_, by simp [Table.get]⟩
    · intro e he
      obtain ⟨q, _, _, hl⟩ := hst e he
      rw [hl]; exact stream_sorted db hu p q
    · intro s k hk; simp [Table.get] at hk
    · intro x
      simp only [pend, List.nil_append, List.mem_flatMap, List.mem_map, List.mem_filter, Wanted]
      constructor
      · rintro ⟨e, he, y, ⟨hy, hr⟩, rfl⟩
        obtain ⟨q, hq, hs, hl⟩ := hst e he
        rw [hl, mem_stream db hu] at hy
        simp only
        rw [← hs]
        exact ⟨hy.1, hr, q, hq, rfl, hy.2.1, hy.2.2⟩
      · rintro ⟨hg, hr, q, hq, hs, h3, h4⟩
        refine ⟨(q.shard, stream db p q), (h2 _ _).mpr (Or.inr ⟨q, hq, rfl, rfl⟩), (x.key, x.msg), ⟨?_, hr⟩, ?_⟩
        · rw [mem_stream db hu, hs]; exact ⟨hg, h3, h4⟩
        · simp only [hs]
    · simp only [pend, List.nil_append]
      have hsorted : ∀ e ∈ iters, e.2.Pairwise (fun a b => a.1 < b.1) := by
        intro e he
        obtain ⟨q, _, _, hl⟩ := hst e he
        rw [hl]; exact stream_sorted db hu p q
      clear hst h2 hit
      induction iters with
      | nil => simp
      | cons e l ih =>
        simp only [List.flatMap_cons]
        unfold Uniq at h1
        rw [List.map_cons, List.nodup_cons] at h1
        refine List.nodup_append.mpr ⟨?_, ih h1.2 (fun e he => hsorted e (by simp [he])), ?_⟩
        · unfold List.Nodup
          rw [List.pairwise_map]
          refine List.Pairwise.imp ?_ ((hsorted e (by simp)).filter _)
          intro a b hab heq
          simp only [Item.mk.injEq] at heq
          omega
        · intro a ha b hb heq
          subst heq
          obtain ⟨_, _, rfl⟩ := List.mem_map.mp ha
          simp only [List.mem_flatMap, List.mem_map] at hb
          obtain ⟨e', he', _, _, heq⟩ := hb
          simp only [Item.mk.injEq] at heq
          apply h1.1
          rw [← heq.1]
          exact List.mem_map_of_mem he'

/-! ### the properties -/

/-- A repeated shard in the ranges is an error, and only that. -/
theorem iterator_created_iff (db : DB) (p : Part) (rs : List ShardRange) :
    (mkIt db p rs).isSome ↔ (rs.map (·.shard)).Nodup := by
  have key : ∀ (rs : List ShardRange) (acc : Table Shard (List (Nat × Msg))), (∀ q ∈ rs, get acc q.shard = none) →
      (rs.map (·.shard)).Nodup → (mkIters db p acc rs).isSome := by
    intro rs
    induction rs with
    | nil => intro acc _ _; rfl
    | cons q rs ih =>
      intro acc hn hnd
      rw [List.map_cons, List.nodup_cons] at hnd
      unfold mkIters
      rw [hn q (by simp)]
      apply ih _ _ hnd.2
      intro q' hq'
      rw [get_put, if_neg]
      · exact hn q' (by simp [hq'])
      · intro he
        apply hnd.1
        rw [← he]
        exact List.mem_map_of_mem hq'
  constructor
  · intro h
    unfold mkIt at h
    split at h
    · cases h
    · rename_i iters hit
      exact (mkIters_spec db p rs [] iters uniq_nil hit).2.2.1
  · intro h
    have := key rs [] (by simp [Table.get]) h
    unfold mkIt
    obtain ⟨r, hr⟩ := Option.isSome_iff_exists.mp this
    rw [hr]; rfl

/-- After any number of calls: the returned messages are wanted ones, without repetition, in ascending key order. -/
theorem iteration_sound (db : DB) (hu : Uniq db.msgs) (p : Part) (rs : List ShardRange) (recv : Msg → Bool) (σ : It)
    (h : mkIt db p rs = some σ) (pick : List Item → Option Item) (hpick : PickOk pick) (n : Nat) :
    (∀ x ∈ (calls pick recv n σ).1, Wanted db p rs recv x) ∧ (calls pick recv n σ).1.Nodup ∧
    (calls pick recv n σ).1.Pairwise (fun a b => a.key ≤ b.key) := by
  obtain ⟨ok, hw, hnd, _⟩ := mkIt_ok db hu p rs σ h recv
  obtain ⟨_, b, c, _, _, _⟩ := calls_spec pick hpick recv n σ ok
  refine ⟨?_, ?_, c⟩
  · intro x hx
    exact (hw x).mp (b.symm.subset (List.mem_append_left _ hx))
  · exact (List.nodup_append.mp (b.nodup_iff.mp hnd)).1

/-- Enough calls return every wanted message, exactly once, in ascending key order over all shards; further calls return
nothing. -/
theorem iteration_complete (db : DB) (hu : Uniq db.msgs) (p : Part) (rs : List ShardRange) (recv : Msg → Bool) (σ : It)
    (h : mkIt db p rs = some σ) (pick : List Item → Option Item) (hpick : PickOk pick) :
    ∃ N, ∀ n, N ≤ n →
      (∀ x, x ∈ (calls pick recv n σ).1 ↔ Wanted db p rs recv x) ∧ (calls pick recv n σ).1.Nodup ∧
      (calls pick recv n σ).1.Pairwise (fun a b => a.key ≤ b.key) ∧ (next pick recv (calls pick recv n σ).2).1 = none := by
  obtain ⟨ok, hw, hnd, _⟩ := mkIt_ok db hu p rs σ h recv
  refine ⟨(pend recv σ).length, ?_⟩
  intro n hn
  obtain ⟨a, b, c, d, _, _⟩ := calls_spec pick hpick recv n σ ok
  have he := d hn
  rw [he, List.append_nil] at b
  refine ⟨?_, b.nodup_iff.mp hnd, c, ?_⟩
  · intro x
    rw [← hw x]
    exact b.symm.mem_iff
  · have hs := next_spec pick hpick recv _ a
    cases hx : next pick recv (calls pick recv n σ).2 with
    | mk r σ' =>
      rw [hx] at hs
      cases r with
      | none => rfl
      | some m =>
        simp only at hs
        have := hs.1
        rw [he] at this
        exact absurd this.symm.eq_nil (by simp)

/-- The reported position separates what was returned from what was not: a wanted message has been returned exactly when
its key is at or below the position of its shard. -/
theorem position_exact (db : DB) (hu : Uniq db.msgs) (p : Part) (rs : List ShardRange) (recv : Msg → Bool) (σ : It)
    (h : mkIt db p rs = some σ) (pick : List Item → Option Item) (hpick : PickOk pick) (n : Nat) (x : Item)
    (hx : Wanted db p rs recv x) :
    x ∈ (calls pick recv n σ).1 ↔ ∃ k, get (calls pick recv n σ).2.pos x.shard = some k ∧ x.key ≤ k := by
  obtain ⟨ok, hw, hnd, _⟩ := mkIt_ok db hu p rs σ h recv
  obtain ⟨a, b, _, _, e, _⟩ := calls_spec pick hpick recv n σ ok
  constructor
  · exact e x
  · rintro ⟨k, hk, hle⟩
    have hp := b.subset ((hw x).mpr hx)
    rcases List.mem_append.mp hp with hp | hp
    · exact hp
    · exfalso
      unfold pend at hp
      rcases List.mem_append.mp hp with hp | hp
      · have := a.posHeap _ k hk x hp rfl
        omega
      · simp only [List.mem_flatMap, List.mem_map, List.mem_filter] at hp
        obtain ⟨e', he', y, ⟨hy, _⟩, rfl⟩ := hp
        have := a.posIter _ k hk e' he' rfl y hy
        simp only at hle
        omega

/-- The hypothesis `Uniq db.msgs` holds in every history of the queue. -/
theorem run_msgs_uniq (zs : Nat) (ops : List Op) : Uniq (run zs Sys.init ops).db.msgs := by
  have hstep : ∀ (σ : Sys) (op : Op), Uniq σ.db.msgs → Uniq (step zs σ op).db.msgs := by
    intro σ op h
    have hdel : ∀ (ds : List Del) (db : DB), Uniq db.msgs → Uniq (ds.foldl execDel db).msgs := by
      intro ds
      induction ds with
      | nil => exact fun _ h => h
      | cons d ds ih => exact fun db h => ih _ (uniq_del db.msgs (hitMsg d) h)
    cases op with
    | «prepare» d s n hh st c =>
      simp only [step]; unfold doPrepare
      split
      · exact h
      · split <;> exact h
    | write s =>
      simp only [step]; unfold doWrite
      split
      · exact h
      · exact uniq_putAll _ _ h
    | drop s => exact h
    | commit tops parts =>
      simp only [step]; unfold doCommit
      split
      · exact h
      · split
        · exact h
        · rename_i r hc
          simp only [(commit_tables hc).2.1]; exact h
    | clear parts tops =>
      simp only [step]; unfold doClear
      split
      · exact h
      · exact hdel _ _ h
    | gcTick => simp only [step]; unfold doGcTick; split <;> exact h
    | gcPlan =>
      simp only [step]; unfold doGcPlan
      split
      · exact h
      · split
        · exact h
        · split <;> exact h
    | gcWrite =>
      simp only [step]; unfold doGcWrite
      split
      · exact h
      · rename_i d _; exact uniq_del _ (hitMsg d) h
    | gcFail => exact h
    | restart => exact h
  have : ∀ (ops : List Op) (σ : Sys), Uniq σ.db.msgs → Uniq (run zs σ ops).db.msgs := by
    intro ops
    induction ops with
    | nil => exact fun _ h => h
    | cons op ops ih => exact fun σ h => ih _ (hstep σ op h)
  exact this ops _ uniq_nil

/-! ### a concrete case -/

/-- A heap that pops the first least element. -/
def pickMin : List Item → Option Item
  | [] => none
  | x :: l => match pickMin l with
    | none => some x
    | some m => if x.key ≤ m.key then some x else some m

theorem pickMin_ok : PickOk pickMin := by
  constructor
  · rfl
  · intro h
    induction h with
    | nil => simp
    | cons x l ih =>
      intro _
      unfold pickMin
      cases l with
      | nil => exact ⟨x, by simp, rfl, by simp⟩
      | cons y l =>
        obtain ⟨m, hm, hp, hle⟩ := ih (by simp)
        rw [hp]
        simp only
        split
        · rename_i hx
          refine ⟨x, by simp, rfl, ?_⟩
          intro z hz
          rcases List.mem_cons.mp hz with rfl | hz
          · exact Nat.le_refl _
          · have := hle z hz; omega
        · rename_i hx
          refine ⟨m, by simp [hm], rfl, ?_⟩
          intro z hz
          rcases List.mem_cons.mp hz with rfl | hz
          · omega
          · exact hle z hz

def exMsg (n : Nat) : Msg := ⟨.std ⟨0, 1⟩, .std ⟨0, n⟩, 0⟩
def exS1 : Shard := ⟨0, 1⟩
def exS2 : Shard := ⟨0, 2⟩
def exStore : DB := { DB.empty with msgs :=
  [((0, exS1, 30), exMsg 2), ((0, exS1, 10), exMsg 2), ((0, exS1, 20), exMsg 3), ((0, exS2, 15), exMsg 2),
   ((1, exS2, 16), exMsg 2), ((0, exS2, 99), exMsg 2)] }
def exRecv (m : Msg) : Bool := decide (m.dst = .std ⟨0, 2⟩)
def exIt : It := ⟨[(exS2, [(15, exMsg 2)]), (exS1, [(10, exMsg 2), (20, exMsg 3), (30, exMsg 2)])], [], [], []⟩

/-- Two shards, an entry for another receiver, one in another partition, one out of range. -/
theorem ex_mkIt : mkIt exStore 0 [⟨exS1, 0, 50⟩, ⟨exS2, 0, 50⟩] = some exIt := by decide +kernel

example : (calls pickMin exRecv 4 exIt).1 = [⟨exS1, 10, exMsg 2⟩, ⟨exS2, 15, exMsg 2⟩, ⟨exS1, 30, exMsg 2⟩] ∧
    Uniq exStore.msgs := by
  constructor
  · decide +kernel
  · unfold Uniq; decide +kernel

end Tycho.QueueIter
