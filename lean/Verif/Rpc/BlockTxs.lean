import Verif.Rpc.TxInv

/-!
Transactions of a block: rpc/src/state/storage.rs:343-425 `get_block_transaction_ids`.
-/
namespace Tycho.Rpc

/-- the last key of a block, which is not included -/
def maxKey : Key := ⟨256 ^ 32 - 1, 2 ^ 64 - 1⟩

/-- storage.rs:362-425: rows of the block in the order of their keys (account and logical time), `cursor` is the last row of the previous page -/
def blockIds (rows : List Key) (rev : Bool) (cursor : Option Key) : List Key :=
  let lower := cursor.getD ⟨0, 0⟩
  let l := rows.filter (fun k => !k.before lower && k.before maxKey)
  let l := if rev then l.reverse else l
  if cursor.isSome ∧ l.head? = some lower then l.tail else l

def KOrdered (l : List Key) : Prop := l.Pairwise (fun a b => a.before b = true)

theorem blockIds_none (rows : List Key) (hm : ∀ k ∈ rows, k.before maxKey = true) (rev : Bool) :
    blockIds rows rev none = if rev then rows.reverse else rows := by
  unfold blockIds
  have : rows.filter (fun k => !k.before ⟨0, 0⟩ && k.before maxKey) = rows := by
    rw [List.filter_eq_self]
    intro k hk
    have h1 : k.before ⟨0, 0⟩ = false := by rw [before_false]; simp
    rw [hm k hk, h1]; rfl
  simp only [Option.getD_none, this]
  rw [if_neg (by simp)]

/-- Forward: the page continues after the cursor. -/
theorem blockIds_continue (rows : List Key) (ho : KOrdered rows) (hm : ∀ k ∈ rows, k.before maxKey = true) (c : Key) :
    blockIds rows false (some c) = rows.filter (fun k => c.before k) := by
  unfold blockIds
  simp only [Option.getD_some, Bool.false_eq_true, if_false, Option.isSome_some, true_and]
  induction rows with
  | nil => simp
  | cons k rows ih =>
    have hp := List.pairwise_cons.1 ho
    have hm1 := hm k List.mem_cons_self
    have ih := ih hp.2 (fun x hx => hm x (List.mem_cons_of_mem _ hx))
    have hafter : c.before k = true ∨ c = k → rows.filter (fun k => !k.before c && k.before maxKey) = rows.filter (fun k => c.before k) ∧
        rows.filter (fun k => c.before k) = rows := by
      intro hck
      have h1 : ∀ x ∈ rows, c.before x = true := by
        intro x hx
        have := hp.1 x hx
        rcases hck with h | h
        · exact before_trans h this
        · rw [h]; exact this
      refine ⟨?_, List.filter_eq_self.2 h1⟩
      apply List.filter_congr
      intro x hx
      have h2 := h1 x hx
      have h3 : x.before c = false := by rw [before_false]; rw [before_iff] at h2; omega
      rw [h2, h3, hm x (List.mem_cons_of_mem _ hx)]; rfl
    rcases before_total k c with h | h | h
    · have h2 : c.before k = false := by rw [before_false]; rw [before_iff] at h; omega
      rw [List.filter_cons_of_neg (by simp [h]), List.filter_cons_of_neg (by simp [h2])]
      exact ih
    · subst h
      rw [List.filter_cons_of_pos (by simp [before_irrefl, hm1]), List.filter_cons_of_neg (by simp [before_irrefl]), if_pos (by simp), List.tail_cons]
      exact (hafter (.inr rfl)).1
    · have h2 : k.before c = false := by rw [before_false]; rw [before_iff] at h; omega
      rw [List.filter_cons_of_pos (by simp [h2, hm1]), List.filter_cons_of_pos h, if_neg, (hafter (.inl h)).1]
      simp only [List.head?_cons, Option.some.injEq]
      intro he
      rw [he, before_irrefl] at h; cases h

/-- pages of at most `n` rows, each request with the last row of the previous page -/
def blockPages (rows : List Key) (n : Nat) : Nat → Option Key → List Key
  | 0, _ => []
  | fuel + 1, cursor =>
    let page := (blockIds rows false cursor).take n
    match page.getLast? with
    | none => []
    | some x => page ++ blockPages rows n fuel (some x)

theorem after_take (l : List Key) (n : Nat) (x : Key) (hs : KOrdered l) (hx : (l.take n).getLast? = some x) :
    l.filter (fun y => x.before y) = l.drop n := by
  have h := List.take_append_drop n l
  have hp : KOrdered (l.take n ++ l.drop n) := by rw [h]; exact hs
  have h1 := List.pairwise_append.1 hp
  obtain ⟨l', hl'⟩ := List.getLast?_eq_some_iff.1 hx
  calc l.filter (fun y => x.before y) = (l.take n ++ l.drop n).filter (fun y => x.before y) := by rw [h]
    _ = l.drop n := by
      rw [List.filter_append, List.filter_eq_nil_iff.2, List.filter_eq_self.2, List.nil_append]
      · intro y hy
        exact h1.2.2 x (List.mem_of_getLast? hx) y hy
      · intro y hy
        rw [hl'] at hy h1
        have : y.before x = true ∨ y = x := by
          rcases List.mem_append.1 hy with hy | hy
          · exact .inl ((List.pairwise_append.1 h1.1).2.2 y hy x (by simp))
          · exact .inr (List.mem_singleton.1 hy)
        rcases this with h2 | h2
        · rw [Bool.not_eq_true, before_false]; rw [before_iff] at h2; omega
        · rw [h2, before_irrefl]; simp

/-- **Pages of transactions of a block give each transaction once**, in the order of accounts and logical times. -/
theorem blockPages_exact (rows : List Key) (ho : KOrdered rows) (hm : ∀ k ∈ rows, k.before maxKey = true) (n : Nat) (hn : 0 < n) (fuel : Nat)
    (hf : rows.length < fuel) : blockPages rows n fuel none = rows := by
  have key : ∀ (fuel : Nat) (cursor : Option Key) (rest : List Key), rest.length < fuel → blockIds rows false cursor = rest → KOrdered rest →
      (∀ x ∈ rest, rows.filter (fun y => x.before y) = rest.filter (fun y => x.before y)) → blockPages rows n fuel cursor = rest := by
    intro fuel
    induction fuel with
    | zero => intro _ rest h; omega
    | succ fuel ih =>
      intro cursor rest hlen hr hp hfil
      rw [blockPages, hr]
      cases hl : (rest.take n).getLast? with
      | none =>
        rw [List.getLast?_eq_none_iff, List.take_eq_nil_iff] at hl
        rcases hl with hl | hl
        · omega
        · exact hl.symm
      | some x =>
        have hxr : x ∈ rest := List.mem_of_mem_take (List.mem_of_getLast? hl)
        have hd := after_take rest n x hp hl
        have hacc : blockIds rows false (some x) = rest.drop n := by
          rw [blockIds_continue rows ho hm, hfil x hxr, hd]
        dsimp only
        rw [ih (some x) (rest.drop n) (by
          have : rest ≠ [] := by rintro rfl; cases hxr
          have := List.length_pos_iff.2 this
          rw [List.length_drop]; omega) hacc (hp.sublist (List.drop_sublist _ _)) ?_]
        · exact List.take_append_drop n rest
        · intro y hy
          have hyr := List.mem_of_mem_drop hy
          rw [hfil y hyr]
          have hxy : x.before y = true := by
            rw [← hd, List.mem_filter] at hy; exact hy.2
          rw [← hd, List.filter_filter]
          apply List.filter_congr
          intro z _
          cases hyz : y.before z with
          | false => rfl
          | true => rw [before_trans hxy hyz]; rfl
  exact key fuel none rows hf (by rw [blockIds_none rows hm]; rfl) ho (fun x _ => rfl)

/-- **Backwards a cursor does not continue the listing**: the rows returned are those from the end of the block down to the cursor, not those before it. -/
theorem blockIds_reverse_cursor (rows : List Key) (hm : ∀ k ∈ rows, k.before maxKey = true) (c last : Key)
    (hl : rows.getLast? = some last) (hc : c.before last = true) :
    blockIds rows true (some c) = (rows.filter (fun k => !k.before c)).reverse := by
  unfold blockIds
  have h1 : rows.filter (fun k => !k.before c && k.before maxKey) = rows.filter (fun k => !k.before c) := by
    apply List.filter_congr
    intro k hk
    rw [hm k hk, Bool.and_true]
  simp only [Option.getD_some, if_true, h1]
  rw [if_neg]
  rintro ⟨_, h2⟩
  obtain ⟨l', rfl⟩ := List.getLast?_eq_some_iff.1 hl
  have h3 : last.before c = false := by rw [before_false]; rw [before_iff] at hc; omega
  rw [List.filter_append, List.filter_cons_of_pos (by simp [h3]), List.filter_nil, List.reverse_append] at h2
  simp only [List.reverse_cons, List.reverse_nil, List.nil_append, List.cons_append, List.head?_cons, Option.some.injEq] at h2
  rw [h2, before_irrefl] at hc
  cases hc

end Tycho.Rpc
