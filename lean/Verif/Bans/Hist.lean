import Verif.Bans.Model
/-!
The tolerated events of a peer and kind against the list of all its events.
-/
namespace Tycho.Bans

/-- The last `n` of a list. -/
def lastN {α : Type} (n : Nat) (l : List α) : List α := l.drop (l.length - n)

/-- The keys go up. -/
def Up (l : List Key) : Prop := l.Pairwise (fun a b => klt a b = true)

theorem klt_fst {a b : Key} (h : klt a b = true) : a.1 ≤ b.1 := by
  unfold klt at h; simp at h; omega

theorem klt_irrefl (a : Key) : klt a a = false := by unfold klt; simp

theorem klt_trans {a b c : Key} (h1 : klt a b = true) (h2 : klt b c = true) : klt a c = true := by
  unfold klt at *; simp at *; omega

theorem klt_asymm {a b : Key} (h1 : klt a b = true) : klt b a = false := by
  unfold klt at *; simp at *; omega

/-- In a list that goes up a lower bound cuts off the front. -/
theorem up_filter (l : List Key) (h : Up l) (b : Nat) :
    ∃ n, n ≤ l.length ∧ l.filter (fun x => decide (b ≤ x.1)) = l.drop n ∧ ∀ x ∈ l.take n, x.1 < b := by
  induction l with
  | nil => exact ⟨0, by simp⟩
  | cons k l ih =>
    have h2 := List.pairwise_cons.1 h
    by_cases hk : b ≤ k.1
    · refine ⟨0, by simp, ?_, by simp⟩
      rw [List.drop_zero, List.filter_eq_self]
      intro x hx
      rcases List.mem_cons.1 hx with rfl | hx
      · simpa using hk
      · have := klt_fst (h2.1 x hx)
        simp; omega
    · obtain ⟨n, hn, e, hlt⟩ := ih h2.2
      refine ⟨n + 1, by simp [hn], by rw [List.filter_cons_of_neg (by simpa using hk), e]; rfl, ?_⟩
      intro x hx
      rw [List.take_succ_cons, List.mem_cons] at hx
      rcases hx with rfl | hx
      · omega
      · exact hlt x hx

theorem up_drop {l : List Key} (h : Up l) (n : Nat) : Up (l.drop n) := h.sublist (List.drop_sublist _ _)
theorem up_filter_up {l : List Key} (h : Up l) (f : Key → Bool) : Up (l.filter f) := h.sublist List.filter_sublist

/-- The last ones above a bound are the last ones of those above it. -/
theorem filter_lastN (l : List Key) (h : Up l) (n b : Nat) :
    (lastN n l).filter (fun x => decide (b ≤ x.1)) = lastN n (l.filter (fun x => decide (b ≤ x.1))) := by
  obtain ⟨m, hm, e, hlt⟩ := up_filter l h b
  rw [e]
  have hall : ∀ k, m ≤ k → (l.drop k).filter (fun x => decide (b ≤ x.1)) = l.drop k := by
    intro k hk
    rw [List.filter_eq_self]
    intro x hx
    have : x ∈ l.drop m := by
      obtain ⟨d, rfl⟩ := Nat.exists_eq_add_of_le hk
      rw [← List.drop_drop] at hx
      exact (List.drop_sublist _ _).subset hx
    rw [← e, List.mem_filter] at this
    exact this.2
  unfold lastN
  rw [List.drop_drop, List.length_drop]
  by_cases hc : m ≤ l.length - n
  · rw [hall _ hc]
    congr 1; omega
  · have h0 : (l.drop (l.length - n)) = (l.take m).drop (l.length - n) ++ l.drop m := by
      rw [← List.drop_append_of_le_length (by rw [List.length_take]; omega), List.take_append_drop]
    rw [h0, List.filter_append, hall m (Nat.le_refl _)]
    have h1 : ((l.take m).drop (l.length - n)).filter (fun x => decide (b ≤ x.1)) = [] := by
      rw [List.filter_eq_nil_iff]
      intro x hx
      have := hlt x ((List.drop_sublist _ _).subset hx)
      simpa using this
    rw [h1, List.nil_append]
    congr 1; omega

theorem filter_filter_max (l : List Key) (a b : Nat) :
    (l.filter (fun x => decide (a ≤ x.1))).filter (fun x => decide (b ≤ x.1)) = l.filter (fun x => decide (max a b ≤ x.1)) := by
  rw [List.filter_filter]
  congr 1
  funext x
  by_cases h1 : a ≤ x.1 <;> by_cases h2 : b ≤ x.1 <;> simp [h1, h2] <;> omega

theorem minKey_up (k : Key) (l : List Key) (h : Up (l ++ [k])) : ∃ t, l ++ [k] = minKey k (l ++ [k]) :: t := by
  have stay : ∀ (l : List Key) (m : Key), (∀ x ∈ l, klt x m = false) → l.foldl (fun m x => if klt x m then x else m) m = m := by
    intro l
    induction l with
    | nil => intro m _; rfl
    | cons x l ih =>
      intro m hm
      rw [List.foldl_cons, hm x (by simp)]
      exact ih m (fun y hy => hm y (by simp [hy]))
  unfold minKey
  cases l with
  | nil => exact ⟨[], by simp [klt_irrefl]⟩
  | cons x l =>
    refine ⟨l ++ [k], ?_⟩
    have h2 := List.pairwise_cons.1 h
    have hx : klt x k = true := h2.1 k (by simp)
    simp only [List.cons_append, List.foldl_cons, hx, if_true]
    rw [stay (l ++ [k]) x (fun y hy => klt_asymm (h2.1 y hy))]

/-- The bound after an event at time `t`. -/
def bound (c : Conf) (b t : Nat) : Nat := match c.tol with
  | none => b
  | some (w, _) => max b (t - w)

/-- Are the events since the bound more than are tolerated? -/
def over (c : Conf) (es : List Key) (b : Nat) : Bool := match c.tol with
  | none => true
  | some (_, n) => decide (n < (es.filter (fun x => decide (b ≤ x.1))).length)

/-- The history of a peer and kind stands for its events since a bound. -/
def HistOk (c : Conf) (es : List Key) (b : Nat) (h : Hist) : Prop := match c.tol with
  | none => True
  | some (_, n) => h.tolerated = lastN n (es.filter (fun x => decide (b ≤ x.1)))

theorem lastN_length {α : Type} (n : Nat) (l : List α) : (lastN n l).length = min n l.length := by
  unfold lastN; rw [List.length_drop]; omega

theorem lastN_snoc {α : Type} (n : Nat) (l : List α) (x : α) (h : n ≤ l.length) : (lastN n l ++ [x]).tail = lastN n (l ++ [x]) := by
  unfold lastN
  rw [List.length_append, List.length_singleton]
  have : l.length + 1 - n = (l.length - n) + 1 := by omega
  rw [this, ← List.drop_append_of_le_length (by omega : l.length - n ≤ l.length), ← List.drop_one, List.drop_drop]

theorem lastN_all {α : Type} (n : Nat) (l : List α) (h : l.length ≤ n) : lastN n l = l := by
  unfold lastN; rw [Nat.sub_eq_zero_of_le h]; rfl

/-- An event that comes in order. -/
theorem maybeBan_ok (c : Conf) (es : List Key) (b : Nat) (h : Hist) (k : Key) (ok : HistOk c es b h) (hup : Up (es ++ [k]))
    (hlast : h.last.getD k.1 ≤ k.1) (hbig : b ≤ k.1) :
    ∃ h', h.maybeBan k c = some (h', if over c (es ++ [k]) (bound c b k.1) then some (k.1 + c.dur) else none) ∧
      h'.last = some k.1 ∧ HistOk c (es ++ [k]) (bound c b k.1) h' := by
  have hm : max (h.last.getD k.1) k.1 = k.1 := Nat.max_eq_right hlast
  cases ht : c.tol with
  | none => exact ⟨⟨some k.1, h.tolerated⟩, by simp [Hist.maybeBan, ht, hm, over], rfl, by simp [HistOk, ht]⟩
  | some wn =>
    obtain ⟨w, n⟩ := wn
    simp only [HistOk, ht] at ok
    have hes : Up es := hup.sublist (List.sublist_append_left _ _)
    have hbk : ∀ x ∈ es, klt x k = true := by
      intro x hx
      exact (List.pairwise_append.1 hup).2.2 x hx k (by simp)
    have hnot : k ∉ h.tolerated := by
      intro hk
      rw [ok] at hk
      have : k ∈ es := (List.mem_filter.1 ((List.drop_sublist _ _).subset hk)).1
      have := hbk k this
      rw [klt_irrefl] at this
      cases this
    have hxf : (h.tolerated ++ [k]).filter (fun x => decide (k.1 - w ≤ x.1))
        = lastN n (es.filter (fun x => decide (max b (k.1 - w) ≤ x.1))) ++ [k] := by
      rw [List.filter_append, ok, filter_lastN _ (up_filter_up hes _), filter_filter_max]
      simp
    have hall : (es ++ [k]).filter (fun x => decide (max b (k.1 - w) ≤ x.1)) = es.filter (fun x => decide (max b (k.1 - w) ≤ x.1)) ++ [k] := by
      rw [List.filter_append]
      congr 1
      rw [List.filter_eq_self]
      intro x hx
      rw [List.mem_singleton.1 hx]
      simp; omega
    generalize hX : es.filter (fun x => decide (max b (k.1 - w) ≤ x.1)) = X at hxf hall
    have hXup : Up (X ++ [k]) := by rw [← hall]; exact up_filter_up hup _
    have hlen : h.tolerated.length ≤ n := by rw [ok, lastN_length]; omega
    have hTup : Up (lastN n X ++ [k]) := by
      unfold lastN
      rw [← List.drop_append_of_le_length (by omega)]
      exact up_drop hXup _
    simp only [Hist.maybeBan, ht, hm, over, bound, HistOk]
    rw [if_neg (by omega), if_neg (by omega), if_neg hnot, hxf, hall]
    by_cases hc : n ≤ X.length
    · have hl : (lastN n X).length = n := by rw [lastN_length]; omega
      obtain ⟨T, hT⟩ := minKey_up k (lastN n X) hTup
      have her : (lastN n X ++ [k]).erase (minKey k (lastN n X ++ [k])) = lastN n (X ++ [k]) := by
        rw [← lastN_snoc n X k hc]
        generalize minKey k (lastN n X ++ [k]) = m at hT
        rw [hT]; simp
      have hmem : minKey k (lastN n X ++ [k]) ∈ lastN n X ++ [k] := by
        generalize minKey k (lastN n X ++ [k]) = m at hT
        rw [hT]; simp
      rw [if_pos (by rw [List.length_append, hl]; simp), if_pos ⟨hmem, by rw [her, lastN_length]; simp; omega⟩, her]
      refine ⟨⟨some k.1, lastN n (X ++ [k])⟩, ?_, rfl, rfl⟩
      have : n < (X ++ [k]).length := by simp; omega
      rw [if_pos (by simpa using this)]
    · have hl : lastN n X = X := lastN_all n X (by omega)
      rw [hl, if_neg (by simp; omega)]
      refine ⟨⟨some k.1, X ++ [k]⟩, ?_, rfl, (lastN_all _ _ (by simp; omega)).symm⟩
      have : ¬ n < (X ++ [k]).length := by simp; omega
      rw [if_neg (by simpa using this)]

end Tycho.Bans
