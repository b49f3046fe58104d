import Verif.QueueFill.Spec
import Mathlib.Data.List.Induction

/-! Lemmas: tables, counting, routing tables. -/
namespace Tycho.QueueFill
open Tycho.Bytes Tycho.Table Tycho.QueueKey Tycho.QueueDiffTl

variable {Cell : Type}

section Tables
variable {κ ν : Type} [DecidableEq κ]

theorem putAll_append (t : Table κ ν) (l l' : List (κ × ν)) :
    Table.putAll t (l ++ l') = Table.putAll (Table.putAll t l) l' := by
  simp [Table.putAll, List.foldl_append]

/-- Writes that agree on equal keys. -/
theorem get_putAll_fun (t : Table κ ν) (l : List (κ × ν))
    (hf : ∀ x ∈ l, ∀ y ∈ l, x.1 = y.1 → x.2 = y.2) (e : κ × ν) (he : e ∈ l) :
    Table.get (Table.putAll t l) e.1 = some e.2 := by
  induction l using List.reverseRecOn with
  | nil => simp at he
  | append_singleton l x ih =>
    rw [putAll_append]
    simp only [Table.putAll, List.foldl_cons, List.foldl_nil]
    rw [get_put]
    by_cases hx : x.1 = e.1
    · rw [if_pos hx.symm, hf x (by simp) e he hx]
    · rw [if_neg (Ne.symm hx)]
      have he' : e ∈ l := by
        rcases List.mem_append.1 he with h | h
        · exact h
        · simp only [List.mem_singleton] at h; exact absurd (by rw [h]) hx
      exact ih (fun x hx y hy => hf x (by simp [hx]) y (by simp [hy])) he'

/-- Occurrences of `k`. -/
def cnt (ks : List κ) (k : κ) : Nat := ks.countP (fun x => decide (x = k))

theorem cnt_cons (j : κ) (ks : List κ) (k : κ) : cnt (j :: ks) k = cnt ks k + if j = k then 1 else 0 := by
  unfold cnt; rw [List.countP_cons]; simp

theorem mem_of_cnt (ks : List κ) (k : κ) (h : 0 < cnt ks k) : k ∈ ks := by
  obtain ⟨x, hx, h⟩ := List.countP_pos_iff.1 h
  simp only [decide_eq_true_eq] at h
  exact h ▸ hx

theorem get_foldl_bump (ks : List κ) (t : Table κ Nat) (k : κ) :
    Table.get (ks.foldl bump t) k =
      if cnt ks k = 0 then Table.get t k else some ((Table.get t k).getD 0 + cnt ks k) := by
  induction ks generalizing t with
  | nil => simp [cnt]
  | cons j ks ih =>
    rw [List.foldl_cons, ih]
    unfold bump
    rw [get_put, cnt_cons]
    by_cases hj : j = k
    · subst hj
      simp only [if_true]
      by_cases hc : cnt ks j = 0
      · simp [hc]
      · rw [if_neg hc, if_neg (by omega)]
        simp only [Option.getD_some]
        congr 1; omega
    · simp [hj, Ne.symm hj]

theorem uniq_foldl_bump (ks : List κ) (t : Table κ Nat) (h : Uniq t) : Uniq (ks.foldl bump t) := by
  induction ks generalizing t with
  | nil => exact h
  | cons j ks ih => exact ih _ (uniq_put _ _ _ h)

/-- The table of counts of the list. -/
theorem mem_counts (ks : List κ) (k : κ) (n : Nat) :
    (k, n) ∈ ks.foldl bump ([] : Table κ Nat) ↔ (n = cnt ks k ∧ 0 < n) := by
  rw [mem_iff_get _ (uniq_foldl_bump _ _ uniq_nil), get_foldl_bump]
  simp only [Table.get]
  by_cases h : cnt ks k = 0
  · rw [if_pos h]; constructor
    · intro h'; cases h'
    · rintro ⟨rfl, h'⟩; omega
  · rw [if_neg h]
    simp only [Option.getD_none, Nat.zero_add, Option.some.injEq]
    constructor
    · rintro rfl; exact ⟨rfl, by omega⟩
    · rintro ⟨rfl, _⟩; rfl

theorem get_counts (ks : List κ) (k : κ) (n : Nat) :
    Table.get (ks.foldl bump ([] : Table κ Nat)) k = some n ↔ (n = cnt ks k ∧ 0 < n) := by
  rw [← mem_counts, mem_iff_get _ (uniq_foldl_bump _ _ uniq_nil)]

end Tables

/-- Strictly sorted lists with the same elements are equal. -/
theorem sorted_ext {α : Type} (lt : α → α → Prop) (irr : ∀ a, ¬ lt a a) (asym : ∀ a b, lt a b → ¬ lt b a)
    (l l' : List α) (h : l.Pairwise lt) (h' : l'.Pairwise lt) (hm : ∀ x, x ∈ l ↔ x ∈ l') : l = l' := by
  induction l generalizing l' with
  | nil =>
    cases l' with
    | nil => rfl
    | cons b l' => exact absurd ((hm b).2 (by simp)) (by simp)
  | cons a l ih =>
    cases l' with
    | nil => exact absurd ((hm a).1 (by simp)) (by simp)
    | cons b l' =>
      rw [List.pairwise_cons] at h h'
      have hab : a = b := by
        rcases List.mem_cons.1 ((hm a).1 (by simp)) with h1 | h1
        · exact h1
        rcases List.mem_cons.1 ((hm b).2 (by simp)) with h2 | h2
        · exact h2.symm
        exact absurd (h'.1 a h1) (asym _ _ (h.1 b h2))
      subst hab
      rw [ih l' h.2 h'.2]
      intro x
      constructor
      · intro hx
        rcases List.mem_cons.1 ((hm x).1 (by simp [hx])) with e | e
        · subst e; exact absurd (h.1 x hx) (irr x)
        · exact e
      · intro hx
        rcases List.mem_cons.1 ((hm x).2 (by simp [hx])) with e | e
        · subst e; exact absurd (h'.1 x hx) (irr x)
        · exact e

/-! ### Routing tables -/

theorem mem_insAddr (a b : Addr) (l : List Addr) : b ∈ insAddr a l ↔ b = a ∨ b ∈ l := by
  induction l with
  | nil => simp [insAddr]
  | cons c l ih =>
    unfold insAddr
    split
    · simp
    · split
      · rename_i h; subst h; simp
      · simp only [List.mem_cons, ih]; tauto

theorem listed_insPart (p : Nat) (a : Addr) (ps : List (Nat × List Addr)) (b : Addr) (q : Nat) :
    Listed (insPart p a ps) b q ↔ (b = a ∧ q = p) ∨ Listed ps b q := by
  induction ps with
  | nil =>
    simp only [insPart, Listed, List.mem_singleton, List.not_mem_nil, false_and, exists_false, or_false,
      Prod.mk.injEq]
    constructor
    · rintro ⟨l, ⟨rfl, rfl⟩, h⟩; simp at h; exact ⟨h, rfl⟩
    · rintro ⟨rfl, rfl⟩; exact ⟨[b], ⟨rfl, rfl⟩, by simp⟩
  | cons x ps ih =>
    have hc : ∀ (y : Nat × List Addr) ps, Listed (y :: ps) b q ↔ (q = y.1 ∧ b ∈ y.2) ∨ Listed ps b q := by
      intro y ps
      simp only [Listed, List.mem_cons]
      constructor
      · rintro ⟨l, h | h, hb⟩
        · left; rw [← h]; exact ⟨rfl, hb⟩
        · right; exact ⟨l, h, hb⟩
      · rintro (⟨rfl, h⟩ | ⟨l, h, hb⟩)
        · exact ⟨y.2, .inl rfl, h⟩
        · exact ⟨l, .inr h, hb⟩
    unfold insPart
    split
    · rw [hc]; simp only [List.mem_singleton]; tauto
    · split
      · rename_i h
        rw [hc, hc]; dsimp only
        rw [mem_insAddr, h]; tauto
      · rw [hc, hc, ih]; tauto

theorem listed_foldl (m : List (Addr × Nat)) (acc : List (Nat × List Addr)) (a : Addr) (p : Nat) :
    Listed (m.foldl (fun acc e => insPart e.2 e.1 acc) acc) a p ↔ (a, p) ∈ m ∨ Listed acc a p := by
  induction m generalizing acc with
  | nil => simp
  | cons e m ih =>
    rw [List.foldl_cons, ih, listed_insPart, List.mem_cons]
    constructor
    · rintro (h | ⟨h1, h2⟩ | h)
      · exact .inl (.inr h)
      · exact .inl (.inl (by rw [h1, h2]))
      · exact .inr h
    · rintro ((h | h) | h)
      · rw [← h]; exact .inr (.inl ⟨rfl, rfl⟩)
      · exact .inl h
      · exact .inr (.inr h)

theorem listed_toPartitions (m : List (Addr × Nat)) (a : Addr) (p : Nat) :
    Listed (toPartitions m) a p ↔ (a, p) ∈ m := by
  unfold toPartitions
  rw [listed_foldl]
  constructor
  · rintro (h | ⟨l, h, _⟩)
    · exact h
    · simp at h
  · exact .inl

theorem addrLt_irr (a : Addr) : ¬ addrLt a a = true := by
  simp only [addrLt, decide_eq_true_eq]
  rintro (h | ⟨_, h⟩)
  · omega
  · exact List.lt_irrefl _ h

theorem addrLt_trans (a b c : Addr) (h : addrLt a b = true) (h' : addrLt b c = true) : addrLt a c = true := by
  simp only [addrLt, decide_eq_true_eq] at *
  rcases h with h | ⟨h1, h2⟩ <;> rcases h' with h' | ⟨h3, h4⟩
  · left; omega
  · left; omega
  · left; omega
  · right; exact ⟨by omega, List.lt_trans h2 h4⟩

theorem addrLt_asym (a b : Addr) (h : addrLt a b = true) : ¬ addrLt b a = true :=
  fun h' => addrLt_irr a (addrLt_trans a b a h h')

theorem addrLt_total (a b : Addr) (h : ¬ addrLt a b = true) (h' : a ≠ b) : addrLt b a = true := by
  simp only [addrLt, decide_eq_true_eq] at *
  by_cases h1 : b.workchain < a.workchain
  · exact .inl h1
  by_cases h2 : a.workchain < b.workchain
  · exact absurd (.inl h2) h
  right
  have hw : b.workchain = a.workchain := by omega
  refine ⟨hw, ?_⟩
  have h3 : ¬ a.account < b.account := fun h3 => h (.inr ⟨hw.symm, h3⟩)
  rcases Nat.lt_or_ge 0 1 with _ | h4
  · by_contra h5
    apply h'
    have : a.account = b.account := List.le_antisymm (List.not_lt.1 h5) (List.not_lt.1 h3)
    cases a; cases b; simp_all
  · omega

/-- A table of partitions as a reader of the diff accepts it, without empty partitions. -/
structure Canon (ps : List (Nat × List Addr)) : Prop where
  parts : ps.Pairwise (fun a b => a.1 < b.1)
  accounts : ∀ p ∈ ps, p.2.Pairwise (fun a b => addrLt a b = true)
  nonempty : ∀ p ∈ ps, p.2 ≠ []

theorem insAddr_sorted (a : Addr) (l : List Addr) (h : l.Pairwise (fun a b => addrLt a b = true)) :
    (insAddr a l).Pairwise (fun a b => addrLt a b = true) := by
  induction l with
  | nil => simp [insAddr]
  | cons b l ih =>
    rw [List.pairwise_cons] at h
    unfold insAddr
    split
    · rename_i hab
      rw [List.pairwise_cons]
      refine ⟨?_, by rw [List.pairwise_cons]; exact h⟩
      intro x hx
      rcases List.mem_cons.1 hx with rfl | hx
      · exact hab
      · exact addrLt_trans _ _ _ hab (h.1 x hx)
    · split
      · rw [List.pairwise_cons]; exact h
      · rename_i h1 h2
        rw [List.pairwise_cons]
        refine ⟨?_, ih h.2⟩
        intro x hx
        rcases (mem_insAddr _ _ _).1 hx with rfl | hx
        · exact addrLt_total _ _ h1 h2
        · exact h.1 x hx

theorem insAddr_ne (a : Addr) (l : List Addr) : insAddr a l ≠ [] := by
  intro h
  have : a ∈ insAddr a l := (mem_insAddr a a l).2 (.inl rfl)
  rw [h] at this; simp at this

theorem insPart_fst (p : Nat) (a : Addr) (ps : List (Nat × List Addr)) (x : Nat × List Addr)
    (hx : x ∈ insPart p a ps) : x.1 = p ∨ ∃ y ∈ ps, y.1 = x.1 := by
  induction ps with
  | nil => simp [insPart] at hx; left; rw [hx]
  | cons q ps ih =>
    unfold insPart at hx
    split at hx
    · rcases List.mem_cons.1 hx with rfl | hx
      · left; rfl
      · right; exact ⟨x, hx, rfl⟩
    · split at hx
      · rcases List.mem_cons.1 hx with rfl | hx
        · right; exact ⟨q, by simp, rfl⟩
        · right; exact ⟨x, by simp [hx], rfl⟩
      · rcases List.mem_cons.1 hx with rfl | hx
        · right; exact ⟨x, by simp, rfl⟩
        · rcases ih hx with h | ⟨y, hy, h⟩
          · exact .inl h
          · exact .inr ⟨y, by simp [hy], h⟩

theorem canon_insPart (p : Nat) (a : Addr) (ps : List (Nat × List Addr)) (h : Canon ps) :
    Canon (insPart p a ps) := by
  induction ps with
  | nil =>
    constructor <;> simp [insPart]
  | cons q ps ih =>
    have hp := h.parts
    rw [List.pairwise_cons] at hp
    have h' : Canon ps := ⟨hp.2, fun x hx => h.accounts x (by simp [hx]), fun x hx => h.nonempty x (by simp [hx])⟩
    have hi := ih h'
    unfold insPart
    split
    · rename_i hlt
      refine ⟨?_, ?_, ?_⟩
      · rw [List.pairwise_cons]
        refine ⟨?_, h.parts⟩
        intro x hx
        rcases List.mem_cons.1 hx with rfl | hx
        · exact hlt
        · have := hp.1 x hx; dsimp only; omega
      · intro x hx
        rcases List.mem_cons.1 hx with rfl | hx
        · simp
        · exact h.accounts x hx
      · intro x hx
        rcases List.mem_cons.1 hx with rfl | hx
        · simp
        · exact h.nonempty x hx
    · split
      · refine ⟨?_, ?_, ?_⟩
        · rw [List.pairwise_cons]; exact ⟨fun x hx => hp.1 x hx, hp.2⟩
        · intro x hx
          rcases List.mem_cons.1 hx with rfl | hx
          · exact insAddr_sorted _ _ (h.accounts q (by simp))
          · exact h.accounts x (by simp [hx])
        · intro x hx
          rcases List.mem_cons.1 hx with rfl | hx
          · exact insAddr_ne _ _
          · exact h.nonempty x (by simp [hx])
      · rename_i h1 h2
        refine ⟨?_, ?_, ?_⟩
        · rw [List.pairwise_cons]
          refine ⟨?_, hi.parts⟩
          intro x hx
          rcases insPart_fst _ _ _ _ hx with h3 | ⟨y, hy, h3⟩
          · omega
          · have := hp.1 y hy; omega
        · intro x hx
          rcases List.mem_cons.1 hx with rfl | hx
          · exact h.accounts x (by simp)
          · exact hi.accounts x hx
        · intro x hx
          rcases List.mem_cons.1 hx with rfl | hx
          · exact h.nonempty x (by simp)
          · exact hi.nonempty x hx

theorem canon_foldl (m : List (Addr × Nat)) (acc : List (Nat × List Addr)) (h : Canon acc) :
    Canon (m.foldl (fun acc e => insPart e.2 e.1 acc) acc) := by
  induction m generalizing acc with
  | nil => exact h
  | cons e m ih => exact ih _ (canon_insPart _ _ _ h)

theorem canon_toPartitions (m : List (Addr × Nat)) : Canon (toPartitions m) :=
  canon_foldl m [] ⟨List.Pairwise.nil, by simp, by simp⟩

theorem canon_unique (ps : List (Nat × List Addr)) (h : Canon ps) (p : Nat) (l l' : List Addr)
    (h1 : (p, l) ∈ ps) (h2 : (p, l') ∈ ps) : l = l' := by
  have hp := h.parts
  clear h
  induction ps with
  | nil => simp at h1
  | cons q ps ih =>
    rw [List.pairwise_cons] at hp
    rcases List.mem_cons.1 h1 with h1 | h1 <;> rcases List.mem_cons.1 h2 with h2 | h2
    · rw [← h1] at h2; simp at h2; exact h2.symm
    · have := hp.1 _ h2; rw [← h1] at this; simp at this
    · have := hp.1 _ h1; rw [← h2] at this; simp at this
    · exact ih h1 h2 hp.2

theorem canon_ext (ps ps' : List (Nat × List Addr)) (h : Canon ps) (h' : Canon ps')
    (hl : ∀ a p, Listed ps a p ↔ Listed ps' a p) : ps = ps' := by
  have half : ∀ ps ps' : List (Nat × List Addr), Canon ps → Canon ps' →
      (∀ a p, Listed ps a p ↔ Listed ps' a p) → ∀ x ∈ ps, x ∈ ps' := by
    rintro ps ps' h h' hl ⟨p, l⟩ hx
    obtain ⟨a, ha⟩ := List.exists_mem_of_ne_nil _ (h.nonempty _ hx)
    obtain ⟨l', hx', _⟩ := (hl a p).1 ⟨l, hx, ha⟩
    have : l = l' := by
      refine sorted_ext (fun a b => addrLt a b = true) addrLt_irr addrLt_asym _ _ (h.accounts _ hx)
        (h'.accounts _ hx') ?_
      intro b
      constructor
      · intro hb
        obtain ⟨m, hm, hb'⟩ := (hl b p).1 ⟨l, hx, hb⟩
        rwa [canon_unique ps' h' p m l' hm hx'] at hb'
      · intro hb
        obtain ⟨m, hm, hb'⟩ := (hl b p).2 ⟨l', hx', hb⟩
        rwa [canon_unique ps h p m l hm hx] at hb'
    rw [this]; exact hx'
  refine sorted_ext (fun a b : Nat × List Addr => a.1 < b.1) (fun a => Nat.lt_irrefl _)
    (fun a b h => Nat.lt_asymm h) _ _ h.parts h'.parts ?_
  exact fun x => ⟨half ps ps' h h' hl x, half ps' ps h' h (fun a p => (hl a p).symm) x⟩

/-! ### Lookup of routes -/

theorem get_extend (m : Table Addr Nat) (p : Nat × List Addr) (a : Addr) :
    Table.get (extend m p) a = if a ∈ p.2 then some p.1 else Table.get m a := by
  unfold extend
  generalize p.2 = l
  induction l generalizing m with
  | nil => simp
  | cons b l ih =>
    rw [List.foldl_cons, ih, get_put]
    by_cases h : a ∈ l
    · simp [h]
    · by_cases h' : b = a
      · simp [h']
      · simp [h, Ne.symm h']

theorem get_convert_append (ps : List (Nat × List Addr)) (p : Nat × List Addr) (a : Addr) :
    Table.get (convert (ps ++ [p])) a = if a ∈ p.2 then some p.1 else Table.get (convert ps) a := by
  unfold convert
  rw [List.foldl_append, List.foldl_cons, List.foldl_nil, get_extend]

theorem listed_append (ps : List (Nat × List Addr)) (x : Nat × List Addr) (a : Addr) (p : Nat) :
    Listed (ps ++ [x]) a p ↔ Listed ps a p ∨ (x.1 = p ∧ a ∈ x.2) := by
  simp only [Listed, List.mem_append, List.mem_singleton]
  constructor
  · rintro ⟨l, h | h, ha⟩
    · exact .inl ⟨l, h, ha⟩
    · exact .inr ⟨by rw [← h], by rw [← h]; exact ha⟩
  · rintro (⟨l, h, ha⟩ | ⟨rfl, ha⟩)
    · exact ⟨l, .inl h, ha⟩
    · exact ⟨x.2, .inr rfl, ha⟩

theorem convert_some (ps : List (Nat × List Addr)) (a : Addr) (p : Nat)
    (h : Table.get (convert ps) a = some p) : Listed ps a p := by
  induction ps using List.reverseRecOn with
  | nil => simp [convert, Table.get] at h
  | append_singleton ps x ih =>
    rw [get_convert_append] at h
    rw [listed_append]
    split at h
    · rename_i hx; simp at h; exact .inr ⟨h, hx⟩
    · exact .inl (ih h)

theorem convert_none (ps : List (Nat × List Addr)) (a : Addr)
    (h : Table.get (convert ps) a = none) (p : Nat) : ¬ Listed ps a p := by
  induction ps using List.reverseRecOn with
  | nil => rintro ⟨l, hl, _⟩; simp at hl
  | append_singleton ps x ih =>
    rw [get_convert_append] at h
    rw [listed_append]
    split at h
    · simp at h
    · rename_i hx
      rintro (h' | ⟨_, h'⟩)
      · exact ih h h'
      · exact hx h'

theorem get_convert_iff (ps : List (Nat × List Addr)) (h1 : OnePartition ps) (a : Addr) (p : Nat) :
    Table.get (convert ps) a = some p ↔ Listed ps a p := by
  constructor
  · exact convert_some ps a p
  · intro h
    cases hg : Table.get (convert ps) a with
    | none => exact absurd h (convert_none ps a hg p)
    | some q => rw [h1 a p q h (convert_some ps a q hg)]

theorem first_some (ps : List (Nat × List Addr)) (a : Addr) (p : Nat)
    (h : firstPartition ps a = some p) : Listed ps a p := by
  induction ps with
  | nil => simp [firstPartition] at h
  | cons x ps ih =>
    unfold firstPartition at h
    split at h
    · rename_i hx; simp at h; exact ⟨x.2, by rw [← h]; simp, hx⟩
    · obtain ⟨l, hl, ha⟩ := ih h; exact ⟨l, by simp [hl], ha⟩

theorem first_none (ps : List (Nat × List Addr)) (a : Addr)
    (h : firstPartition ps a = none) (p : Nat) : ¬ Listed ps a p := by
  induction ps with
  | nil => rintro ⟨l, hl, _⟩; simp at hl
  | cons x ps ih =>
    unfold firstPartition at h
    split at h
    · simp at h
    · rename_i hx
      rintro ⟨l, hl, ha⟩
      rcases List.mem_cons.1 hl with hl | hl
      · exact hx (by rw [← hl]; exact ha)
      · exact ih h ⟨l, hl, ha⟩

theorem get_first_iff (ps : List (Nat × List Addr)) (h1 : OnePartition ps) (a : Addr) (p : Nat) :
    firstPartition ps a = some p ↔ Listed ps a p := by
  constructor
  · exact first_some ps a p
  · intro h
    cases hg : firstPartition ps a with
    | none => exact absurd h (first_none ps a hg p)
    | some q => rw [h1 a p q h (first_some ps a q hg)]

/-- A lookup of the destination, then of the source, then 0, is the route, whatever the tables are as long as
they hold what the diff lists. -/
theorem route_iff (d : Diff) (f g : Option Nat) (src dst : Addr) (p : Nat)
    (hf : ∀ q, f = some q ↔ Listed d.partitionsDst dst q) (hg : ∀ q, g = some q ↔ Listed d.partitionsSrc src q) :
    RouteTo d src dst p ↔ (f.or g).getD 0 = p := by
  unfold RouteTo
  cases f with
  | some x =>
    simp only [Option.some_or, Option.getD_some]
    rw [← hf]
    constructor
    · rintro (h | ⟨h, _⟩)
      · exact Option.some.inj h
      · exact absurd ((hf x).1 rfl) (h x)
    · rintro rfl; exact .inl rfl
  | none =>
    rw [Option.none_or]
    have hn : ∀ q, ¬ Listed d.partitionsDst dst q := fun q hq => by simpa using (hf q).2 hq
    constructor
    · rintro (h | ⟨_, h⟩)
      · exact absurd h (hn p)
      · rcases h with h | ⟨h, rfl⟩
        · rw [(hg p).2 h]; rfl
        · cases g with
          | none => rfl
          | some y => exact absurd ((hg y).1 rfl) (h y)
    · intro h
      refine .inr ⟨hn, ?_⟩
      cases g with
      | none => exact .inr ⟨fun q hq => by simpa using (hg q).2 hq, h.symm⟩
      | some y => left; exact (hg p).1 (by simpa using h)

/-- The router holds what the diff lists. -/
def RouterFor (r : Router) (d : Diff) : Prop :=
  (∀ a p, Table.get r.src a = some p ↔ Listed d.partitionsSrc a p) ∧
  (∀ a p, Table.get r.dst a = some p ↔ Listed d.partitionsDst a p)

theorem routerFor_with (d : Diff) (h1 : OnePartition d.partitionsSrc) (h2 : OnePartition d.partitionsDst) :
    RouterFor (withPartitions d.partitionsSrc d.partitionsDst) d :=
  ⟨get_convert_iff _ h1, get_convert_iff _ h2⟩

theorem getPartition_iff (r : Router) (d : Diff) (h : RouterFor r d) (s t : Option (List Bool)) (src dst : Addr)
    (p : Nat) : RouteTo d src dst p ↔ getPartition r (some (.std s src)) (.std t dst) = p := by
  unfold getPartition
  simp only [routerAddr, Option.bind_some]
  exact route_iff d _ _ src dst p (h.2 dst) (h.1 src)

theorem onePartition_of_map (m : Table Addr Nat) (l : List (Addr × Nat)) (hp : l.Perm m) (hu : Uniq m) :
    OnePartition (toPartitions l) := by
  intro a p q h1 h2
  rw [listed_toPartitions, hp.mem_iff, mem_iff_get _ hu] at h1 h2
  rw [h1] at h2; exact Option.some.inj h2

end Tycho.QueueFill
