import Verif.AnchorCache.Feed
/-!
The queue of state updates: the mempool is told the last version of each master block, in order, once it is signed.
-/
namespace Tycho.AnchorCache

/-- The queue with its history: what was pushed, which seqnos were signed, what was returned, whether there was an error. -/
structure Hist where
  q : Queue
  pushed : List Ctx
  signs : List Nat
  out : List Ctx
  ok : Bool
  deriving Repr, DecidableEq

/-- Calls: `push` and `signed`. -/
inductive QOp where
  | push (x : Ctx)
  | sign (n : Nat)
  deriving Repr, DecidableEq

/-- One call. -/
def Hist.step (h : Hist) : QOp → Hist
  | .push x =>
    { h with q := (h.q.push x).1, pushed := h.pushed ++ [x], out := h.out ++ (h.q.push x).2.toList }
  | .sign n =>
    match h.q.sign n with
    | none => { h with ok := false }
    | some (q, l) => { h with q := q, signs := h.signs ++ [n], out := h.out ++ l }

/-- A history of calls. -/
def Hist.run (h : Hist) (l : List QOp) : Hist := l.foldl Hist.step h

/-- The start. -/
def Hist.new : Hist := ⟨.new, [], [], [], true⟩

/-- The last pushed version of a seqno. -/
def latest (pushed : List Ctx) (n : Nat) : Option Ctx := pushed.reverse.find? (fun x => decide (x.seqno = n))

/-- The highest signed seqno. -/
def top (signs : List Nat) : Nat := signs.foldl max 0

/-- In the order of seqnos. -/
def Asc (l : List Ctx) : Prop := l.Pairwise (fun a b => a.seqno < b.seqno)

theorem mem_insertCtx {l : List Ctx} (h : Asc l) (x y : Ctx) :
    y ∈ insertCtx x l ↔ y = x ∨ (y ∈ l ∧ y.seqno ≠ x.seqno) := by
  induction l with
  | nil => simp [insertCtx]
  | cons z l ih =>
    obtain ⟨h1, h2⟩ := List.pairwise_cons.1 h
    unfold insertCtx
    split
    · rename_i hlt
      simp only [List.mem_cons]
      constructor
      · rintro (e | e | e)
        · exact Or.inl e
        · exact Or.inr ⟨Or.inl e, by rw [e]; omega⟩
        · exact Or.inr ⟨Or.inr e, by have := h1 y e; omega⟩
      · rintro (e | ⟨e, _⟩)
        · exact Or.inl e
        · exact Or.inr e
    · split
      · rename_i _ he
        simp only [List.mem_cons]
        constructor
        · rintro (e | e)
          · exact Or.inl e
          · exact Or.inr ⟨Or.inr e, by have := h1 y e; omega⟩
        · rintro (e | ⟨e | e, hn⟩)
          · exact Or.inl e
          · exact absurd (by rw [e]; exact he.symm) hn
          · exact Or.inr e
      · rename_i hn1 hn2
        simp only [List.mem_cons, ih h2]
        constructor
        · rintro (e | e | ⟨e, hn⟩)
          · exact Or.inr ⟨Or.inl e, by rw [e]; omega⟩
          · exact Or.inl e
          · exact Or.inr ⟨Or.inr e, hn⟩
        · rintro (e | ⟨e | e, hn⟩)
          · exact Or.inr (Or.inl e)
          · exact Or.inl e
          · exact Or.inr (Or.inr ⟨e, hn⟩)

theorem asc_insertCtx {l : List Ctx} (h : Asc l) (x : Ctx) : Asc (insertCtx x l) := by
  induction l with
  | nil => exact List.pairwise_singleton _ _
  | cons z l ih =>
    obtain ⟨h1, h2⟩ := List.pairwise_cons.1 h
    unfold insertCtx
    split
    · rename_i hlt
      refine List.pairwise_cons.2 ⟨fun y hy => ?_, h⟩
      rcases List.mem_cons.1 hy with e | e
      · rw [e]; exact hlt
      · have := h1 y e; omega
    · split
      · rename_i _ he
        exact List.pairwise_cons.2 ⟨fun y hy => by have := h1 y hy; omega, h2⟩
      · rename_i hn1 hn2
        refine List.pairwise_cons.2 ⟨fun y hy => ?_, ih h2⟩
        rcases (mem_insertCtx h2 x y).1 hy with e | ⟨e, _⟩
        · rw [e]; omega
        · exact h1 y e

theorem latest_snoc (l : List Ctx) (x : Ctx) (n : Nat) :
    latest (l ++ [x]) n = if x.seqno = n then some x else latest l n := by
  unfold latest
  rw [List.reverse_append]
  simp only [List.reverse_cons, List.reverse_nil, List.nil_append, List.singleton_append, List.find?_cons]
  by_cases h : x.seqno = n
  · rw [decide_eq_true h, if_pos h]
  · rw [decide_eq_false h, if_neg h]

theorem latest_seqno {l : List Ctx} {n : Nat} {x : Ctx} (h : latest l n = some x) : x.seqno = n ∧ x ∈ l := by
  unfold latest at h
  exact ⟨by simpa using List.find?_some h, by simpa using List.mem_of_find?_eq_some h⟩

theorem top_snoc (l : List Nat) (n : Nat) : top (l ++ [n]) = max (top l) n := by
  unfold top
  rw [List.foldl_append]
  rfl

/-- What holds between calls. -/
structure QInv (h : Hist) : Prop where
  asc : Asc h.q.unsigned
  held : ∀ x, x ∈ h.q.unsigned ↔ h.q.signed < x.seqno ∧ latest h.pushed x.seqno = some x
  signed : h.q.signed = top h.signs
  drained : h.q.drained ≤ h.q.signed
  outs : ∀ o ∈ h.out, o.seqno ≤ h.q.drained
  last : h.q.drained = 0 ∨ ∃ o ∈ h.out, o.seqno = h.q.drained
  inc : h.out.Pairwise (fun a b => a.seqno < b.seqno ∨ (a.seqno = 0 ∧ b.seqno = 0))
  from_ : ∀ o ∈ h.out, o ∈ h.pushed
  good : h.ok = true

/-- What `sign` returns, exactly. -/
theorem sign_spec {h : Hist} (hi : QInv h) (n : Nat) (hn : h.q.signed < n) :
    h.q.sign n = some (⟨h.q.unsigned.filter (fun x => !decide (x.seqno ≤ n)),
      lastSeqno h.q.drained (h.q.unsigned.filter (fun x => decide (x.seqno ≤ n))), n⟩,
      h.q.unsigned.filter (fun x => decide (x.seqno ≤ n))) := by
  unfold Queue.sign
  rw [if_pos hn]
  unfold Queue.drain
  have hd := hi.drained
  simp only
  rw [if_neg (by omega), if_neg (by omega), if_pos]
  unfold firstOk
  split
  · rfl
  · rename_i x l hx
    have : x ∈ h.q.unsigned := (List.mem_filter.1 (hx ▸ List.mem_cons_self : x ∈ h.q.unsigned.filter _)).1
    have := ((hi.held x).1 this).1
    exact decide_eq_true (by omega)

theorem lastSeqno_cases (d : Nat) (l : List Ctx) :
    (l = [] ∧ lastSeqno d l = d) ∨ ∃ x ∈ l, l.getLast? = some x ∧ lastSeqno d l = x.seqno := by
  unfold lastSeqno
  cases hl : l.getLast? with
  | none => exact Or.inl ⟨List.getLast?_eq_none_iff.1 hl, rfl⟩
  | some x => exact Or.inr ⟨x, List.mem_of_getLast? hl, rfl, rfl⟩

theorem asc_last {l : List Ctx} (h : Asc l) {x y : Ctx} (hx : l.getLast? = some x) (hy : y ∈ l) : y.seqno ≤ x.seqno := by
  rcases List.eq_nil_or_concat l with hn | ⟨init, z, hz⟩
  · rw [hn] at hx; cases hx
  · rw [hz] at hx h hy
    simp at hx
    subst hx
    rw [List.concat_eq_append] at h hy
    rcases List.mem_append.1 hy with hy | hy
    · exact Nat.le_of_lt ((List.pairwise_append.1 h).2.2 y hy z (by simp))
    · rw [List.mem_singleton] at hy; exact hy ▸ Nat.le_refl _

theorem qinv_step {h : Hist} (hi : QInv h) (a : QOp) : QInv (h.step a) := by
  cases a with
  | push x =>
    unfold Hist.step Queue.push
    simp only
    have hd := hi.drained
    have hheld : ∀ y, x.seqno ≤ h.q.signed →
        (y ∈ h.q.unsigned ↔ h.q.signed < y.seqno ∧ latest (h.pushed ++ [x]) y.seqno = some y) := by
      intro y hx
      rw [latest_snoc, hi.held]
      constructor
      · rintro ⟨h1, h2⟩
        exact ⟨h1, by rw [if_neg (by omega)]; exact h2⟩
      · rintro ⟨h1, h2⟩
        rw [if_neg (by omega)] at h2
        exact ⟨h1, h2⟩
    split
    · rename_i h1
      refine ⟨hi.asc, fun y => hheld y (by omega), hi.signed, hi.drained, ?_, ?_, ?_, ?_, hi.good⟩
      · simpa using hi.outs
      · simpa using hi.last
      · simpa using hi.inc
      · intro o ho; simp only [Option.toList_none, List.append_nil] at ho; exact List.mem_append_left _ (hi.from_ o ho)
    · split
      · rename_i h1 h2
        by_cases hz : x.seqno = 0
        · rw [if_pos hz]
          refine ⟨hi.asc, fun y => hheld y (by omega), hi.signed, hi.drained, ?_, ?_, ?_, ?_, hi.good⟩
          · intro o ho
            rcases List.mem_append.1 ho with ho | ho
            · exact hi.outs o ho
            · simp only [Option.toList_some, List.mem_singleton] at ho
              rw [ho]; simp only; omega
          · exact Or.inl (by simp only; omega)
          · refine List.pairwise_append.2 ⟨hi.inc, by simp, ?_⟩
            intro o ho y hy
            simp only [Option.toList_some, List.mem_singleton] at hy
            have := hi.outs o ho
            exact Or.inr ⟨by omega, by rw [hy]; exact hz⟩
          · intro o ho
            rcases List.mem_append.1 ho with ho | ho
            · exact List.mem_append_left _ (hi.from_ o ho)
            · simp only [Option.toList_some, List.mem_singleton] at ho
              exact List.mem_append_right _ (by simp [ho])
        · rw [if_neg hz]
          refine ⟨hi.asc, fun y => hheld y (by omega), hi.signed, hi.drained, ?_, ?_, ?_, ?_, hi.good⟩
          · simpa using hi.outs
          · simpa using hi.last
          · simpa using hi.inc
          · intro o ho; simp only [Option.toList_none, List.append_nil] at ho; exact List.mem_append_left _ (hi.from_ o ho)
      · split
        · rename_i h1 h2 h3
          refine ⟨hi.asc, fun y => hheld y h3, hi.signed, h3, ?_, ?_, ?_, ?_, hi.good⟩
          · intro o ho
            rcases List.mem_append.1 ho with ho | ho
            · have := hi.outs o ho; simp only; omega
            · simp only [Option.toList_some, List.mem_singleton] at ho
              exact ho ▸ Nat.le_refl _
          · exact Or.inr ⟨x, by simp, rfl⟩
          · refine List.pairwise_append.2 ⟨hi.inc, by simp, ?_⟩
            intro o ho y hy
            simp only [Option.toList_some, List.mem_singleton] at hy
            have := hi.outs o ho
            exact Or.inl (by rw [hy]; omega)
          · intro o ho
            rcases List.mem_append.1 ho with ho | ho
            · exact List.mem_append_left _ (hi.from_ o ho)
            · simp only [Option.toList_some, List.mem_singleton] at ho
              exact List.mem_append_right _ (by simp [ho])
        · rename_i h1 h2 h3
          refine ⟨asc_insertCtx hi.asc x, fun y => ?_, hi.signed, hi.drained, ?_, ?_, ?_, ?_, hi.good⟩
          · simp only
            rw [mem_insertCtx hi.asc, latest_snoc, hi.held]
            constructor
            · rintro (e | ⟨⟨e1, e2⟩, hn⟩)
              · subst e
                exact ⟨by omega, by rw [if_pos rfl]⟩
              · exact ⟨e1, by rw [if_neg (fun e => hn e.symm)]; exact e2⟩
            · rintro ⟨e1, e2⟩
              split at e2
              · injection e2 with e2
                exact Or.inl e2.symm
              · rename_i hne
                exact Or.inr ⟨⟨e1, e2⟩, fun e => hne e.symm⟩
          · simpa using hi.outs
          · simpa using hi.last
          · simpa using hi.inc
          · intro o ho; simp only [Option.toList_none, List.append_nil] at ho; exact List.mem_append_left _ (hi.from_ o ho)
  | sign n =>
    by_cases hn : h.q.signed < n
    · unfold Hist.step
      simp only
      rw [sign_spec hi n hn]
      simp only
      have hd := hi.drained
      have hin : ∀ x, x ∈ h.q.unsigned.filter (fun x => decide (x.seqno ≤ n)) →
          h.q.signed < x.seqno ∧ x.seqno ≤ n ∧ x ∈ h.pushed := by
        intro x hx
        obtain ⟨h1, h2⟩ := List.mem_filter.1 hx
        obtain ⟨h3, h4⟩ := (hi.held x).1 h1
        exact ⟨h3, by simpa using h2, (latest_seqno h4).2⟩
      have hasc : Asc (h.q.unsigned.filter (fun x => decide (x.seqno ≤ n))) := hi.asc.sublist List.filter_sublist
      refine ⟨hi.asc.sublist List.filter_sublist, fun x => ?_, ?_, ?_, ?_, ?_, ?_, ?_, hi.good⟩
      · simp only [List.mem_filter, hi.held]
        constructor
        · rintro ⟨⟨h1, h2⟩, h3⟩
          exact ⟨by simpa using h3, h2⟩
        · rintro ⟨h1, h2⟩
          exact ⟨⟨by omega, h2⟩, by simpa using h1⟩
      · simp only
        rw [top_snoc, ← hi.signed]
        omega
      · simp only
        rcases lastSeqno_cases h.q.drained (h.q.unsigned.filter (fun x => decide (x.seqno ≤ n))) with ⟨_, he⟩ | ⟨x, hx, _, he⟩
        · rw [he]; omega
        · rw [he]; exact (hin x hx).2.1
      · intro o ho
        simp only
        rcases lastSeqno_cases h.q.drained (h.q.unsigned.filter (fun x => decide (x.seqno ≤ n))) with ⟨hnil, he⟩ | ⟨x, hx, hl, he⟩
        · rw [he]
          rw [hnil, List.append_nil] at ho
          exact hi.outs o ho
        · rw [he]
          rcases List.mem_append.1 ho with ho | ho
          · have := hi.outs o ho
            have := (hin x hx).1
            omega
          · exact asc_last hasc hl ho
      · simp only
        rcases lastSeqno_cases h.q.drained (h.q.unsigned.filter (fun x => decide (x.seqno ≤ n))) with ⟨hnil, he⟩ | ⟨x, hx, hl, he⟩
        · rw [he, hnil, List.append_nil]
          exact hi.last
        · rw [he]
          exact Or.inr ⟨x, List.mem_append_right _ hx, rfl⟩
      · refine List.pairwise_append.2 ⟨hi.inc, hasc.imp Or.inl, ?_⟩
        intro o ho x hx
        have := hi.outs o ho
        have := (hin x hx).1
        exact Or.inl (by omega)
      · intro o ho
        rcases List.mem_append.1 ho with ho | ho
        · exact hi.from_ o ho
        · exact (hin o ho).2.2
    · have e : h.step (.sign n) = { h with signs := h.signs ++ [n] } := by
        simp [Hist.step, Queue.sign, hn]
      rw [e]
      refine ⟨hi.asc, hi.held, ?_, hi.drained, hi.outs, hi.last, hi.inc, hi.from_, hi.good⟩
      simp only
      rw [top_snoc, ← hi.signed]
      omega

theorem qinv_run (l : List QOp) : ∀ {h : Hist}, QInv h → QInv (h.run l) := by
  induction l with
  | nil => exact fun h => h
  | cons a l ih => exact fun h => ih (qinv_step h a)

theorem qinv_new : QInv .new := by
  refine ⟨List.Pairwise.nil, ?_, rfl, Nat.le_refl _, ?_, Or.inl rfl, List.Pairwise.nil, ?_, rfl⟩ <;>
    simp [Hist.new, Queue.new, latest]

/-- **The mempool is told about signed blocks only, in order, each once.** After any history of calls: there was no
error; what was returned was pushed, is not above the highest signed seqno, and has growing seqnos (only the initial
state with seqno 0 may repeat, and only before all others). -/
theorem updates_in_order (l : List QOp) :
    (Hist.new.run l).ok = true ∧
      (Hist.new.run l).out.Pairwise (fun a b => a.seqno < b.seqno ∨ (a.seqno = 0 ∧ b.seqno = 0)) ∧
      ∀ o ∈ (Hist.new.run l).out, o ∈ (Hist.new.run l).pushed ∧ o.seqno ≤ top (Hist.new.run l).signs := by
  have h := qinv_run l qinv_new
  refine ⟨h.good, h.inc, fun o ho => ⟨h.from_ o ho, ?_⟩⟩
  have h1 := h.outs o ho
  have h2 := h.drained
  rw [h.signed] at h2
  omega

/-- **A signature gives exactly the blocks that it makes signed.** After any history: `signed n` succeeds and returns, in
order, the last pushed version of every block above the highest seqno signed before and not above `n`, nothing else. -/
theorem sign_returns_exactly (l : List QOp) (n : Nat) :
    ∃ q r, (Hist.new.run l).q.sign n = some (q, r) ∧ Asc r ∧
      ∀ x, x ∈ r ↔ top (Hist.new.run l).signs < x.seqno ∧ x.seqno ≤ n ∧
        latest (Hist.new.run l).pushed x.seqno = some x := by
  have h := qinv_run l qinv_new
  generalize Hist.new.run l = w at *
  by_cases hn : w.q.signed < n
  · refine ⟨_, _, sign_spec h n hn, h.asc.sublist List.filter_sublist, fun x => ?_⟩
    rw [List.mem_filter, h.held, h.signed]
    simp only [decide_eq_true_eq]
    constructor
    · rintro ⟨⟨h1, h2⟩, h3⟩; exact ⟨h1, h3, h2⟩
    · rintro ⟨h1, h3, h2⟩; exact ⟨⟨h1, h2⟩, h3⟩
  · refine ⟨w.q, [], by unfold Queue.sign; rw [if_neg hn], List.Pairwise.nil, fun x => ?_⟩
    rw [← h.signed]
    constructor
    · intro hx; cases hx
    · rintro ⟨h1, h2, _⟩; omega

/-- **A late update is returned at once iff it is not too late**: after any history, pushing a block returns it exactly if
its seqno is signed already and above everything returned so far (or is the initial state, with nothing else returned);
otherwise nothing is returned, and a block that is not signed yet waits for its signature. -/
theorem push_returns_exactly (l : List QOp) (x y : Ctx) :
    ((Hist.new.run l).q.push x).2 = some y ↔
      y = x ∧ x.seqno ≤ top (Hist.new.run l).signs ∧
        ∀ o ∈ (Hist.new.run l).out, o.seqno < x.seqno ∨ (o.seqno = 0 ∧ x.seqno = 0) := by
  have h := qinv_run l qinv_new
  generalize Hist.new.run l = w at *
  rw [← h.signed]
  have hd := h.drained
  have hl := h.last
  have ho := h.outs
  unfold Queue.push
  split
  · rename_i h1
    simp only [reduceCtorEq, false_iff]
    rintro ⟨_, _, h3⟩
    rcases hl with hl | ⟨o, hom, he⟩
    · omega
    · rcases h3 o hom with h4 | h4 <;> omega
  · split
    · rename_i h1 h2
      simp only
      split
      · rename_i hz
        constructor
        · intro e
          injection e with e
          refine ⟨e.symm, by omega, fun o hom => Or.inr ⟨?_, hz⟩⟩
          have := ho o hom
          omega
        · rintro ⟨e, _⟩; rw [e]
      · rename_i hz
        simp only [reduceCtorEq, false_iff]
        rintro ⟨_, _, h3⟩
        rcases hl with hl | ⟨o, hom, he⟩
        · omega
        · rcases h3 o hom with h4 | h4 <;> omega
    · split
      · rename_i h1 h2 h3
        constructor
        · intro e
          injection e with e
          refine ⟨e.symm, h3, fun o hom => Or.inl ?_⟩
          have := ho o hom
          omega
        · rintro ⟨e, _⟩; rw [e]
      · rename_i h1 h2 h3
        simp only [reduceCtorEq, false_iff]
        rintro ⟨_, h4, _⟩
        exact h3 h4

end Tycho.AnchorCache
