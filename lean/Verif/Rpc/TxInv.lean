import Verif.Rpc.TxModel
import Mathlib.Data.List.TakeWhile

namespace Tycho.Rpc
open Tycho.Table

theorem before_iff (a b : Key) : a.before b = true ↔ a.acct < b.acct ∨ (a.acct = b.acct ∧ a.lt < b.lt) := by
  simp [Key.before]

theorem before_false (a b : Key) : a.before b = false ↔ ¬ (a.acct < b.acct ∨ (a.acct = b.acct ∧ a.lt < b.lt)) := by
  rw [← before_iff, Bool.not_eq_true]

theorem before_trans {a b c : Key} (h1 : a.before b = true) (h2 : b.before c = true) : a.before c = true := by
  rw [before_iff] at *; omega

theorem before_irrefl (a : Key) : a.before a = false := by
  rw [before_false]; omega

theorem before_total (a b : Key) : a.before b = true ∨ a = b ∨ b.before a = true := by
  rw [before_iff, before_iff]
  by_cases h : a = b
  · exact .inr (.inl h)
  · have : ¬ (a.acct = b.acct ∧ a.lt = b.lt) := fun h' => h (by cases a; cases b; cases h'; subst_vars; rfl)
    omega

/-- the number of newer transactions of the account -/
def newer (rows : Rows) (k : Key) : Nat := (rows.filter (fun e => decide (e.1.acct = k.acct) && decide (k.lt < e.1.lt))).length

/-- What a collection should remove: older than `minLt`, and not among the newest `keep` of the account. -/
def Old (rows : Rows) (keep minLt : Nat) (k : Key) : Prop := k.lt < minLt ∧ keep ≤ newer rows k

instance (rows : Rows) (keep minLt : Nat) (k : Key) : Decidable (Old rows keep minLt k) := inferInstanceAs (Decidable (_ ∧ _))

/-- the row of the key is removed by the operation -/
def coverOp (x : Key) : Op → Prop
  | .tx k => x = k
  | .range a b => x.before a = false ∧ x.before b = true
  | .hash _ => False
  | .msg _ => False

def pendCover (x : Key) : Option (Key × Option Key) → Prop
  | none => False
  | some (e, none) => x = e
  | some (e, some b) => x.before b = false ∧ e.before x = false

def Gc.ops (g : Gc) : List Op := g.out.flatten ++ g.batch

def Covered (g : Gc) (x : Key) : Prop := (∃ op ∈ g.ops, coverOp x op) ∨ pendCover x g.pending

def countAcct (l : Rows) (a : Nat) : Nat := (l.filter (fun e => decide (e.1.acct = a))).length

def Desc (l : Rows) : Prop := l.Pairwise (fun a b => b.1.before a.1 = true)

/-- the number of rows to remove -/
def oldCount (desc : Rows) (keep minLt : Nat) (l : Rows) : Nat := (l.filter (fun e => decide (Old desc keep minLt e.1))).length

structure GInv (desc : Rows) (keep minLt : Nat) (done : Rows) (g : Gc) : Prop where
  split : desc = done ++ g.pos
  fresh : ∀ e ∈ g.pos, ∀ d ∈ done, e.1.acct = d.1.acct → e.1.acct = g.last
  cnt : g.cnt = min keep (countAcct done g.last)
  sound : ∀ x, Covered g x → Old desc keep minLt x
  complete : ∀ e ∈ done, Old desc keep minLt e.1 → Covered g e.1
  pendEnd : ∀ e b, g.pending = some (e, b) → e.acct = g.last ∧ Old desc keep minLt e ∧ ∃ v, (e, v) ∈ done
  pendBegin : ∀ e b, g.pending = some (e, some b) → b.acct = g.last ∧ b.before e = true ∧ ∃ v, (b, v) ∈ done
  hash : ∀ h, Op.hash h ∈ g.ops ↔ ∃ e ∈ done, Old desc keep minLt e.1 ∧ e.2.hash = h
  msg : ∀ m, Op.msg m ∈ g.ops ↔ ∃ e ∈ done, Old desc keep minLt e.1 ∧ e.2.msg = some m

theorem newer_split {desc done rest : Rows} {k : Key} {v : Tx} (hd : Desc desc) (h : desc = done ++ (k, v) :: rest) :
    newer desc k = countAcct done k.acct := by
  unfold newer countAcct
  subst h
  rw [List.filter_append, List.length_append]
  have h1 := List.pairwise_append.1 hd
  have h2 := List.pairwise_cons.1 h1.2.1
  have e2 : ((k, v) :: rest).filter (fun e => decide (e.1.acct = k.acct) && decide (k.lt < e.1.lt)) = [] := by
    rw [List.filter_eq_nil_iff]
    intro e he
    rcases List.mem_cons.1 he with rfl | he
    · simp
    · have := h2.1 e he
      rw [before_iff] at this
      simp only [Bool.and_eq_true, decide_eq_true_eq, not_and, Nat.not_lt]
      intro _
      dsimp only at this
      omega
  have e1 : done.filter (fun e => decide (e.1.acct = k.acct) && decide (k.lt < e.1.lt)) = done.filter (fun e => decide (e.1.acct = k.acct)) := by
    apply List.filter_congr
    intro e he
    have := h1.2.2 e he (k, v) List.mem_cons_self
    rw [before_iff] at this
    dsimp only at this
    by_cases ha : e.1.acct = k.acct
    · have : k.lt < e.1.lt := by omega
      simp [ha, this]
    · simp [ha]
  rw [e1, e2]
  rfl

theorem newer_mono (desc : Rows) {a b : Key} (hs : a.acct = b.acct) (h : a.lt ≤ b.lt) : newer desc b ≤ newer desc a := by
  unfold newer
  rw [← List.countP_eq_length_filter, ← List.countP_eq_length_filter]
  apply List.countP_mono_left
  intro e _ he
  simp only [Bool.and_eq_true, decide_eq_true_eq] at he ⊢
  exact ⟨he.1.trans hs.symm, by omega⟩

theorem endAccount_fields (g : Gc) : g.endAccount.pos = g.pos ∧ g.endAccount.last = g.last ∧ g.endAccount.cnt = g.cnt ∧
    g.endAccount.items = g.items ∧ g.endAccount.pending = none ∧ g.endAccount.out = g.out := by
  unfold Gc.endAccount
  split
  · rename_i h; exact ⟨rfl, rfl, rfl, rfl, h, rfl⟩
  · exact ⟨rfl, rfl, rfl, rfl, rfl, rfl⟩
  · exact ⟨rfl, rfl, rfl, rfl, rfl, rfl⟩

theorem endAccount_ops (g : Gc) : ∃ l, g.endAccount.ops = g.ops ++ l ∧ (∀ h, Op.hash h ∉ l) ∧ (∀ m, Op.msg m ∉ l) := by
  unfold Gc.endAccount Gc.ops
  split
  · exact ⟨[], by simp, by simp, by simp⟩
  · rename_i e _; exact ⟨[.tx e], by simp, by simp, by simp⟩
  · rename_i e b _; exact ⟨[.range b e, .tx e], by simp, by simp, by simp⟩

theorem range_covers (x b e : Key) (h : b.before e = true) :
    (x.before b = false ∧ e.before x = false) ↔ ((x.before b = false ∧ x.before e = true) ∨ x = e) := by
  constructor
  · rintro ⟨h1, h2⟩
    rcases before_total x e with h3 | h3 | h3
    · exact .inl ⟨h1, h3⟩
    · exact .inr h3
    · rw [h3] at h2; cases h2
  · rintro (⟨h1, h2⟩ | rfl)
    · refine ⟨h1, ?_⟩
      rw [before_false]; rw [before_iff] at h2; omega
    · refine ⟨?_, before_irrefl _⟩
      rw [before_false]; rw [before_iff] at h; omega

theorem endAccount_covered (g : Gc) (hp : ∀ e b, g.pending = some (e, some b) → b.before e = true ∨ b = e) (x : Key) :
    Covered g.endAccount x ↔ Covered g x := by
  unfold Covered
  rw [(endAccount_fields g).2.2.2.2.1]
  unfold Gc.endAccount Gc.ops
  split
  · rename_i h; rw [h]
  · rename_i e h
    rw [h]
    simp only [pendCover, or_false, ← List.append_assoc, List.mem_append (t := [Op.tx e]), List.mem_singleton]
    constructor
    · rintro ⟨op, h1 | rfl, h2⟩
      · exact .inl ⟨op, h1, h2⟩
      · exact .inr h2
    · rintro (⟨op, h1, h2⟩ | h2)
      · exact ⟨op, .inl h1, h2⟩
      · exact ⟨.tx e, .inr rfl, h2⟩
  · rename_i e b h
    rw [h]
    simp only [pendCover, or_false, ← List.append_assoc, List.mem_append (t := [Op.range b e, Op.tx e]), List.mem_cons, List.not_mem_nil]
    have hr : (x.before b = false ∧ e.before x = false) ↔ ((x.before b = false ∧ x.before e = true) ∨ x = e) := by
      rcases hp e b h with h1 | h1
      · exact range_covers x b e h1
      · subst h1
        constructor
        · rintro ⟨h1, h2⟩
          rcases before_total x b with h3 | h3 | h3
          · exact .inl ⟨h1, h3⟩
          · exact .inr h3
          · rw [h3] at h2; cases h2
        · rintro (⟨h1, h2⟩ | rfl)
          · rw [h1] at h2; cases h2
          · exact ⟨before_irrefl _, before_irrefl _⟩
    rw [hr]
    constructor
    · rintro ⟨op, h1 | rfl | rfl, h2⟩
      · exact .inl ⟨op, h1, h2⟩
      · exact .inr (.inl h2)
      · exact .inr (.inr h2)
    · rintro (⟨op, h1, h2⟩ | h2 | h2)
      · exact ⟨op, .inl h1, h2⟩
      · exact ⟨.range b e, .inr (.inl rfl), h2⟩
      · exact ⟨.tx e, .inr (.inr rfl), h2⟩

theorem flushIf_fields (g : Gc) (size : Nat) : (g.flushIf size).pos = g.pos ∧ (g.flushIf size).last = g.last ∧ (g.flushIf size).cnt = g.cnt ∧
    (g.flushIf size).pending = g.pending ∧ (g.flushIf size).ops = g.ops := by
  unfold Gc.flushIf Gc.ops
  split
  · exact ⟨rfl, rfl, rfl, rfl, by simp⟩
  · exact ⟨rfl, rfl, rfl, rfl, rfl⟩

theorem flushIf_inv {desc : Rows} {keep minLt : Nat} {done : Rows} {g : Gc} (hi : GInv desc keep minLt done g) (size : Nat) :
    GInv desc keep minLt done (g.flushIf size) := by
  obtain ⟨h1, h2, h3, h4, h5⟩ := flushIf_fields g size
  refine ⟨by rw [h1]; exact hi.split, by rw [h1, h2]; exact hi.fresh, by rw [h2, h3]; exact hi.cnt, ?_, ?_, by rw [h2, h4]; exact hi.pendEnd,
    by rw [h2, h4]; exact hi.pendBegin, by rw [h5]; exact hi.hash, by rw [h5]; exact hi.msg⟩
  · intro x hx; unfold Covered at hx; rw [h4, h5] at hx; exact hi.sound x hx
  · intro e he ho; unfold Covered; rw [h4, h5]; exact hi.complete e he ho

theorem account_inv {desc : Rows} {keep minLt : Nat} {done : Rows} {g : Gc} (hd : Desc desc) (hi : GInv desc keep minLt done g) {k : Key} {v : Tx}
    {rest : Rows} (hp : g.pos = (k, v) :: rest) :
    GInv desc keep minLt done (g.account k.acct) ∧ (g.account k.acct).last = k.acct ∧ (g.account k.acct).pos = g.pos ∧
    (g.account k.acct).items = g.items := by
  unfold Gc.account
  split
  · rename_i hne
    have hf := endAccount_fields { g with last := k.acct }
    have key : ∀ g' : Gc, g'.pos = g.pos → g'.last = k.acct → g'.cnt = 0 → g'.pending = none →
        (∃ l, g'.ops = g.ops ++ l ∧ (∀ h, Op.hash h ∉ l) ∧ (∀ m, Op.msg m ∉ l)) → (∀ x, Covered g' x ↔ Covered g x) →
        GInv desc keep minLt done g' := by
      rintro g' e1 e2 e3 e4 ⟨l, hl, hl1, hl2⟩ hcov
      have hz : countAcct done k.acct = 0 := by
        unfold countAcct
        rw [List.length_eq_zero_iff, List.filter_eq_nil_iff]
        intro e he
        simp only [decide_eq_true_eq]
        intro ha
        exact hne (hi.fresh (k, v) (by rw [hp]; exact List.mem_cons_self) e he ha.symm)
      refine ⟨by rw [e1]; exact hi.split, ?_, by rw [e3, e2, hz]; simp, fun x hx => hi.sound x ((hcov x).1 hx),
        fun e he ho => (hcov _).2 (hi.complete e he ho), fun e b h => ?_, fun e b h => ?_, ?_, ?_⟩
      · intro e he d hdm ha
        rw [e1, hp] at he
        rw [e2]
        have hs := hi.split
        rw [hp] at hs
        rw [hs] at hd
        have h1 := List.pairwise_append.1 hd
        rcases List.mem_cons.1 he with rfl | he
        · rfl
        · have h2 := h1.2.2 d hdm (k, v) List.mem_cons_self
          have h3 := (List.pairwise_cons.1 h1.2.1).1 e he
          rw [before_iff] at h2 h3
          dsimp only at h2 h3
          omega
      · rw [e4] at h; cases h
      · rw [e4] at h; cases h
      · intro h
        rw [hl, List.mem_append, ← hi.hash]
        exact ⟨fun h' => h'.resolve_right (hl1 h), .inl⟩
      · intro m
        rw [hl, List.mem_append, ← hi.msg]
        exact ⟨fun h' => h'.resolve_right (hl2 m), .inl⟩
    refine ⟨key _ hf.1 hf.2.1 rfl hf.2.2.2.2.1 (endAccount_ops { g with last := k.acct }) (fun x =>
      endAccount_covered { g with last := k.acct } (fun e b h => .inl (hi.pendBegin e b h).2.1) x), hf.2.1, hf.1, hf.2.2.2.1⟩
  · rename_i h
    have h : k.acct = g.last := by simpa using h
    exact ⟨hi, h.symm, rfl, rfl⟩

theorem countAcct_append (a b : Rows) (x : Nat) : countAcct (a ++ b) x = countAcct a x + countAcct b x := by
  unfold countAcct; rw [List.filter_append, List.length_append]

theorem countAcct_all (l : Rows) (x : Nat) (h : ∀ e ∈ l, e.1.acct = x) : countAcct l x = l.length := by
  unfold countAcct
  rw [List.filter_eq_self.2 (fun e he => decide_eq_true (h e he))]

/-- The rows `l` are passed, nothing of them is to be removed. -/
theorem pass_inv {desc : Rows} {keep minLt : Nat} {done : Rows} {g : Gc} (hd : Desc desc) (hi : GInv desc keep minLt done g) (l rest : Rows) (cnt : Nat)
    (hp : g.pos = l ++ rest) (hne : l ≠ []) (ha : ∀ e ∈ l, e.1.acct = g.last) (ho : ∀ e ∈ l, ¬ Old desc keep minLt e.1)
    (hc : cnt = min keep (countAcct done g.last + l.length)) :
    GInv desc keep minLt (done ++ l) { g with cnt := cnt, pos := rest } := by
  have hpb : ∀ e b, g.pending = some (e, some b) → b.acct = g.last ∧ b.before e = true ∧ ∃ v, (b, v) ∈ done ++ l := by
    intro e b h
    obtain ⟨h1, h2, w, h3⟩ := hi.pendBegin e b h
    exact ⟨h1, h2, w, List.mem_append_left _ h3⟩
  have hm : ∀ (P : Key × Tx → Prop), (∃ e ∈ done ++ l, Old desc keep minLt e.1 ∧ P e) ↔ ∃ e ∈ done, Old desc keep minLt e.1 ∧ P e := by
    intro P
    constructor
    · rintro ⟨e, he, h1, h2⟩
      rcases List.mem_append.1 he with h | h
      · exact ⟨e, h, h1, h2⟩
      · exact absurd h1 (ho e h)
    · rintro ⟨e, he, h⟩
      exact ⟨e, List.mem_append_left _ he, h⟩
  refine ⟨by rw [hi.split, hp, List.append_assoc], ?_, ?_, hi.sound, ?_, ?_, hpb, ?_, ?_⟩
  · intro e he d hdm hac
    have hs := hi.split
    rw [hp] at hs
    rw [hs] at hd
    have h1 := List.pairwise_append.1 hd
    have h2 := List.pairwise_append.1 h1.2.1
    obtain ⟨y, hy⟩ := List.exists_mem_of_ne_nil l hne
    rcases List.mem_append.1 hdm with hdm | hdm
    · have h3 := h1.2.2 d hdm y (List.mem_append_left _ hy)
      have h4 := h2.2.2 y hy e he
      rw [before_iff] at h3 h4
      have := ha y hy
      show e.1.acct = g.last
      omega
    · exact hac.trans (ha d hdm)
  · show cnt = min keep (countAcct (done ++ l) g.last)
    rw [countAcct_append, countAcct_all l _ ha]; exact hc
  · intro e he h
    rcases List.mem_append.1 he with he | he
    · exact hi.complete e he h
    · exact absurd h (ho e he)
  · intro e b h
    obtain ⟨h1, h2, v, h3⟩ := hi.pendEnd e b h
    exact ⟨h1, h2, v, List.mem_append_left _ h3⟩
  · intro h; rw [hm (fun e => e.2.hash = h)]; exact hi.hash h
  · intro m; rw [hm (fun e => e.2.msg = some m)]; exact hi.msg m

theorem delete_inv {desc : Rows} {keep minLt : Nat} {done : Rows} {g : Gc} (hd : Desc desc) (hi : GInv desc keep minLt done g) (k : Key) (v : Tx)
    (rest : Rows) (n : Nat) (hp : g.pos = (k, v) :: rest) (ha : k.acct = g.last) (hc : keep ≤ countAcct done g.last) (hlt : k.lt < minLt) :
    Old desc keep minLt k ∧
    GInv desc keep minLt (done ++ [(k, v)]) { ({ g with items := n }).deleteTx k v with pos := rest } := by
  have hs := hi.split
  rw [hp] at hs
  have hnew := newer_split hd hs
  have hold : Old desc keep minLt k := ⟨hlt, by rw [hnew, ha]; exact hc⟩
  refine ⟨hold, ?_⟩
  have hsub := hd
  rw [hs] at hsub
  have h1 := List.pairwise_append.1 hsub
  have h2 := List.pairwise_cons.1 h1.2.1
  -- a row of the pending range
  have hke : ∀ e b, g.pending = some (e, b) → k.before e = true := by
    intro e b he
    obtain ⟨_, _, w, hw⟩ := hi.pendEnd e b he
    exact h1.2.2 (e, w) hw (k, v) List.mem_cons_self
  have hcov : ∀ x, Covered { ({ g with items := n }).deleteTx k v with pos := rest } x → Covered g x ∨ Old desc keep minLt x := by
    intro x hx
    rcases hx with ⟨op, h3, h4⟩ | h3
    · have h3 : op ∈ g.out.flatten ++ (g.batch ++ [.hash v.hash] ++ (match v.msg with | none => [] | some m => [.msg m])) := h3
      rw [← List.append_assoc, ← List.append_assoc] at h3
      rcases List.mem_append.1 h3 with h3 | h3
      · rcases List.mem_append.1 h3 with h3 | h3
        · exact .inl (.inl ⟨op, h3, h4⟩)
        · rw [List.mem_singleton] at h3; subst h3; cases h4
      · cases hm : v.msg with
        | none => rw [hm] at h3; cases h3
        | some m => rw [hm] at h3; rw [List.mem_singleton] at h3; subst h3; cases h4
    · right
      have h3 : pendCover x (match g.pending with | none => some (k, none) | some (e, _) => some (e, some k)) := h3
      cases hpe : g.pending with
      | none => rw [hpe] at h3; have : x = k := h3; rw [this]; exact hold
      | some eb =>
        obtain ⟨e, b⟩ := eb
        rw [hpe] at h3
        obtain ⟨h4, h5⟩ : x.before k = false ∧ e.before x = false := h3
        obtain ⟨h6, h7, _⟩ := hi.pendEnd e b hpe
        have h8 := hke e b hpe
        rw [before_false] at h4 h5
        rw [before_iff] at h8
        have hx1 : x.acct = e.acct := by omega
        have hx2 : x.lt ≤ e.lt := by omega
        exact ⟨by have := h7.1; omega, Nat.le_trans h7.2 (newer_mono desc hx1 hx2)⟩
  have hmono : ∀ x, Covered g x → Covered { ({ g with items := n }).deleteTx k v with pos := rest } x := by
    intro x hx
    rcases hx with ⟨op, h3, h4⟩ | h3
    · left
      refine ⟨op, ?_, h4⟩
      show op ∈ g.out.flatten ++ (g.batch ++ [.hash v.hash] ++ (match v.msg with | none => [] | some m => [.msg m]))
      rw [← List.append_assoc, ← List.append_assoc]
      exact List.mem_append_left _ (List.mem_append_left _ h3)
    · right
      show pendCover x (match g.pending with | none => some (k, none) | some (e, _) => some (e, some k))
      cases hpe : g.pending with
      | none => rw [hpe] at h3; cases h3
      | some eb =>
        obtain ⟨e, b⟩ := eb
        rw [hpe] at h3
        have h8 := hke e b hpe
        show x.before k = false ∧ e.before x = false
        cases b with
        | none =>
          have h3 : x = e := h3
          subst h3
          refine ⟨?_, before_irrefl _⟩
          rw [before_false]; rw [before_iff] at h8; omega
        | some b =>
          obtain ⟨h4, h5⟩ : x.before b = false ∧ e.before x = false := h3
          refine ⟨?_, h5⟩
          -- `k` is before `b`, a row done
          obtain ⟨_, _, w, hw⟩ := hi.pendBegin e b hpe
          have hkb := h1.2.2 (b, w) hw (k, v) List.mem_cons_self
          cases hx : x.before k with
          | false => rfl
          | true => rw [before_trans hx hkb] at h4; cases h4
  have hself : Covered { ({ g with items := n }).deleteTx k v with pos := rest } k := by
    right
    show pendCover k (match g.pending with | none => some (k, none) | some (e, _) => some (e, some k))
    cases hpe : g.pending with
    | none => rfl
    | some eb =>
      obtain ⟨e, b⟩ := eb
      refine ⟨before_irrefl _, ?_⟩
      have h8 := hke e b hpe
      rw [before_false]; rw [before_iff] at h8; omega
  have hops : Gc.ops { ({ g with items := n }).deleteTx k v with pos := rest } =
      g.ops ++ ([.hash v.hash] ++ (match v.msg with | none => [] | some m => [.msg m])) := by
    show g.out.flatten ++ (g.batch ++ [.hash v.hash] ++ (match v.msg with | none => [] | some m => [.msg m])) = _
    unfold Gc.ops
    simp only [List.append_assoc]
  have hex : ∀ (P : Key × Tx → Prop), (∃ e ∈ done ++ [(k, v)], Old desc keep minLt e.1 ∧ P e) ↔ (∃ e ∈ done, Old desc keep minLt e.1 ∧ P e) ∨ P (k, v) := by
    intro P
    constructor
    · rintro ⟨e, he, h3, h4⟩
      rcases List.mem_append.1 he with h | h
      · exact .inl ⟨e, h, h3, h4⟩
      · rw [List.mem_singleton] at h; subst h; exact .inr h4
    · rintro (⟨e, he, h⟩ | h)
      · exact ⟨e, List.mem_append_left _ he, h⟩
      · exact ⟨(k, v), List.mem_append_right _ List.mem_cons_self, hold, h⟩
  refine ⟨by rw [hs]; simp, ?_, ?_, ?_, ?_, ?_, ?_, ?_, ?_⟩
  · intro e he d hdm hac
    rcases List.mem_append.1 hdm with hdm | hdm
    · have h3 := h1.2.2 d hdm (k, v) List.mem_cons_self
      have h4 := h2.1 e he
      rw [before_iff] at h3 h4
      dsimp only at h3 h4
      show e.1.acct = g.last
      omega
    · rw [List.mem_singleton] at hdm; subst hdm; exact hac.trans ha
  · show g.cnt = min keep (countAcct (done ++ [(k, v)]) g.last)
    rw [countAcct_append, hi.cnt]; omega
  · intro x hx
    exact (hcov x hx).elim (hi.sound x) id
  · intro e he ho
    rcases List.mem_append.1 he with he | he
    · exact hmono _ (hi.complete e he ho)
    · rw [List.mem_singleton] at he; subst he; exact hself
  · intro e b h
    have h : (match g.pending with | none => some (k, none) | some (e, _) => some (e, some k)) = some (e, b) := h
    show e.acct = g.last ∧ _
    cases hpe : g.pending with
    | none => rw [hpe] at h; cases h; exact ⟨ha, hold, v, by simp⟩
    | some eb =>
      obtain ⟨e', b'⟩ := eb
      rw [hpe] at h
      cases h
      obtain ⟨h3, h4, w, h5⟩ := hi.pendEnd e b' hpe
      exact ⟨h3, h4, w, List.mem_append_left _ h5⟩
  · intro e b h
    have h : (match g.pending with | none => some (k, none) | some (e, _) => some (e, some k)) = some (e, some b) := h
    show b.acct = g.last ∧ _
    cases hpe : g.pending with
    | none => rw [hpe] at h; cases h
    | some eb =>
      obtain ⟨e', b'⟩ := eb
      rw [hpe] at h
      cases h
      exact ⟨ha, hke e b' hpe, v, by simp⟩
  · intro h
    rw [hops, List.mem_append, hi.hash h, hex (fun e => e.2.hash = h)]
    refine or_congr Iff.rfl ?_
    cases v.msg <;> simp [eq_comm]
  · intro m
    rw [hops, List.mem_append, hi.msg m, hex (fun e => e.2.msg = some m)]
    refine or_congr Iff.rfl ?_
    cases v.msg <;> simp [eq_comm]

theorem seekPrev_split (desc done : Rows) (k : Key) (v : Tx) (rest : Rows) (b : Key) (hd : Desc desc) (h : desc = done ++ (k, v) :: rest)
    (hb : b.before k = true) : seekPrev desc b = seekPrev rest b := by
  unfold seekPrev
  subst h
  have h1 := List.pairwise_append.1 hd
  rw [List.dropWhile_append_of_pos, List.dropWhile_cons_of_pos (p := fun e : Key × Tx => b.before e.1) hb]
  intro e he
  exact before_trans hb (h1.2.2 e he (k, v) List.mem_cons_self)

theorem seekPrev_here (desc done : Rows) (k : Key) (v : Tx) (rest : Rows) (hd : Desc desc) (h : desc = done ++ (k, v) :: rest) :
    seekPrev desc k = (k, v) :: rest := by
  unfold seekPrev
  subst h
  have h1 := List.pairwise_append.1 hd
  rw [List.dropWhile_append_of_pos, List.dropWhile_cons_of_neg (by rw [before_irrefl]; simp)]
  intro e he
  exact h1.2.2 e he (k, v) List.mem_cons_self

/-- the row at which the iterator is moved to where it is: its logical time is the bound itself, and it is not among the newest of the account -/
def Stuck (rows : Rows) (keep minLt : Nat) (k : Key) : Prop := 0 < minLt ∧ k.lt = minLt ∧ keep ≤ newer rows k

/-- One iteration: rows are passed, the count of iterations left goes down. -/
theorem step_inv {desc : Rows} {size keep minLt : Nat} {done : Rows} {g : Gc} (hd : Desc desc) (hsz : 0 < size)
    (hi : GInv desc keep minLt done g) (hit : g.items = oldCount desc keep minLt done % size) (k : Key) (v : Tx) (rest : Rows)
    (hp : g.pos = (k, v) :: rest) :
    ∃ done', GInv desc keep minLt done' (g.step desc size keep minLt k v rest) ∧
      (g.step desc size keep minLt k v rest).items = oldCount desc keep minLt done' % size ∧
      ((¬ Stuck desc keep minLt k ∧ (g.step desc size keep minLt k v rest).pos.length < g.pos.length) ∨
        (Stuck desc keep minLt k ∧ (g.step desc size keep minLt k v rest).pos = g.pos)) ∧
      ∀ e ∈ g.pos, Stuck desc keep minLt e.1 → e ∈ (g.step desc size keep minLt k v rest).pos := by
  obtain ⟨ha, hl, hpos, hitm⟩ := account_inv hd hi hp
  unfold Gc.step
  generalize hg : g.account k.acct = a at ha hl hpos hitm
  rw [hp] at hpos
  have hs := ha.split
  rw [hpos] at hs
  have hnew := newer_split hd hs
  have hcnt := ha.cnt
  rw [hl] at hcnt
  have hflush : ∀ (g' : Gc) (done' : Rows), g'.items = oldCount desc keep minLt done' % size →
      (g'.flushIf size).items = oldCount desc keep minLt done' % size := by
    intro g' done' h
    unfold Gc.flushIf
    have := Nat.mod_lt (oldCount desc keep minLt done') hsz
    split
    · omega
    · exact h
  have hcount : ∀ l, (∀ e ∈ l, ¬ Old desc keep minLt e.1) → oldCount desc keep minLt (done ++ l) = oldCount desc keep minLt done := by
    intro l hl
    unfold oldCount
    have h0 : l.filter (fun e => decide (Old desc keep minLt e.1)) = [] := List.filter_eq_nil_iff.2 (fun e he => by simpa using hl e he)
    rw [List.filter_append, List.length_append, h0]; rfl
  have hmove : ¬ Stuck desc keep minLt k → ∀ (g' : Gc), g'.pos = rest →
      ((¬ Stuck desc keep minLt k ∧ g'.pos.length < g.pos.length) ∨ (Stuck desc keep minLt k ∧ g'.pos = g.pos)) ∧
      ∀ e ∈ g.pos, Stuck desc keep minLt e.1 → e ∈ g'.pos := by
    intro hns g' hg'
    rw [hg', hp]
    refine ⟨.inl ⟨hns, by simp⟩, fun e he hse => ?_⟩
    rcases List.mem_cons.1 he with rfl | he
    · exact absurd hse hns
    · exact he
  dsimp only
  split
  · rename_i h1
    have hno : ∀ e ∈ [(k, v)], ¬ Old desc keep minLt e.1 := by
      intro e he
      rw [List.mem_singleton] at he; subst he
      rintro ⟨_, h2⟩
      rw [hnew] at h2
      omega
    refine ⟨done ++ [(k, v)], flushIf_inv (pass_inv hd ha [(k, v)] rest (a.cnt + 1) hpos (by simp) (fun e he => ?_) hno ?_) size, hflush _ _ ?_, hmove ?_ _ (flushIf_fields _ size).1⟩
    · rw [List.mem_singleton] at he; subst he; exact hl.symm
    · rw [hl]; simp only [List.length_singleton]; omega
    · rw [hcount _ hno]; exact hitm.trans hit
    · rintro ⟨_, _, h2⟩; omega
  · rename_i h1
    have hk : keep ≤ countAcct done k.acct := by omega
    split
    · rename_i h2
      obtain ⟨ho, hinv⟩ := delete_inv hd ha k v rest (a.items + 1) hpos hl.symm (by rw [hl]; exact hk) h2
      refine ⟨done ++ [(k, v)], flushIf_inv hinv size, ?_, hmove (fun h => by have := h.2.1; omega) _ (flushIf_fields _ size).1⟩
      · have hc : oldCount desc keep minLt (done ++ [(k, v)]) = oldCount desc keep minLt done + 1 := by
          unfold oldCount
          rw [List.filter_append, List.length_append, List.filter_cons_of_pos (by simpa using ho)]; rfl
        rw [hc]
        unfold Gc.flushIf
        show (if size ≤ a.items + 1 then _ else _ : Gc).items = _
        rw [hitm, hit]
        have h3 := Nat.mod_lt (oldCount desc keep minLt done) hsz
        split
        · rename_i h4
          have : oldCount desc keep minLt done % size + 1 = size := by omega
          rw [← Nat.mod_add_mod, this, Nat.mod_self]
        · rename_i h4
          show oldCount desc keep minLt done % size + 1 = _
          rw [← Nat.mod_add_mod, Nat.mod_eq_of_lt (a := _ % size + 1) (by omega)]
    · rename_i h2
      split
      · rename_i h3
        by_cases hst : Stuck desc keep minLt k
        · have hsk : seekPrev desc ⟨a.last, minLt⟩ = a.pos := by
            rw [hl, ← hst.2.1, hpos]; exact seekPrev_here desc done k v rest hd hs
          rw [hsk]
          refine ⟨done, flushIf_inv ha size, hflush _ _ (hitm.trans hit), .inr ⟨hst, ?_⟩, ?_⟩
          · rw [(flushIf_fields _ size).1, hp]; exact hpos
          · intro e he _
            rw [(flushIf_fields _ size).1]
            show e ∈ a.pos
            rw [hpos, ← hp]; exact he
        have hb : (⟨k.acct, minLt⟩ : Key).before k = true := by
          rw [before_iff]
          right
          refine ⟨rfl, ?_⟩
          show minLt < k.lt
          by_cases hz : k.lt = minLt
          · exact absurd ⟨by omega, hz, by rw [hnew]; exact hk⟩ hst
          · omega
        have hsk : seekPrev desc ⟨a.last, minLt⟩ = seekPrev rest ⟨k.acct, minLt⟩ := by
          rw [hl]; exact seekPrev_split desc done k v rest _ hd hs hb
        rw [hsk]
        have hsub := hd
        rw [hs] at hsub
        have h5 := (List.pairwise_cons.1 (List.pairwise_append.1 hsub).2.1).1
        have hsp : rest.takeWhile (fun e => (⟨k.acct, minLt⟩ : Key).before e.1) ++ seekPrev rest ⟨k.acct, minLt⟩ = rest := List.takeWhile_append_dropWhile
        have htake : ∀ e ∈ rest.takeWhile (fun e => (⟨k.acct, minLt⟩ : Key).before e.1), e.1.acct = k.acct ∧ minLt ≤ e.1.lt := by
          intro e he
          have h6 := List.mem_takeWhile_imp he
          have h7 := h5 e ((List.takeWhile_sublist _).subset he)
          rw [before_iff] at h6 h7
          dsimp only at h6 h7
          omega
        have hall : ∀ e ∈ (k, v) :: rest.takeWhile (fun e => (⟨k.acct, minLt⟩ : Key).before e.1), e.1.acct = k.acct ∧ minLt ≤ e.1.lt := by
          intro e he
          rcases List.mem_cons.1 he with rfl | he
          · exact ⟨rfl, Nat.le_of_not_lt h2⟩
          · exact htake e he
        have hno : ∀ e ∈ (k, v) :: rest.takeWhile (fun e => (⟨k.acct, minLt⟩ : Key).before e.1), ¬ Old desc keep minLt e.1 := by
          intro e he ho
          have := (hall e he).2
          have := ho.1
          omega
        refine ⟨done ++ (k, v) :: rest.takeWhile (fun e => (⟨k.acct, minLt⟩ : Key).before e.1),
          flushIf_inv (pass_inv hd ha _ (seekPrev rest ⟨k.acct, minLt⟩) a.cnt ?_ (by simp) (fun e he => by rw [hl]; exact (hall e he).1) hno ?_) size, hflush _ _ ?_, ?_, ?_⟩
        · rw [hpos, List.cons_append, hsp]
        · rw [hl]; omega
        · rw [hcount _ hno]; exact hitm.trans hit
        · rw [(flushIf_fields _ size).1, hp]
          refine .inl ⟨hst, ?_⟩
          show (seekPrev rest _).length < _
          have := (List.dropWhile_sublist (fun e : Key × Tx => (⟨k.acct, minLt⟩ : Key).before e.1) (l := rest)).length_le
          simp only [List.length_cons]
          unfold seekPrev
          omega
        · intro e he hse
          rw [(flushIf_fields _ size).1]
          show e ∈ seekPrev rest _
          rw [hp] at he
          rcases List.mem_cons.1 he with rfl | he
          · exact absurd hse hst
          · rw [← hsp] at he
            rcases List.mem_append.1 he with he | he
            · have h6 := List.mem_takeWhile_imp he
              have h7 := (htake e he).1
              have h8 := hse.2.1
              rw [before_iff] at h6
              dsimp only at h6
              omega
            · exact he
      · rename_i h3
        have hno : ∀ e ∈ [(k, v)], ¬ Old desc keep minLt e.1 := by
          intro e he
          rw [List.mem_singleton] at he; subst he
          rintro ⟨h4, _⟩
          exact h2 h4
        refine ⟨done ++ [(k, v)], flushIf_inv (pass_inv hd ha [(k, v)] rest a.cnt hpos (by simp) (fun e he => ?_) hno ?_) size, hflush _ _ ?_, hmove ?_ _ (flushIf_fields _ size).1⟩
        · rw [List.mem_singleton] at he; subst he; exact hl.symm
        · rw [hl]; omega
        · rw [hcount _ hno]; exact hitm.trans hit
        · rintro ⟨h5, h6, _⟩; omega


/-- the state after a number of iterations -/
def Gc.iter (desc : Rows) (size keep minLt : Nat) : Nat → Gc → Gc
  | 0, g => g
  | n + 1, g =>
    match g.pos with
    | [] => g
    | (k, v) :: rest => Gc.iter desc size keep minLt n (g.step desc size keep minLt k v rest)

end Tycho.Rpc
