import Verif.Rpc.CodeModel

namespace Tycho.Rpc
open Tycho.Table

theorem cbefore_iff (a b : CKey) : a.before b = true ↔ a.code < b.code ∨ (a.code = b.code ∧ a.addr < b.addr) := by simp [CKey.before]

theorem cbefore_irrefl (a : CKey) : a.before a = false := by
  rw [← Bool.not_eq_true, cbefore_iff]; omega

theorem cbefore_trans {a b c : CKey} (h1 : a.before b = true) (h2 : b.before c = true) : a.before c = true := by
  rw [cbefore_iff] at *; omega

theorem cbefore_total (a b : CKey) : a.before b = true ∨ a = b ∨ b.before a = true := by
  rw [cbefore_iff, cbefore_iff]
  by_cases h : a = b
  · exact .inr (.inl h)
  · have : ¬ (a.code = b.code ∧ a.addr = b.addr) := fun h' => h (by cases a; cases b; cases h'; subst_vars; rfl)
    omega

def COrdered (l : List CKey) : Prop := l.Pairwise (fun a b => a.before b = true)

theorem mem_putKey (t : List CKey) (k e : CKey) : e ∈ putKey t k ↔ e = k ∨ e ∈ t := by
  unfold putKey
  simp only [List.mem_append, List.mem_filter, List.mem_cons]
  constructor
  · rintro (⟨h, _⟩ | h | ⟨h, _⟩)
    · exact .inr h
    · exact .inl h
    · exact .inr h
  · rintro (h | h)
    · exact .inr (.inl h)
    · rcases cbefore_total e k with h1 | h1 | h1
      · exact .inl ⟨h, h1⟩
      · exact .inr (.inl h1)
      · exact .inr (.inr ⟨h, h1⟩)

theorem ordered_putKey {t : List CKey} (h : COrdered t) (k : CKey) : COrdered (putKey t k) := by
  unfold putKey COrdered
  rw [List.pairwise_append]
  refine ⟨List.Pairwise.filter _ h, List.pairwise_cons.2 ⟨fun e he => (List.mem_filter.1 he).2, List.Pairwise.filter _ h⟩, ?_⟩
  intro a ha b hb
  have h1 := (List.mem_filter.1 ha).2
  rcases List.mem_cons.1 hb with rfl | hb
  · exact h1
  · exact cbefore_trans h1 (List.mem_filter.1 hb).2

/-- **What the index should be**: both tables say for each address the hash of the code it has, and nothing else. -/
structure Indexed (d : Codes) (code : Nat → Option Nat) : Prop where
  ordered : COrdered d.main
  byAddr : ∀ a, get d.byAddr a = code a
  main : ∀ k, k ∈ d.main ↔ code k.addr = some k.code

def upd (w : Nat → Option Nat) (a : Nat) (v : Option Nat) : Nat → Option Nat := fun x => if x = a then v else w x

theorem codeOps_effect (d d' : Codes) (w : Nat → Option Nat) (hi : Indexed d' w) (a : Nat) (look : Look) (remove : Bool)
    (hg : get d.byAddr a = get d'.byAddr a) (new : Option Nat) (hn : newCode look remove = some new) :
    Indexed (d'.write (codeOps d a look remove)) (upd w a new) := by
  have ho : get d.byAddr a = w a := hg.trans (hi.byAddr a)
  unfold codeOps
  rw [hn, ho]
  dsimp only
  split
  · rename_i h
    have hsame : w a = new := by
      rcases h with ⟨h1, h2⟩ | ⟨h1, _⟩
      · rw [h2]
        unfold newCode at hn
        rw [if_pos h1] at hn
        cases hn; rfl
      · exact h1
    have : upd w a new = w := by
      funext x
      unfold upd
      split
      · rename_i hx; rw [hx, hsame]
      · rfl
    rw [this]
    exact hi
  · rename_i h
    have hmain : ∀ o, w a = some o → ∀ k : CKey, k ∈ d'.main → k.addr = a → k = ⟨o, a⟩ := by
      intro o hw k hk ha
      have := (hi.main k).1 hk
      rw [ha, hw] at this
      cases k
      simp only [Option.some.injEq] at this
      subst this
      subst ha
      rfl
    have hnone : w a = none → ∀ k : CKey, k ∈ d'.main → k.addr ≠ a := by
      intro hw k hk ha
      have := (hi.main k).1 hk
      rw [ha, hw] at this
      cases this
    -- after removal from the main table
    have hmid : ∃ d1 : Codes, d'.write (delOld a (w a)) = d1 ∧ COrdered d1.main ∧ d1.byAddr = d'.byAddr ∧
        ∀ k, k ∈ d1.main ↔ k ∈ d'.main ∧ k.addr ≠ a := by
      refine ⟨_, rfl, ?_⟩
      cases hw : w a with
      | none => exact ⟨hi.ordered, rfl, fun k => ⟨fun hk => ⟨hk, hnone hw k hk⟩, fun hk => hk.1⟩⟩
      | some o =>
        refine ⟨List.Pairwise.filter _ hi.ordered, rfl, fun k => ?_⟩
        show k ∈ d'.main.filter _ ↔ _
        rw [List.mem_filter]
        simp only [Bool.not_eq_true', decide_eq_false_iff_not]
        refine and_congr_right (fun hk => ?_)
        constructor
        · intro h1 h2; exact h1 (hmain o hw k hk h2)
        · intro h1 h2; exact h1 (by rw [h2])
    obtain ⟨d1, h1, h2, h3, h4⟩ := hmid
    have hsplit : ∀ l1 l2 : List COp, d'.write (l1 ++ l2) = (d'.write l1).write l2 := fun l1 l2 => List.foldl_append
    rw [hsplit, h1]
    cases new with
    | none =>
      refine ⟨h2, fun x => ?_, fun k => ?_⟩
      · show get (del d1.byAddr (fun x => decide (x = a))) x = _
        rw [get_del, h3, hi.byAddr]
        unfold upd
        by_cases hx : x = a <;> simp [hx]
      · show k ∈ d1.main ↔ _
        rw [h4, hi.main]
        unfold upd
        by_cases hx : k.addr = a <;> simp [hx]
    | some n =>
      refine ⟨ordered_putKey h2 _, fun x => ?_, fun k => ?_⟩
      · show get (put d1.byAddr a n) x = _
        rw [get_put, h3, hi.byAddr]
        unfold upd
        by_cases hx : x = a <;> simp [hx]
      · show k ∈ putKey d1.main ⟨n, a⟩ ↔ _
        rw [mem_putKey, h4, hi.main]
        unfold upd
        cases k with | mk kc ka =>
        by_cases hx : ka = a
        · subst hx; simp [eq_comm]
        · simp [hx]

/-- Transactions of an account in a block, as the executor makes them: from status and code to status and code. The status before a transaction is that of
the account; a transaction without special actions does not change the code of an active account; only active accounts have code. -/
inductive Chain : Bool × Option Nat → List TxFlags → Bool × Option Nat → Prop where
  | nil (x) : Chain x [] x
  | cons {a c f c' y l s} (hcode : a = true → f = true → s = false → c' = c) (hin : f = false → c' = none) (h : Chain (f, c') l y) :
      Chain (a, c) (⟨a, f, s⟩ :: l) y

def Flags.all (l : List TxFlags) (f : Flags) : Flags := l.foldl Flags.tx f

theorem flags_was (l : List TxFlags) (f : Flags) (h : f.first = false) : (Flags.all l f).was = f.was := by
  induction l generalizing f with
  | nil => rfl
  | cons t l ih =>
    show (Flags.all l (f.tx t)).was = f.was
    rw [ih _ rfl]
    unfold Flags.tx
    simp [h]

theorem flags_special (l : List TxFlags) (f : Flags) (h : f.special = true) : (Flags.all l f).special = true := by
  induction l generalizing f with
  | nil => exact h
  | cons t l ih =>
    refine ih _ ?_
    unfold Flags.tx
    simp [h]

theorem chain_end {x y : Bool × Option Nat} {l : List TxFlags} (h : Chain x l y) (hx : x.1 = false → x.2 = none) : y.1 = false → y.2 = none := by
  induction h with
  | nil => exact hx
  | cons _ hin _ ih => exact ih hin

theorem chain_is {x y : Bool × Option Nat} {l : List TxFlags} (h : Chain x l y) (f : Flags) (hf : f.is = x.1) : (Flags.all l f).is = y.1 := by
  induction h generalizing f with
  | nil => exact hf
  | cons _ _ _ ih => exact ih _ rfl

theorem chain_quiet {x y : Bool × Option Nat} {l : List TxFlags} (h : Chain x l y) (f : Flags) (hfirst : f.first = false) (hw : f.was = true)
    (hs : (Flags.all l f).special = false) (hend : y.1 = true) : x.1 = true ∧ y.2 = x.2 := by
  induction h generalizing f with
  | nil => exact ⟨hend, rfl⟩
  | @cons a c e c' y l s hcode hin h ih =>
    have hs' : (Flags.all l (f.tx ⟨a, e, s⟩)).special = false := hs
    have h1 := ih (f.tx ⟨a, e, s⟩) rfl (by unfold Flags.tx; simp [hfirst, hw]) hs' hend
    have h2 : (f.tx ⟨a, e, s⟩).special = false := by
      cases hh : (f.tx ⟨a, e, s⟩).special with
      | false => rfl
      | true => rw [flags_special l _ hh] at hs'; cases hs'
    unfold Flags.tx at h2
    simp only [hfirst, hw, Bool.false_eq_true, if_false, Bool.true_and, Bool.or_eq_false_iff, Bool.not_eq_false'] at h2
    dsimp only at h1 ⊢
    exact ⟨h2.1.2, h1.2.trans (hcode h2.1.2 h1.1 h2.2)⟩

/-- what the new state of the block shows for the account -/
def Faithful (look : Look) (before after : Option Nat) : Prop :=
  match look with
  | .absent => after = none
  | .pruned => after = before
  | .found c => c = after

/-- The decision to update the index is right: if there is no update the code is the same. -/
theorem codeUpdate_right {active active' : Bool} {c c' : Option Nat} {l : List TxFlags} (h : Chain (active, c) l (active', c')) (hx : active = false → c = none) :
    match codeUpdate l with
    | none => c' = c
    | some true => c' = none
    | some false => True := by
  have hend := chain_end h hx
  cases h with
  | nil => simp [codeUpdate]
  | @cons _ _ e c1 _ l s hcode hin h =>
    have hall : (⟨active, e, s⟩ :: l).foldl Flags.tx ⟨true, false, false, false⟩ = Flags.all l ⟨false, s, active, e⟩ := by
      show Flags.all l (Flags.tx ⟨true, false, false, false⟩ ⟨active, e, s⟩) = _
      unfold Flags.tx
      simp
    have his := chain_is h ⟨false, s, active, e⟩ rfl
    have hwas := flags_was l ⟨false, s, active, e⟩ rfl
    unfold codeUpdate
    dsimp only
    rw [hall]
    dsimp only at his hwas
    rw [his, hwas]
    cases active' with
    | false =>
      cases active with
      | false =>
        have h9 := hend rfl
        simp only [Bool.false_and, Bool.false_eq_true, if_false]
        rw [hx rfl]; exact h9
      | true => simpa using hend rfl
    | true =>
      cases active with
      | false => simp
      | true =>
        cases hs : (Flags.all l ⟨false, s, true, e⟩).special with
        | true => simp
        | false =>
          simp only [Bool.true_and, Bool.not_true, Bool.false_or, Bool.and_false, Bool.false_eq_true, if_false]
          have h1 := chain_quiet h ⟨false, s, true, e⟩ rfl rfl hs rfl
          have h2 : s = false := by
            cases s with
            | false => rfl
            | true => rw [flags_special l ⟨false, true, true, e⟩ rfl] at hs; cases hs
          exact h1.2.trans (hcode rfl h1.1 h2)

/-- State of accounts: status and hash of the code. -/
abbrev World := Nat → Bool × Option Nat

/-- The block is a step from one state to another: its accounts change by their transactions, the others do not. -/
structure BlockOf (l : List AccBlock) (w w' : World) : Prop where
  once : (l.map (·.addr)).Nodup
  chain : ∀ a ∈ l, Chain (w a.addr) a.txs (w' a.addr) ∧ Faithful a.look (w a.addr).2 (w' a.addr).2
  others : ∀ x, (∀ a ∈ l, a.addr ≠ x) → w' x = w x

def Active (w : World) : Prop := ∀ a, (w a).1 = false → (w a).2 = none

theorem blockOps_cons (d : Codes) (a : AccBlock) (l : List AccBlock) : blockOps d (a :: l) = (match codeUpdate a.txs with
    | none => []
    | some remove => codeOps d a.addr a.look remove) ++ blockOps d l := rfl

theorem block_step (d : Codes) (l : List AccBlock) (w w' : World) (ha : Active w) (d' : Codes) (c : Nat → Option Nat) (hi : Indexed d' c)
    (hd : ∀ a ∈ l, get d.byAddr a.addr = get d'.byAddr a.addr) (hc : ∀ a ∈ l, c a.addr = (w a.addr).2)
    (hnd : (l.map (·.addr)).Nodup) (hch : ∀ a ∈ l, Chain (w a.addr) a.txs (w' a.addr) ∧ Faithful a.look (w a.addr).2 (w' a.addr).2) :
    ∃ c', Indexed (d'.write (blockOps d l)) c' ∧ (∀ a ∈ l, c' a.addr = (w' a.addr).2) ∧ ∀ x, (∀ a ∈ l, a.addr ≠ x) → c' x = c x := by
  induction l generalizing d' c with
  | nil => exact ⟨c, hi, fun a h => (by cases h), fun x _ => rfl⟩
  | cons a l ih =>
    rw [blockOps_cons]
    have hw : ∀ l1 l2 : List COp, d'.write (l1 ++ l2) = (d'.write l1).write l2 := fun l1 l2 => List.foldl_append
    rw [hw]
    rw [List.map_cons, List.nodup_cons] at hnd
    have hne : ∀ b ∈ l, b.addr ≠ a.addr := by
      intro b hb h
      exact hnd.1 (List.mem_map.2 ⟨b, hb, h⟩)
    obtain ⟨h1, h2⟩ := hch a List.mem_cons_self
    have hright := codeUpdate_right (active := (w a.addr).1) (c := (w a.addr).2) (active' := (w' a.addr).1) (c' := (w' a.addr).2) h1 (ha a.addr)
    -- the first account
    have hfirst : Indexed (d'.write (match codeUpdate a.txs with | none => [] | some remove => codeOps d a.addr a.look remove))
        (upd c a.addr (w' a.addr).2) := by
      have hsame : (w' a.addr).2 = (w a.addr).2 → upd c a.addr (w' a.addr).2 = c := by
        intro h
        funext x
        unfold upd
        split
        · rename_i hx; rw [hx, h, ← hc a List.mem_cons_self]
        · rfl
      cases hu : codeUpdate a.txs with
      | none => rw [hu] at hright; rw [hsame hright]; exact hi
      | some remove =>
        rw [hu] at hright
        cases remove with
        | true =>
          dsimp only at hright
          rw [hright]
          exact codeOps_effect d d' c hi a.addr a.look true (hd a List.mem_cons_self) none rfl
        | false =>
          dsimp only
          cases hl : a.look with
          | absent =>
            rw [hl] at h2
            have h2 : (w' a.addr).2 = none := h2
            rw [h2]
            exact codeOps_effect d d' c hi a.addr .absent false (hd a List.mem_cons_self) none rfl
          | pruned =>
            rw [hl] at h2
            rw [hsame h2]
            exact hi
          | found x =>
            rw [hl] at h2
            have h2 : x = (w' a.addr).2 := h2
            rw [h2]
            exact codeOps_effect d d' c hi a.addr _ false (hd a List.mem_cons_self) _ rfl
    have hcode : ∀ b ∈ l, upd c a.addr (w' a.addr).2 b.addr = c b.addr := by
      intro b hb; unfold upd; rw [if_neg (hne b hb)]
    obtain ⟨c', h3, h4, h5⟩ := ih _ _ hfirst (fun b hb => by
        rw [hfirst.byAddr, hcode b hb, hd b (List.mem_cons_of_mem _ hb), hi.byAddr]) (fun b hb => by
        rw [hcode b hb]; exact hc b (List.mem_cons_of_mem _ hb)) hnd.2 (fun b hb => hch b (List.mem_cons_of_mem _ hb))
    refine ⟨c', h3, fun b hb => ?_, fun x hx => ?_⟩
    · rcases List.mem_cons.1 hb with rfl | hb
      · rw [h5 b.addr hne]; unfold upd; rw [if_pos rfl]
      · exact h4 b hb
    · rw [h5 x (fun b hb => hx b (List.mem_cons_of_mem _ hb))]
      unfold upd
      rw [if_neg (fun h => hx a List.mem_cons_self h.symm)]

/-- A block keeps the index right. -/
theorem block_indexed (d : Codes) (l : List AccBlock) (w w' : World) (ha : Active w) (hi : Indexed d (fun a => (w a).2)) (hb : BlockOf l w w') :
    Indexed (d.block l) (fun a => (w' a).2) ∧ Active w' := by
  obtain ⟨c', h1, h2, h3⟩ := block_step d l w w' ha d _ hi (fun _ _ => rfl) (fun _ _ => rfl) hb.once hb.chain
  have : c' = fun a => (w' a).2 := by
    funext x
    by_cases hx : ∃ a ∈ l, a.addr = x
    · obtain ⟨a, h4, rfl⟩ := hx
      exact h2 a h4
    · have hx : ∀ a ∈ l, a.addr ≠ x := fun a h1 h2 => hx ⟨a, h1, h2⟩
      show c' x = _
      rw [h3 x hx, hb.others x hx]
  refine ⟨by rw [← this]; exact h1, fun x => ?_⟩
  by_cases hx : ∃ a ∈ l, a.addr = x
  · obtain ⟨a, h4, rfl⟩ := hx
    exact chain_end (hb.chain a h4).1 (ha a.addr)
  · rw [hb.others x (fun a h1 h2 => hx ⟨a, h1, h2⟩)]
    exact ha x

end Tycho.Rpc
