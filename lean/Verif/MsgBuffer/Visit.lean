import Verif.MsgBuffer.SlotInv

/-! ## Visiting accounts for one slot -/
namespace Tycho.MsgBuffer

open Tycho.Table

/-- Nothing more can be taken from the account: it may not be used, or has no messages. -/
def Drained (p : Params) (st : Fill) (a : Acc) : Prop := Blocked p st.skipped a ∨ msgsOf st.buf.msgs a = []

/-- The account is drained or in the group. -/
def Settled (p : Params) (st : Fill) (a : Acc) : Prop := Drained p st a ∨ st.grp a ≠ []

theorem trySkip_nil {p : Params} {st : Fill} {x : Acc} (a : Acc) (h : msgsOf st.buf.msgs a = []) : msgsOf (trySkip p st x).buf.msgs a = [] := by
  rcases trySkip_cases p st x with he | ⟨l, hl, he⟩
  · rw [he]; exact h
  · rw [he]
    show msgsOf (setMsgs _ _ _) a = _
    rw [msgsOf_setMsgs _ _ _ _ _ hl]
    split
    · rename_i hx; subst hx; rw [msgsOf_some hl] at h; rw [h]; rfl
    · exact h

theorem moveAcc_nil {p : Params} {st : Fill} {x : Acc} {sid : Nat} {old : Nat × Nat} {s : Slot} (a : Acc) (h : msgsOf st.buf.msgs a = []) :
    msgsOf (moveAcc p st x sid old s).buf.msgs a = [] := by
  rcases moveAcc_cases p st x sid old s with ⟨he, _⟩ | ⟨l, hl, h0, he⟩ | ⟨pre, rest, hg, hle, hlt, hc⟩
  · rw [he]; exact h
  · rw [he]; simpa using h
  · have : msgsOf (setMsgs st.buf.msgs x rest) a = [] := by
      rw [msgsOf_setMsgs _ _ _ _ _ hg]
      split
      · rename_i hx; subst hx
        rw [msgsOf_some hg] at h
        exact (List.append_eq_nil_iff.1 h).2
      · exact h
    rcases hc with ⟨hz, he⟩ | ⟨hz, he⟩ <;> · rw [he]; exact this

theorem Micro.nil {p : Params} {st st' : Fill} (hm : Micro p st st') (a : Acc) (h : msgsOf st.buf.msgs a = []) : msgsOf st'.buf.msgs a = [] := by
  cases hm with
  | skip x => exact trySkip_nil a h
  | mark x hc => exact h
  | move x sid old s hs ha hsk hc ho => exact moveAcc_nil a h
  | «open» sid => exact h
  | close sid s hs h0 => exact h

theorem Micro.sub {p : Params} {st st' : Fill} (hm : Micro p st st') (a : Acc) (h : a ∈ st.skipped) : a ∈ st'.skipped := by
  cases hm with
  | skip x => rw [trySkip_skipped]; exact h
  | mark x hc => exact List.mem_cons_of_mem _ h
  | move x sid old s hs ha hsk hc ho => rw [(moveAcc_group p st x sid old s).1]; exact h
  | «open» sid => exact h
  | close sid s hs h0 => exact h

theorem Micro.grp {p : Params} {st st' : Fill} (hm : Micro p st st') (a : Acc) (h : st.grp a ≠ []) : st'.grp a ≠ [] := by
  cases hm with
  | skip x => rw [trySkip_grp]; exact h
  | mark x hc => exact h
  | move x sid old s hs ha hsk hc ho =>
    rcases (moveAcc_group p st x sid old s).2.2 with ⟨e, _, _⟩ | ⟨t, ht, _, e, _, _⟩
    · rw [e]; exact h
    · rw [e]; simp only
      split
      · rename_i hx; subst hx; simp [h]
      · exact h
  | «open» sid => exact h
  | close sid s hs h0 => exact h

theorem Drained.steps {p : Params} {st st' : Fill} {a : Acc} (h : Drained p st a) (hs : Steps p st st') : Drained p st' a := by
  induction hs with
  | refl => exact h
  | tail _ hm ih =>
    rcases ih with (h | h) | h
    · exact Or.inl (Or.inl (hm.sub a h))
    · exact Or.inl (Or.inr h)
    · exact Or.inr (hm.nil a h)

theorem Settled.steps {p : Params} {st st' : Fill} {a : Acc} (h : Settled p st a) (hs : Steps p st st') : Settled p st' a := by
  rcases h with h | h
  · exact Or.inl (h.steps hs)
  · right
    induction hs with
    | refl => exact h
    | tail _ hm ih => exact hm.grp a ih

/-! ### The check -/

theorem checkSkip_true {p : Params} {st : Fill} {a : Acc} (h : (checkSkip p st a).1 = true) :
    Steps p st (checkSkip p st a).2 ∧ Drained p (checkSkip p st a).2 a ∧ (checkSkip p st a).2.slots = st.slots ∧
      (checkSkip p st a).2.updates = st.updates ∧ (checkSkip p st a).2.last = st.last ∧ (checkSkip p st a).2.grp = st.grp := by
  unfold checkSkip at *
  split at h
  · rename_i hm
    rw [if_pos hm]
    exact ⟨.refl, Or.inl (Or.inl hm), rfl, rfl, rfl, rfl⟩
  · rename_i hm
    rw [if_neg hm]
    split at h
    · rename_i hc
      rw [if_pos hc]
      exact ⟨.single (Micro.mark st a hc), Or.inl (Or.inr hc), rfl, rfl, rfl, rfl⟩
    · cases h

theorem checkSkip_false {p : Params} {st : Fill} {a : Acc} (h : ¬ (checkSkip p st a).1 = true) :
    (checkSkip p st a).2 = st ∧ a ∉ st.skipped ∧ p.check a = false := by
  unfold checkSkip at *
  split at h
  · exact absurd rfl h
  · rename_i hm
    rw [if_neg hm]
    split at h
    · exact absurd rfl h
    · rename_i hc
      rw [if_neg hc]
      exact ⟨rfl, hm, by simpa using hc⟩

/-! ### The slot being filled -/

/-- The slot exists, and `old` are its counts at the start of the fill unless an update already remembers them. -/
def Ctx (st : Fill) (sid : Nat) (old : Nat × Nat) : Prop :=
  ∃ s, get st.slots sid = some s ∧ (get st.updates sid = none → old = (s.int, s.ext))

/-- What visits for the slot `sid` may change. -/
structure Only (sid : Nat) (st st' : Fill) : Prop where
  frame : ∀ j, j ≠ sid → get st'.slots j = get st.slots j
  length : st'.slots.length = st.slots.length
  last : st'.last = st.last
  accounts : ∀ a ∈ (slotAt st sid).accounts, a ∈ (slotAt st' sid).accounts
  count : (slotAt st sid).count ≤ (slotAt st' sid).count

theorem Only.refl (sid : Nat) (st : Fill) : Only sid st st := ⟨fun _ _ => rfl, rfl, rfl, fun _ h => h, Nat.le_refl _⟩

theorem Only.trans {sid : Nat} {a b c : Fill} (h1 : Only sid a b) (h2 : Only sid b c) : Only sid a c :=
  ⟨fun j hj => (h2.frame j hj).trans (h1.frame j hj), h2.length.trans h1.length, h2.last.trans h1.last,
    fun x hx => h2.accounts x (h1.accounts x hx), Nat.le_trans h1.count h2.count⟩

theorem Only.of_eq {sid : Nat} {st st' : Fill} (hs : st'.slots = st.slots) (hl : st'.last = st.last) : Only sid st st' :=
  ⟨fun _ _ => by rw [hs], by rw [hs], hl, by unfold slotAt; rw [hs]; exact fun _ h => h, by unfold slotAt; rw [hs]; exact Nat.le_refl _⟩

theorem Ctx.of_eq {sid : Nat} {old : Nat × Nat} {st st' : Fill} (h : Ctx st sid old) (hs : st'.slots = st.slots) (hu : st'.updates = st.updates) :
    Ctx st' sid old := by
  obtain ⟨s, h1, h2⟩ := h
  exact ⟨s, by rw [hs]; exact h1, by rw [hu]; exact h2⟩

theorem slotAt_of {st : Fill} {sid : Nat} {s : Slot} (h : get st.slots sid = some s) : slotAt st sid = s := by unfold slotAt; rw [h]; rfl

theorem get_recordUpd_self_ne {u : List (Nat × Upd)} (sid : Nat) (old : Nat × Nat) (s : Slot) : get (recordUpd u sid old s) sid ≠ none := by
  induction u with
  | nil => simp [recordUpd, Table.get]
  | cons e u ih =>
    unfold recordUpd
    split
    · simp [Table.get]
    · rename_i hne
      split
      · simp [Table.get]
      · conv => enter [1]; unfold Table.get
        rw [if_neg hne]; exact ih

/-- One move. -/
theorem move_visit {p : Params} {st : Fill} {a : Acc} {sid : Nat} {old : Nat × Nat} (hs : SInv p.vert st) (hc : Ctx st sid old)
    (ha : a ∈ (slotAt st sid).accounts ∨ st.grp a = []) (h1 : a ∉ st.skipped) (h2 : p.check a = false) :
    Steps p st (moveAcc p st a sid old (slotAt st sid)) ∧ Ctx (moveAcc p st a sid old (slotAt st sid)) sid old ∧
    Only sid st (moveAcc p st a sid old (slotAt st sid)) ∧
    ((slotAt (moveAcc p st a sid old (slotAt st sid)) sid).count < p.vert → msgsOf (moveAcc p st a sid old (slotAt st sid)).buf.msgs a = []) ∧
    ((slotAt st sid).count < p.vert → Settled p (moveAcc p st a sid old (slotAt st sid)) a) ∧
    (∀ x ∈ (slotAt (moveAcc p st a sid old (slotAt st sid)) sid).accounts, x ∈ (slotAt st sid).accounts ∨ x = a) := by
  obtain ⟨s, hg, ho⟩ := hc
  rw [slotAt_of hg] at ha ⊢
  have hm := Micro.move st a sid old s hg ha h1 h2 ho
  have hv := hs.vert sid s hg
  have hcases := moveAcc_cases p st a sid old s
  have hgroup := moveAcc_group p st a sid old s
  have hst : Steps p st (moveAcc p st a sid old s) := .single hm
  refine ⟨hst, ?_⟩
  rcases hcases with ⟨he, hn⟩ | ⟨l, hl, h0, he⟩ | ⟨pre, rest, hgb, hle, hlt, hcc⟩
  · rw [he]
    exact ⟨⟨s, hg, ho⟩, Only.refl _ _, fun _ => msgsOf_none hn, fun _ => Or.inl (Or.inr (msgsOf_none hn)), by rw [slotAt_of hg]; exact fun x hx => Or.inl hx⟩
  · have hx : s.count < p.vert → msgsOf (backup st.buf a l).msgs a = [] := by
      intro hlt
      rw [backup_msgs, msgsOf_some hl]
      exact List.eq_nil_of_length_eq_zero (by omega)
    rw [he]
    refine ⟨⟨s, hg, ho⟩, Only.of_eq rfl rfl, ?_, ?_, ?_⟩
    · intro hlt
      rw [show slotAt { st with buf := backup st.buf a l } sid = s from slotAt_of hg] at hlt
      exact hx hlt
    · intro hlt; exact Or.inl (Or.inr (hx hlt))
    · rw [show slotAt { st with buf := backup st.buf a l } sid = s from slotAt_of hg]; exact fun x hx => Or.inl hx
  · have hbuf : (moveAcc p st a sid old s).buf.msgs = setMsgs st.buf.msgs a rest := by
      rcases hcc with ⟨hz, he⟩ | ⟨hz, he⟩
      · rw [he]
      · rw [he]; rfl
    have hma : msgsOf (moveAcc p st a sid old s).buf.msgs a = rest := by rw [hbuf, msgsOf_setMsgs _ _ _ _ _ hgb, if_pos rfl]
    rcases hcc with ⟨hz, he⟩ | ⟨hz, he⟩
    · have hsl : (moveAcc p st a sid old s).slots = st.slots := by rw [he]
      have hup : (moveAcc p st a sid old s).updates = st.updates := by rw [he]
      have hla : (moveAcc p st a sid old s).last = st.last := by rw [he]
      have hr : s.count < p.vert → rest = [] := by intro h; apply hlt; rw [hz]; simp only [List.length_nil]; omega
      have hsa : slotAt (moveAcc p st a sid old s) sid = s := slotAt_of (by rw [hsl]; exact hg)
      refine ⟨Ctx.of_eq ⟨s, hg, ho⟩ hsl hup, Only.of_eq hsl hla, ?_, ?_, ?_⟩
      · intro h; rw [hsa] at h; rw [hma]; exact hr h
      · intro h; exact Or.inl (Or.inr (by rw [hma]; exact hr h))
      · rw [hsa]; exact fun x hx => Or.inl hx
    · have hsl : (moveAcc p st a sid old s).slots = put st.slots sid (growSlot s a (st.grp a).isEmpty (pre.filter (keep p.filter))) := by rw [he]; rfl
      have hup : (moveAcc p st a sid old s).updates = recordUpd st.updates sid old (growSlot s a (st.grp a).isEmpty (pre.filter (keep p.filter))) := by
        rw [he]; rfl
      have hla : (moveAcc p st a sid old s).last = st.last := by rw [he]; rfl
      have hgr : (moveAcc p st a sid old s).grp a = st.grp a ++ pre.filter (keep p.filter) := by
        rw [he]; show (if a = a then _ else _) = _; rw [if_pos rfl]
      have hgc := growSlot_count s a (st.grp a).isEmpty (pre.filter (keep p.filter))
      have hget : get (moveAcc p st a sid old s).slots sid = some (growSlot s a (st.grp a).isEmpty (pre.filter (keep p.filter))) := by
        rw [hsl, get_put, if_pos rfl]
      have hsa := slotAt_of hget
      refine ⟨⟨_, hget, ?_⟩, ?_, ?_, ?_, ?_⟩
      · intro hn; rw [hup] at hn; exact absurd hn (get_recordUpd_self_ne _ _ _)
      · refine ⟨?_, ?_, hla, ?_, ?_⟩
        · intro j hj; rw [hsl, get_put, if_neg hj]
        · rw [hsl]; exact (sum_put hs.uniq Slot.int hg).2
        · rw [hsa, slotAt_of hg]
          intro x hx
          unfold growSlot
          split
          · simp [hx]
          · exact hx
        · rw [hsa, slotAt_of hg]; unfold Slot.count; omega
      · intro h
        rw [hsa] at h
        rw [hma]
        apply hlt
        unfold Slot.count at h ⊢
        omega
      · intro _
        right
        rw [hgr]; simp [hz]
      · rw [hsa]
        intro x hx
        unfold growSlot at hx
        split at hx
        · simpa using hx
        · exact Or.inl hx

/-- Accounts of a slot with room are drained. -/
def Own (p : Params) (st : Fill) (sid : Nat) : Prop := (slotAt st sid).count < p.vert → ∀ a ∈ (slotAt st sid).accounts, Drained p st a

/-- A step on the account `a` for the slot, in any of the three ways. -/
structure Visit (p : Params) (sid : Nat) (old : Nat × Nat) (st st' : Fill) : Prop where
  steps : Steps p st st'
  ctx : Ctx st' sid old
  only : Only sid st st'
  own : Own p st sid → Own p st' sid

theorem Visit.refl {p : Params} {sid : Nat} {old : Nat × Nat} {st : Fill} (h : Ctx st sid old) : Visit p sid old st st :=
  ⟨.refl, h, Only.refl _ _, id⟩

theorem Visit.trans {p : Params} {sid : Nat} {old : Nat × Nat} {a b c : Fill} (h1 : Visit p sid old a b) (h2 : Visit p sid old b c) :
    Visit p sid old a c := ⟨h1.steps.trans h2.steps, h2.ctx, h1.only.trans h2.only, fun h => h2.own (h1.own h)⟩

theorem visit_of_eq {p : Params} {sid : Nat} {old : Nat × Nat} {st st' : Fill} (hc : Ctx st sid old) (hst : Steps p st st')
    (hs : st'.slots = st.slots) (hu : st'.updates = st.updates) (hl : st'.last = st.last) : Visit p sid old st st' := by
  refine ⟨hst, hc.of_eq hs hu, Only.of_eq hs hl, ?_⟩
  intro h hlt a ha
  have e : slotAt st' sid = slotAt st sid := by unfold slotAt; rw [hs]
  rw [e] at hlt ha
  exact (h hlt a ha).steps hst

theorem visit_trySkip {p : Params} {sid : Nat} {old : Nat × Nat} {st : Fill} (hc : Ctx st sid old) (a : Acc) : Visit p sid old st (trySkip p st a) :=
  visit_of_eq hc (.single (Micro.skip st a)) (trySkip_slots _ _ _) (trySkip_updates _ _ _) (trySkip_last _ _ _)

theorem visit_check {p : Params} {sid : Nat} {old : Nat × Nat} {st : Fill} (hc : Ctx st sid old) {a : Acc} (h : (checkSkip p st a).1 = true) :
    Visit p sid old st (trySkip p (checkSkip p st a).2 a) ∧ Drained p (trySkip p (checkSkip p st a).2 a) a := by
  obtain ⟨h1, h2, h3, h4, h5, h6⟩ := checkSkip_true h
  have v1 : Visit p sid old st (checkSkip p st a).2 := visit_of_eq hc h1 h3 h4 h5
  have v2 := visit_trySkip (p := p) v1.ctx a
  exact ⟨v1.trans v2, h2.steps v2.steps⟩

theorem visit_move {p : Params} {sid : Nat} {old : Nat × Nat} {st : Fill} (hs : SInv p.vert st) (hc : Ctx st sid old) {a : Acc}
    (h : ¬ (checkSkip p st a).1 = true) (ha : a ∈ (slotAt st sid).accounts ∨ st.grp a = []) :
    (checkSkip p st a).2 = st ∧ Visit p sid old st (moveAcc p st a sid old (slotAt st sid)) ∧
    ((slotAt st sid).count < p.vert → Settled p (moveAcc p st a sid old (slotAt st sid)) a) ∧
    ((slotAt (moveAcc p st a sid old (slotAt st sid)) sid).count < p.vert → Drained p (moveAcc p st a sid old (slotAt st sid)) a) := by
  obtain ⟨h1, h2, h3⟩ := checkSkip_false h
  obtain ⟨m1, m2, m3, m4, m5, m6⟩ := move_visit hs hc ha h2 h3
  refine ⟨h1, ⟨m1, m2, m3, ?_⟩, m5, fun h => Or.inr (m4 h)⟩
  intro ho hlt x hx
  rcases m6 x hx with hx | rfl
  · exact (ho (Nat.lt_of_le_of_lt m3.count hlt) x hx).steps m1
  · exact Or.inr (m4 hlt)

/-! ### The inner loops -/

theorem visitNew_spec {p : Params} {sid : Nat} {old : Nat × Nat} (todo : List Acc) (st : Fill) (hs : SInv p.vert st) (hc : Ctx st sid old)
    (hcap : (slotAt st sid).count < p.vert) : ∃ st' todo' b done, visitNew p sid old todo st = (st', todo', b) ∧ Visit p sid old st st' ∧
      todo = done ++ todo' ∧ (∀ a ∈ done, Settled p st' a) ∧
      ((todo' = [] ∧ b = false ∧ slotAt st' sid = slotAt st sid) ∨
       (done ≠ [] ∧ 0 < (slotAt st' sid).count ∧ b = decide ((slotAt st' sid).count < p.vert))) := by
  induction todo generalizing st with
  | nil => exact ⟨st, [], false, [], rfl, Visit.refl hc, rfl, by simp, Or.inl ⟨rfl, rfl, rfl⟩⟩
  | cons a todo ih =>
    have next : ∀ st1, Visit p sid old st st1 → slotAt st1 sid = slotAt st sid → Settled p st1 a →
        visitNew p sid old (a :: todo) st = visitNew p sid old todo st1 → ∃ st' todo' b done, visitNew p sid old (a :: todo) st = (st', todo', b) ∧
          Visit p sid old st st' ∧ a :: todo = done ++ todo' ∧ (∀ a ∈ done, Settled p st' a) ∧
          ((todo' = [] ∧ b = false ∧ slotAt st' sid = slotAt st sid) ∨
           (done ≠ [] ∧ 0 < (slotAt st' sid).count ∧ b = decide ((slotAt st' sid).count < p.vert))) := by
      intro st1 hv he hset heq
      obtain ⟨st', todo', b, done, e, v, hd, hst, hor⟩ := ih st1 (hs.steps hv.steps) hv.ctx (by rw [he]; exact hcap)
      refine ⟨st', todo', b, a :: done, by rw [heq, e], hv.trans v, by rw [hd]; rfl, ?_, ?_⟩
      · intro x hx
        rcases List.mem_cons.1 hx with rfl | hx
        · exact hset.steps v.steps
        · exact hst x hx
      · rcases hor with ⟨h1, h2, h3⟩ | ⟨_, h2, h3⟩
        · exact Or.inl ⟨h1, h2, h3.trans he⟩
        · exact Or.inr ⟨by simp, h2, h3⟩
    by_cases hg : st.grp a = []
    · have hg' : ¬ (!(st.grp a).isEmpty) = true := by simp [hg]
      by_cases hk : (checkSkip p st a).1 = true
      · obtain ⟨v, hd⟩ := visit_check hc hk
        refine next _ v ?_ (Or.inl hd) ?_
        · unfold slotAt; rw [trySkip_slots, (checkSkip_true hk).2.2.1]
        · conv_lhs => unfold visitNew
          rw [if_neg hg', if_pos hk]
      · obtain ⟨e, v, hset, hdr⟩ := visit_move hs hc hk (Or.inr hg)
        have heq : visitNew p sid old (a :: todo) st =
            if 0 < (slotAt (moveAcc p st a sid old (slotAt st sid)) sid).count
            then (moveAcc p st a sid old (slotAt st sid), todo, decide ((slotAt (moveAcc p st a sid old (slotAt st sid)) sid).count < p.vert))
            else visitNew p sid old todo (moveAcc p st a sid old (slotAt st sid)) := by
          conv_lhs => unfold visitNew
          rw [if_neg hg', if_neg hk, e]
        by_cases hpos : 0 < (slotAt (moveAcc p st a sid old (slotAt st sid)) sid).count
        · rw [if_pos hpos] at heq
          refine ⟨_, _, _, [a], heq, v, rfl, ?_, Or.inr ⟨by simp, hpos, rfl⟩⟩
          intro x hx
          rw [List.mem_singleton.1 hx]
          exact hset hcap
        · rw [if_neg hpos] at heq
          refine next _ v ?_ (hset hcap) heq
          -- an empty slot did not change
          rcases (moveAcc_group p st a sid old (slotAt st sid)).2.2 with ⟨_, es, _⟩ | ⟨t, ht, _, _, es, _⟩
          · unfold slotAt at es ⊢; rw [es]
          · exfalso
            apply hpos
            rw [show slotAt (moveAcc p st a sid old (slotAt st sid)) sid = growSlot (slotAt st sid) a (st.grp a).isEmpty t from
              slotAt_of (by rw [es, get_put, if_pos rfl])]
            have := growSlot_count (slotAt st sid) a (st.grp a).isEmpty t
            have := List.length_pos_iff.2 ht
            unfold Slot.count; omega
    · have hg' : (!(st.grp a).isEmpty) = true := by simp [hg]
      have v := visit_trySkip (p := p) hc a
      refine next _ v ?_ (Or.inr ?_) ?_
      · unfold slotAt; rw [trySkip_slots]
      · rw [trySkip_grp]; exact hg
      · conv_lhs => unfold visitNew
        rw [if_pos hg']

theorem visitFill_spec {p : Params} {sid : Nat} {old : Nat × Nat} (todo : List Acc) (st : Fill) (hs : SInv p.vert st) (hc : Ctx st sid old)
    (hcap : (slotAt st sid).count < p.vert) : ∃ st' todo' done, visitFill p sid old todo st = (st', todo') ∧ Visit p sid old st st' ∧
      todo = done ++ todo' ∧ (∀ a ∈ done, Settled p st' a) ∧ ((slotAt st' sid).count < p.vert → todo' = []) := by
  induction todo generalizing st with
  | nil => exact ⟨st, [], [], rfl, Visit.refl hc, rfl, by simp, fun _ => rfl⟩
  | cons a todo ih =>
    have next : ∀ st1, Visit p sid old st st1 → (slotAt st1 sid).count < p.vert → Settled p st1 a →
        visitFill p sid old (a :: todo) st = visitFill p sid old todo st1 → ∃ st' todo' done, visitFill p sid old (a :: todo) st = (st', todo') ∧
          Visit p sid old st st' ∧ a :: todo = done ++ todo' ∧ (∀ a ∈ done, Settled p st' a) ∧
          ((slotAt st' sid).count < p.vert → todo' = []) := by
      intro st1 hv he hset heq
      obtain ⟨st', todo', done, e, v, hd, hst, hor⟩ := ih st1 (hs.steps hv.steps) hv.ctx he
      refine ⟨st', todo', a :: done, by rw [heq, e], hv.trans v, by rw [hd]; rfl, ?_, hor⟩
      intro x hx
      rcases List.mem_cons.1 hx with rfl | hx
      · exact hset.steps v.steps
      · exact hst x hx
    by_cases hg : st.grp a = []
    · have hg' : ¬ (!(st.grp a).isEmpty) = true := by simp [hg]
      by_cases hk : (checkSkip p st a).1 = true
      · obtain ⟨v, hd⟩ := visit_check hc hk
        refine next _ v ?_ (Or.inl hd) ?_
        · unfold slotAt; rw [trySkip_slots, (checkSkip_true hk).2.2.1]; exact hcap
        · conv_lhs => unfold visitFill
          rw [if_neg hg', if_pos hk]
      · obtain ⟨e, v, hset, hdr⟩ := visit_move hs hc hk (Or.inr hg)
        have heq : visitFill p sid old (a :: todo) st =
            if p.vert ≤ (slotAt (moveAcc p st a sid old (slotAt st sid)) sid).count
            then (moveAcc p st a sid old (slotAt st sid), todo)
            else visitFill p sid old todo (moveAcc p st a sid old (slotAt st sid)) := by
          conv_lhs => unfold visitFill
          rw [if_neg hg', if_neg hk, e]
        by_cases hpos : p.vert ≤ (slotAt (moveAcc p st a sid old (slotAt st sid)) sid).count
        · rw [if_pos hpos] at heq
          refine ⟨_, _, [a], heq, v, rfl, ?_, fun h => absurd h (by omega)⟩
          intro x hx
          rw [List.mem_singleton.1 hx]
          exact hset hcap
        · rw [if_neg hpos] at heq
          exact next _ v (by omega) (hset hcap) heq
    · have hg' : (!(st.grp a).isEmpty) = true := by simp [hg]
      have v := visit_trySkip (p := p) hc a
      refine next _ v ?_ (Or.inr ?_) ?_
      · unfold slotAt; rw [trySkip_slots]; exact hcap
      · rw [trySkip_grp]; exact hg
      · conv_lhs => unfold visitFill
        rw [if_pos hg']

theorem visitOwn_spec {p : Params} {sid : Nat} {old : Nat × Nat} (as : List Acc) (st : Fill) (hs : SInv p.vert st) (hc : Ctx st sid old)
    (ha : ∀ a ∈ as, a ∈ (slotAt st sid).accounts) :
    Steps p st (visitOwn p sid old as st) ∧ Ctx (visitOwn p sid old as st) sid old ∧ Only sid st (visitOwn p sid old as st) ∧
      ((slotAt (visitOwn p sid old as st) sid).count < p.vert → (∀ a ∈ as, Drained p (visitOwn p sid old as st) a)) ∧
      (∀ x ∈ (slotAt (visitOwn p sid old as st) sid).accounts, x ∈ (slotAt st sid).accounts) := by
  induction as generalizing st with
  | nil => exact ⟨.refl, hc, Only.refl _ _, fun _ => by simp, fun _ h => h⟩
  | cons a as ih =>
    have next : ∀ st1, Visit p sid old st st1 → (∀ x ∈ (slotAt st1 sid).accounts, x ∈ (slotAt st sid).accounts) →
        ((slotAt st1 sid).count < p.vert → Drained p st1 a) →
        visitOwn p sid old (a :: as) st = visitOwn p sid old as st1 →
        Steps p st (visitOwn p sid old (a :: as) st) ∧ Ctx (visitOwn p sid old (a :: as) st) sid old ∧ Only sid st (visitOwn p sid old (a :: as) st) ∧
        ((slotAt (visitOwn p sid old (a :: as) st) sid).count < p.vert → (∀ x ∈ a :: as, Drained p (visitOwn p sid old (a :: as) st) x)) ∧
        (∀ x ∈ (slotAt (visitOwn p sid old (a :: as) st) sid).accounts, x ∈ (slotAt st sid).accounts) := by
      intro st1 hv hacc hdr heq
      obtain ⟨h1, h2, h3, h4, h5⟩ := ih st1 (hs.steps hv.steps) hv.ctx (fun x hx => hv.only.accounts x (ha x (by simp [hx])))
      rw [heq]
      refine ⟨hv.steps.trans h1, h2, hv.only.trans h3, ?_, fun x hx => hacc x (h5 x hx)⟩
      intro hlt x hx
      rcases List.mem_cons.1 hx with rfl | hx
      · exact (hdr (Nat.lt_of_le_of_lt h3.count hlt)).steps h1
      · exact h4 hlt x hx
    by_cases hk : (checkSkip p st a).1 = true
    · obtain ⟨v, hd⟩ := visit_check hc hk
      refine next _ v ?_ (fun _ => hd) ?_
      · unfold slotAt; rw [trySkip_slots, (checkSkip_true hk).2.2.1]; exact fun _ h => h
      · conv_lhs => unfold visitOwn
        rw [if_pos hk]
    · have haa := ha a (by simp)
      obtain ⟨e, v, hset, hdr⟩ := visit_move hs hc hk (Or.inl haa)
      obtain ⟨_, n2, n3⟩ := checkSkip_false hk
      have hacc := (move_visit hs hc (Or.inl haa) n2 n3).2.2.2.2.2
      have hacc' : ∀ x ∈ (slotAt (moveAcc p st a sid old (slotAt st sid)) sid).accounts, x ∈ (slotAt st sid).accounts := by
        intro x hx
        rcases hacc x hx with h | rfl
        · exact h
        · exact haa
      have heq : visitOwn p sid old (a :: as) st =
          if p.vert ≤ (slotAt (moveAcc p st a sid old (slotAt st sid)) sid).count then moveAcc p st a sid old (slotAt st sid)
          else visitOwn p sid old as (moveAcc p st a sid old (slotAt st sid)) := by
        conv_lhs => unfold visitOwn
        rw [if_neg hk, e]
      by_cases hpos : p.vert ≤ (slotAt (moveAcc p st a sid old (slotAt st sid)) sid).count
      · rw [if_pos hpos] at heq
        rw [heq]
        exact ⟨v.steps, v.ctx, v.only, fun h => absurd h (by omega), hacc'⟩
      · rw [if_neg hpos] at heq
        exact next _ v hacc' hdr heq

end Tycho.MsgBuffer
