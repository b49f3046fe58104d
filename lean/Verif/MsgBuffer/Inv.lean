import Verif.MsgBuffer.Lemmas
import Mathlib.Logic.Relation

/-! ## Elementary steps of a fill and what each preserves -/
namespace Tycho.MsgBuffer

open Tycho.Table

/-- What one elementary step of `fill` does. -/
inductive Micro (p : Params) : Fill → Fill → Prop
  | skip (st : Fill) (a : Acc) : Micro p st (trySkip p st a)
  | mark (st : Fill) (a : Acc) (h : p.check a = true) : Micro p st { st with skipped := a :: st.skipped }
  | move (st : Fill) (a : Acc) (sid : Nat) (old : Nat × Nat) (s : Slot) (hs : get st.slots sid = some s)
      (ha : a ∈ s.accounts ∨ st.grp a = []) (hsk : a ∉ st.skipped) (hc : p.check a = false)
      (ho : get st.updates sid = none → old = (s.int, s.ext)) : Micro p st (moveAcc p st a sid old s)
  | open (st : Fill) (sid : Nat) : Micro p st (openSlot st sid)
  | close (st : Fill) (sid : Nat) (s : Slot) (hs : get st.slots sid = some s) (h0 : s.count = 0) :
      Micro p st { st with slots := del st.slots (fun j => decide (j = sid)) }

abbrev Steps (p : Params) := Relation.ReflTransGen (Micro p)

@[simp] theorem backup_msgs (b : Buffer) (a : Acc) (l : List Msg) : (backup b a l).msgs = b.msgs := by
  unfold backup; split; · rfl
  split <;> rfl
@[simp] theorem backup_int (b : Buffer) (a : Acc) (l : List Msg) : (backup b a l).int = b.int := by
  unfold backup; split; · rfl
  split <;> rfl
@[simp] theorem backup_ext (b : Buffer) (a : Acc) (l : List Msg) : (backup b a l).ext = b.ext := by
  unfold backup; split; · rfl
  split <;> rfl
@[simp] theorem backup_minExt (b : Buffer) (a : Acc) (l : List Msg) : (backup b a l).minExt = b.minExt := by
  unfold backup; split; · rfl
  split <;> rfl

/-- What `trySkip` does. -/
theorem trySkip_cases (p : Params) (st : Fill) (a : Acc) : trySkip p st a = st ∨ ∃ l, get st.buf.msgs a = some l ∧
    trySkip p st a = { st with
        buf := { backup st.buf a l with msgs := setMsgs st.buf.msgs a (l.filter (keep p.filter)), ext := st.buf.ext - l.countP p.filter.skips }
        expired := st.expired + l.countP p.filter.skips } := by
  unfold trySkip
  split
  · exact Or.inl rfl
  · split
    · exact Or.inl rfl
    · rename_i l hl
      refine Or.inr ⟨l, hl, ?_⟩
      simp only [backup_msgs, backup_ext]

/-- What `moveAcc` does: nothing but a backup, or it takes a prefix off the buffer. -/
theorem moveAcc_cases (p : Params) (st : Fill) (a : Acc) (sid : Nat) (old : Nat × Nat) (s : Slot) :
    (moveAcc p st a sid old s = st ∧ get st.buf.msgs a = none) ∨
    (∃ l, get st.buf.msgs a = some l ∧ min l.length (p.vert - s.count) = 0 ∧ moveAcc p st a sid old s = { st with buf := backup st.buf a l }) ∨
    ∃ pre rest, get st.buf.msgs a = some (pre ++ rest) ∧ (pre.filter (keep p.filter)).length ≤ p.vert - s.count ∧
      ((pre.filter (keep p.filter)).length < p.vert - s.count → rest = []) ∧
      (let st1 := { st with
          buf := { backup st.buf a (pre ++ rest) with msgs := setMsgs st.buf.msgs a rest, ext := st.buf.ext - pre.countP p.filter.skips }
          expired := st.expired + pre.countP p.filter.skips }
       (pre.filter (keep p.filter) = [] ∧ moveAcc p st a sid old s = st1) ∨
       (pre.filter (keep p.filter) ≠ [] ∧ moveAcc p st a sid old s = collect st1 a sid old s (pre.filter (keep p.filter)))) := by
  unfold moveAcc
  split
  · rename_i h; exact Or.inl ⟨rfl, h⟩
  · rename_i l hl
    refine Or.inr ?_
    simp only [backup_msgs, backup_ext]
    split
    · rename_i h0; exact Or.inl ⟨l, hl, h0, rfl⟩
    · rename_i h0
      refine Or.inr ?_
      obtain ⟨pre, h1, h2, h3, h4, h5⟩ := takeMsgs_spec p.filter (min l.length (p.vert - s.count)) l
      refine ⟨pre, (takeMsgs p.filter (min l.length (p.vert - s.count)) l).2.1, by rw [← h1]; exact hl, ?_, ?_, ?_⟩
      · rw [← h2]; omega
      · intro hlt
        rw [← h2] at hlt
        by_cases hml : l.length ≤ p.vert - s.count
        · by_cases hlt2 : (takeMsgs p.filter (min l.length (p.vert - s.count)) l).1.length < min l.length (p.vert - s.count)
          · exact h5 hlt2
          · have e1 : (pre.filter (keep p.filter)).length = l.length := by rw [← h2]; omega
            have e2 := List.length_filter_le (keep p.filter) pre
            have e3 : l.length = pre.length + (takeMsgs p.filter (min l.length (p.vert - s.count)) l).2.1.length := by
              conv_lhs => rw [h1]
              rw [List.length_append]
            exact List.eq_nil_of_length_eq_zero (by omega)
        · exact h5 (by omega)
      · rw [← h1, h3, h2]
        by_cases he : List.filter (keep p.filter) pre = []
        · left
          rw [he]; exact ⟨rfl, by simp⟩
        · right
          refine ⟨he, ?_⟩
          rw [if_neg (by simpa using he)]

/-! ### The buffer and the group -/

/-- Messages moved into the group since the start. -/
def movedMsgs (st0 st : Fill) : List Msg := (st0.buf.msgs.map (·.1)).flatMap (fun a => (st.grp a).drop (st0.grp a).length)

structure BInv (p : Params) (st0 st : Fill) : Prop where
  keys : st.buf.msgs.map (·.1) = st0.buf.msgs.map (·.1)
  moved : ∀ a, Moved p.filter (st0.grp a) (msgsOf st0.buf.msgs a) (st.grp a) (msgsOf st.buf.msgs a)
  int : st.buf.int = (allMsgs st.buf.msgs).countP Msg.isInt
  ext : st.buf.ext = (allMsgs st.buf.msgs).countP Msg.isExt
  minExt : st.buf.minExt = st0.buf.minExt
  total : (allMsgs st0.buf.msgs).length = (allMsgs st.buf.msgs).length + st.count + st.expired
  count : st.count = (movedMsgs st0 st).length
  collected : st.collected.Perm (keysOf (movedMsgs st0 st))

theorem mem_keys_of_get {l : List (Acc × List Msg)} {a : Acc} {v : List Msg} (h : get l a = some v) : a ∈ l.map (·.1) :=
  List.mem_map_of_mem (f := (·.1)) (mem_of_get _ _ _ h)

theorem msgsOf_none {l : List (Acc × List Msg)} {a : Acc} (h : get l a = none) : msgsOf l a = [] := by unfold msgsOf; rw [h]; rfl
theorem msgsOf_some {l : List (Acc × List Msg)} {a : Acc} {v : List Msg} (h : get l a = some v) : msgsOf l a = v := by unfold msgsOf; rw [h]; rfl

theorem countP_filter_keep_int (f : Filter) (l : List Msg) : (l.filter (keep f)).countP Msg.isInt = l.countP Msg.isInt := by
  rw [List.countP_filter]
  congr 1
  funext m
  cases h : f.skips m
  · simp [keep, h]
  · have := skips_ext h
    unfold Msg.isExt at this
    simp only [Bool.not_eq_true'] at this
    simp [this]

theorem countP_filter_keep_ext (f : Filter) (l : List Msg) : (l.filter (keep f)).countP Msg.isExt + l.countP f.skips = l.countP Msg.isExt := by
  induction l with
  | nil => rfl
  | cons m l ih =>
    cases h : f.skips m
    · rw [List.filter_cons_of_pos (by simp [keep, h]), List.countP_cons, List.countP_cons, List.countP_cons, h]
      simp; omega
    · rw [List.filter_cons_of_neg (by simp [keep, h]), List.countP_cons, List.countP_cons, h, skips_ext h]
      simp; omega

theorem length_filter_keep (f : Filter) (l : List Msg) : (l.filter (keep f)).length + l.countP f.skips = l.length := by
  have := int_ext_length (l.filter (keep f))
  have := int_ext_length l
  have := countP_filter_keep_int f l
  have := countP_filter_keep_ext f l
  omega

theorem length_setMsgs {l : List (Acc × List Msg)} (hu : Uniq l) {a : Acc} {l0 : List Msg} (h : get l a = some l0) (v : List Msg) :
    (allMsgs (setMsgs l a v)).length + l0.length = (allMsgs l).length + v.length := by
  have := countP_setMsgs (fun _ => true) hu h v
  simpa using this

theorem movedMsgs_congr {st0 st st' : Fill} (h : st'.grp = st.grp) : movedMsgs st0 st' = movedMsgs st0 st := by unfold movedMsgs; rw [h]

/-- More of one account in the group. -/
theorem movedMsgs_add {st0 st st' : Fill} (hn : (st0.buf.msgs.map (·.1)).Nodup) {a : Acc} (ha : a ∈ st0.buf.msgs.map (·.1)) {t : List Msg}
    (hp : ∀ x, ∃ u, st.grp x = st0.grp x ++ u) (h : st'.grp = fun x => if x = a then st.grp a ++ t else st.grp x) :
    (movedMsgs st0 st').Perm (movedMsgs st0 st ++ t) := by
  unfold movedMsgs
  generalize st0.buf.msgs.map (·.1) = ks at *
  induction ks with
  | nil => cases ha
  | cons k ks ih =>
    rw [List.flatMap_cons, List.flatMap_cons]
    by_cases hk : k = a
    · subst hk
      have hrest : ks.flatMap (fun x => (st'.grp x).drop (st0.grp x).length) = ks.flatMap (fun x => (st.grp x).drop (st0.grp x).length) := by
        apply List.flatMap_congr
        intro x hx
        rw [h]
        simp only
        rw [if_neg]
        rintro rfl
        exact (List.nodup_cons.1 hn).1 hx
      rw [hrest, h]
      simp only [if_true]
      obtain ⟨u, hu⟩ := hp k
      rw [hu, List.append_assoc, List.drop_left, List.drop_left, List.append_assoc, List.append_assoc]
      exact List.Perm.append_left _ List.perm_append_comm
    · have := ih (List.nodup_cons.1 hn).2 ((List.mem_cons.1 ha).resolve_left (fun h => hk h.symm))
      rw [h]
      simp only
      rw [if_neg hk, List.append_assoc]
      rw [h] at this
      exact List.Perm.append_left _ this

theorem keysOf_append (a b : List Msg) : keysOf (a ++ b) = keysOf a ++ keysOf b := List.filterMap_append

theorem BInv.drop {p : Params} {st0 st : Fill} (h : BInv p st0 st) (hu : Uniq st0.buf.msgs) {a : Acc} {pre rest v : List Msg}
    (hg : get st.buf.msgs a = some (pre ++ rest)) {b : Buffer} (hv : v = rest ∧ pre.filter (keep p.filter) = [] ∨ pre = [] ∧ v = rest.filter (keep p.filter)) {k : Nat}
    (hk : k = pre.countP p.filter.skips ∧ v = rest ∨ k = rest.countP p.filter.skips ∧ pre = [] ∧ v = rest.filter (keep p.filter))
    (hb : b.msgs = setMsgs st.buf.msgs a v) (hbi : b.int = st.buf.int) (hbe : b.ext = st.buf.ext - k) (hbm : b.minExt = st.buf.minExt) :
    BInv p st0 { st with buf := b, expired := st.expired + k } := by
  have hu' : Uniq st.buf.msgs := by unfold Uniq; rw [h.keys]; exact hu
  have hcp := fun P => countP_setMsgs P hu' hg v
  have hlen := length_setMsgs hu' hg v
  have hint : v.countP Msg.isInt = (pre ++ rest).countP Msg.isInt := by
    rcases hv with ⟨rfl, h2⟩ | ⟨rfl, rfl⟩
    · have h3 := countP_filter_keep_int p.filter pre
      rw [h2] at h3
      rw [List.countP_append, ← h3]; simp
    · rw [countP_filter_keep_int]; simp
  have hext : v.countP Msg.isExt + k = (pre ++ rest).countP Msg.isExt := by
    rw [List.countP_append]
    rcases hk with ⟨rfl, rfl⟩ | ⟨rfl, rfl, rfl⟩
    · rcases hv with ⟨_, h2⟩ | ⟨rfl, _⟩
      · have h3 := countP_filter_keep_ext p.filter pre
        rw [h2] at h3
        simp at h3; omega
      · simp
    · rw [countP_filter_keep_ext]; simp
  have hle := countP_le_all Msg.isExt hg
  have hk2 := int_ext_length v
  have hk3 := int_ext_length (pre ++ rest)
  refine ⟨?_, ?_, ?_, ?_, hbm.trans h.minExt, ?_, h.count, h.collected⟩
  · show b.msgs.map _ = _
    rw [hb, keys_setMsgs, h.keys]
  · intro x
    show Moved _ _ _ (st.grp x) (msgsOf b.msgs x)
    refine (h.moved x).trans ?_
    rw [hb, msgsOf_setMsgs _ _ _ _ _ hg]
    split
    · rename_i hx; subst hx
      rw [msgsOf_some hg]
      rcases hv with ⟨rfl, h2⟩ | ⟨rfl, rfl⟩
      · exact ⟨pre, v, rfl, by show _ = _ ++ List.filter (keep p.filter) pre; rw [h2]; simp, Or.inl rfl⟩
      · exact ⟨[], rest, rfl, by simp, Or.inr rfl⟩
    · exact Moved.refl _ _ _
  · show b.int = _
    have := hcp Msg.isInt
    rw [hb, hbi, h.int]; omega
  · show b.ext = _
    have := hcp Msg.isExt
    rw [hb, hbe, h.ext]; omega
  · show _ = (allMsgs b.msgs).length + st.count + (st.expired + k)
    have := h.total
    rw [hb]; omega

theorem BInv.collect {p : Params} {st0 st : Fill} (h : BInv p st0 st) (hu : Uniq st0.buf.msgs) {a : Acc} {pre rest : List Msg}
    (hg : get st.buf.msgs a = some (pre ++ rest)) {st' : Fill}
    (hb : st'.buf.msgs = setMsgs st.buf.msgs a rest) (hbi : st'.buf.int = st.buf.int - (pre.filter (keep p.filter)).countP Msg.isInt)
    (hbe : st'.buf.ext = st.buf.ext - pre.countP p.filter.skips - (pre.filter (keep p.filter)).countP Msg.isExt)
    (hbm : st'.buf.minExt = st.buf.minExt) (hgr : st'.grp = fun x => if x = a then st.grp a ++ pre.filter (keep p.filter) else st.grp x)
    (hco : st'.collected = st.collected ++ keysOf (pre.filter (keep p.filter))) (hc : st'.count = st.count + (pre.filter (keep p.filter)).length)
    (hex : st'.expired = st.expired + pre.countP p.filter.skips) : BInv p st0 st' := by
  have hu' : Uniq st.buf.msgs := by unfold Uniq; rw [h.keys]; exact hu
  have hcp := fun P => countP_setMsgs P hu' hg rest
  have hlen := length_setMsgs hu' hg rest
  have h1 := countP_filter_keep_int p.filter pre
  have h2 := countP_filter_keep_ext p.filter pre
  have h3 := length_filter_keep p.filter pre
  have hper := movedMsgs_add (st0 := st0) (st := st) (st' := st') hu (a := a) (by rw [← h.keys]; exact mem_keys_of_get hg)
    (t := pre.filter (keep p.filter)) (fun x => (h.moved x).prefix) hgr
  refine ⟨?_, ?_, ?_, ?_, hbm.trans h.minExt, ?_, ?_, ?_⟩
  · rw [hb, keys_setMsgs, h.keys]
  · intro x
    refine (h.moved x).trans ?_
    rw [hb, hgr, msgsOf_setMsgs _ _ _ _ _ hg]
    simp only
    split
    · rename_i hx; subst hx
      rw [msgsOf_some hg]
      exact ⟨pre, rest, rfl, rfl, Or.inl rfl⟩
    · exact Moved.refl _ _ _
  · have := hcp Msg.isInt
    rw [List.countP_append] at this
    rw [hb, hbi, h.int]; omega
  · have := hcp Msg.isExt
    rw [List.countP_append] at this
    rw [hb, hbe, h.ext]; omega
  · have := h.total
    rw [List.length_append] at hlen
    rw [hb, hc, hex]; omega
  · rw [hc, hper.length_eq, List.length_append, h.count]
  · rw [hco]
    refine (h.collected.append_right _).trans ?_
    rw [← keysOf_append]
    exact (hper.filterMap _).symm

theorem BInv.step {p : Params} {st0 st st' : Fill} (hu : Uniq st0.buf.msgs) (h : BInv p st0 st) (hm : Micro p st st') : BInv p st0 st' := by
  cases hm with
  | skip a =>
    rcases trySkip_cases p st a with he | ⟨l, hl, he⟩
    · rw [he]; exact h
    · rw [he]
      exact h.drop hu (pre := []) (rest := l) hl (Or.inr ⟨rfl, rfl⟩) (Or.inr ⟨rfl, rfl, rfl⟩) rfl (by simp) rfl (by simp)
  | mark a hc => exact ⟨h.keys, h.moved, h.int, h.ext, h.minExt, h.total, h.count, h.collected⟩
  | move a sid old s hs ha hsk hc ho =>
    rcases moveAcc_cases p st a sid old s with ⟨he, _⟩ | ⟨l, hl, h0, he⟩ | ⟨pre, rest, hg, hle, hlt, hc⟩
    · rw [he]; exact h
    · rw [he]
      exact ⟨by simpa using h.keys, by simpa using h.moved, by simpa using h.int, by simpa using h.ext, by simpa using h.minExt,
        by simpa using h.total, h.count, h.collected⟩
    · rcases hc with ⟨hz, he⟩ | ⟨hz, he⟩
      · rw [he]
        exact h.drop hu hg (Or.inl ⟨rfl, hz⟩) (Or.inl ⟨rfl, rfl⟩) rfl (by simp) rfl (by simp)
      · rw [he]
        exact h.collect hu hg rfl (by simp [Tycho.MsgBuffer.collect]) rfl (by simp [Tycho.MsgBuffer.collect]) rfl rfl rfl rfl
  | «open» sid => exact ⟨h.keys, h.moved, h.int, h.ext, h.minExt, h.total, h.count, h.collected⟩
  | close sid s hs h0 => exact ⟨h.keys, h.moved, h.int, h.ext, h.minExt, h.total, h.count, h.collected⟩

end Tycho.MsgBuffer
