import Verif.MsgBuffer.Visit

/-! ## The two passes over slots -/
namespace Tycho.MsgBuffer

open Tycho.Table

/-- A slot that needs no more visits: it is in use, its accounts are drained if it has room, and in this case no account is left to visit. -/
def Closed (p : Params) (st : Fill) (todo : List Acc) (j : Nat) : Prop :=
  ∃ s, get st.slots j = some s ∧ s.count ≠ 0 ∧ (s.count < p.vert → todo = []) ∧ Own p st j

theorem Own.frame {p : Params} {st st' : Fill} {j : Nat} (h : Own p st j) (hs : Steps p st st') (he : get st'.slots j = get st.slots j) : Own p st' j := by
  have e : slotAt st' j = slotAt st j := by unfold slotAt; rw [he]
  intro hlt a ha
  rw [e] at hlt ha
  exact (h hlt a ha).steps hs

structure NewPre (p : Params) (n : Nat) (sid rem : Nat) (nf : List Nat) (todo : List Acc) (used : List Nat) (st : Fill) : Prop where
  sinv : SInv p.vert st
  slot : (get st.slots sid = none ∧ (∀ l, st.last = some l → l < sid) ∧ st.slots.length + rem + 1 = n) ∨
    (rem = 0 ∧ st.slots.length = n ∧ sid ∈ used ∧ ∃ s, get st.slots sid = some s ∧ 0 < s.count ∧ s.count < p.vert)
  open_ : ∀ j ∈ nf, j ∈ used ∧ ∃ s, get st.slots j = some s ∧ 0 < s.count ∧ s.count < p.vert
  nodup : nf.Nodup
  notin : sid ∉ nf
  using_ : ∀ j ∈ used, (∃ s, get st.slots j = some s ∧ s.count ≠ 0 ∧ (s.count < p.vert → j ∈ nf ∨ j = sid ∨ todo = [])) ∧ Own p st j

theorem fillNew_spec {p : Params} (hv : 0 < p.vert) {n : Nat} (fuel sid rem : Nat) (nf : List Nat) (todo : List Acc) (used : List Nat) (st : Fill)
    (h : NewPre p n sid rem nf todo used st) (hf : rem + 2 * todo.length + nf.length < fuel) :
    ∃ st' todo' used' done, fillNew p fuel sid rem nf todo used st = some (st', todo', used') ∧ Steps p st st' ∧ todo = done ++ todo' ∧
      (∀ a ∈ done, Settled p st' a) ∧ (∀ j ∈ used', Closed p st' todo' j) ∧ (∀ j, j ∉ used' → get st'.slots j = get st.slots j) ∧
      st'.slots.length ≤ n ∧ (st'.slots.length < n → todo' = []) ∧ ∀ j ∈ used, j ∈ used' := by
  induction fuel generalizing sid rem nf todo used st with
  | zero => omega
  | succ fuel ih =>
    -- the slot is opened
    have hopen : Steps p st (openSlot st sid) := .single (Micro.open st sid)
    have hs1 : SInv p.vert (openSlot st sid) := h.sinv.steps hopen
    have hframe1 : ∀ j, j ≠ sid → get (openSlot st sid).slots j = get st.slots j := by
      intro j hj
      show get (match get st.slots sid with | some _ => _ | none => _) j = _
      split
      · rfl
      · rw [get_put, if_neg hj]
    have hlen1 : (openSlot st sid).slots.length = if get st.slots sid = none then st.slots.length + 1 else st.slots.length := by
      show (match get st.slots sid with | some _ => _ | none => _ : Table Nat Slot).length = _
      cases hg : get st.slots sid with
      | none => simp only [if_true]; rw [put_new hg, List.length_cons]
      | some s => simp
    have hctx1 : Ctx (openSlot st sid) sid ((slotAt (openSlot st sid) sid).int, (slotAt (openSlot st sid) sid).ext) := by
      cases hg : get (openSlot st sid).slots sid with
      | some s => exact ⟨s, hg, fun _ => by rw [slotAt_of hg]⟩
      | none =>
        exfalso
        have : get (match get st.slots sid with | some _ => st.slots | none => put st.slots sid Slot.empty) sid = none := hg
        split at this
        · rename_i s hs; rw [hs] at this; cases this
        · rw [get_put, if_pos rfl] at this; cases this
    have hslot1 : slotAt (openSlot st sid) sid = slotAt st sid := by
      unfold slotAt
      show (get (match get st.slots sid with | some _ => st.slots | none => put st.slots sid Slot.empty) sid).getD _ = _
      cases hg : get st.slots sid with
      | some s => simp only [hg]
      | none => simp only; rw [get_put, if_pos rfl]; rfl
    have hcap : (slotAt (openSlot st sid) sid).count < p.vert := by
      rw [hslot1]
      rcases h.slot with ⟨hn, _⟩ | ⟨_, _, _, s, hs, _, hlt⟩
      · unfold slotAt; rw [hn]; exact hv
      · rw [slotAt_of hs]; exact hlt
    have hown1 : Own p (openSlot st sid) sid := by
      rcases h.slot with ⟨hn, _⟩ | ⟨_, _, hu, _⟩
      · intro _ a ha
        rw [hslot1] at ha; unfold slotAt at ha; rw [hn] at ha
        cases ha
      · have := (h.using_ sid hu).2
        intro hlt a ha
        rw [hslot1] at hlt ha
        exact (this hlt a ha).steps hopen
    obtain ⟨st2, todo2, b, done, e, v, hd, hset, hor⟩ := visitNew_spec todo (openSlot st sid) hs1 hctx1 hcap
    have hst2 : Steps p st st2 := hopen.trans v.steps
    have hs2 : SInv p.vert st2 := h.sinv.steps hst2
    have hframe2 : ∀ j, j ≠ sid → get st2.slots j = get st.slots j := fun j hj => (v.only.frame j hj).trans (hframe1 j hj)
    obtain ⟨s2, hg2, _⟩ := v.ctx
    have hsa2 := slotAt_of hg2
    have hlen2 : st2.slots.length = if get st.slots sid = none then st.slots.length + 1 else st.slots.length := v.only.length.trans hlen1
    have hstep : fillNew p (fuel + 1) sid rem nf todo used st =
        if (slotAt st2 sid).count = 0 then some ({ st2 with slots := del st2.slots (fun j => decide (j = sid)) }, todo2, used)
        else if 0 < rem then fillNew p fuel (sid + 1) (rem - 1) (if b then nf ++ [sid] else nf) todo2 (sid :: used) st2
        else match (if b then nf ++ [sid] else nf) with
          | s :: rest => fillNew p fuel s 0 rest todo2 (sid :: used) st2
          | [] => some (st2, todo2, sid :: used) := by
      conv_lhs => unfold fillNew
      simp only [e]
      rfl
    have husedne : get st.slots sid = none → ∀ j ∈ used, j ≠ sid := by
      rintro hn j hj rfl
      obtain ⟨⟨s, hs, _⟩, _⟩ := h.using_ j hj
      rw [hn] at hs; cases hs
    by_cases h0 : (slotAt st2 sid).count = 0
    · -- nothing was found for a fresh slot
      rw [if_pos h0] at hstep
      rcases hor with ⟨ht, hb, hsl⟩ | ⟨_, hpos, _⟩
      · rcases h.slot with ⟨hn, hlast, hlen⟩ | ⟨_, _, _, s, hs, hpos, _⟩
        · have hst3 : Steps p st { st2 with slots := del st2.slots (fun j => decide (j = sid)) } :=
            hst2.trans (.single (Micro.close st2 sid s2 hg2 (by rw [← hsa2]; exact h0)))
          have hfr3 : ∀ j, j ≠ sid → get (del st2.slots (fun j => decide (j = sid))) j = get st.slots j := by
            intro j hj
            rw [get_del, if_neg (by simpa using hj)]
            exact hframe2 j hj
          have hlen3 := (sum_del hs2.uniq Slot.int hg2).2
          rw [if_pos hn] at hlen2
          refine ⟨_, todo2, used, done, hstep, hst3, hd, ?_, ?_, ?_, ?_, fun _ => ht, fun j hj => hj⟩
          · intro a ha
            exact (hset a ha).steps (.single (Micro.close st2 sid s2 hg2 (by rw [← hsa2]; exact h0)))
          · intro j hj
            obtain ⟨⟨s, hs, hc, _⟩, ho⟩ := h.using_ j hj
            have hjs := husedne hn j hj
            exact ⟨s, (hfr3 j hjs).trans hs, hc, fun _ => ht, ho.frame hst3 (hfr3 j hjs)⟩
          · intro j _
            by_cases hjs : j = sid
            · subst hjs
              show get (del st2.slots (fun x => decide (x = j))) j = _
              rw [get_del, if_pos (by simp), hn]
            · exact hfr3 j hjs
          · show (del st2.slots (fun j => decide (j = sid))).length ≤ n
            omega
        · exfalso
          rw [hsl, hslot1, slotAt_of hs] at h0
          omega
      · omega
    · rw [if_neg h0] at hstep
      have hb : ∀ j, j ∈ (if b then nf ++ [sid] else nf) ↔ j ∈ nf ∨ (b = true ∧ j = sid) := by
        intro j; cases b <;> simp
      have hF1 : ∀ j ∈ (if b then nf ++ [sid] else nf), j ∈ sid :: used ∧ ∃ s, get st2.slots j = some s ∧ 0 < s.count ∧ s.count < p.vert := by
        intro j hj
        rcases (hb j).1 hj with hj' | ⟨hbt, rfl⟩
        · obtain ⟨hju, s, hs, h1, h2⟩ := h.open_ j hj'
          have hjs : j ≠ sid := by intro he; rw [he] at hj'; exact h.notin hj'
          exact ⟨List.mem_cons_of_mem _ hju, s, (hframe2 j hjs).trans hs, h1, h2⟩
        · refine ⟨by simp, s2, hg2, by rw [← hsa2]; omega, ?_⟩
          rcases hor with ⟨_, hbf, _⟩ | ⟨_, _, hbd⟩
          · rw [hbt] at hbf; cases hbf
          · rw [hbt] at hbd
            rw [← hsa2]
            exact of_decide_eq_true hbd.symm
      have hF2 : (if b then nf ++ [sid] else nf).Nodup := by
        cases b
        · exact h.nodup
        · simp only [if_true]
          rw [List.nodup_append]
          refine ⟨h.nodup, by simp, ?_⟩
          intro x hx y hy
          rw [List.mem_singleton] at hy
          subst hy
          rintro rfl
          exact h.notin hx
      have hF3 : ∀ j ∈ sid :: used, (∃ s, get st2.slots j = some s ∧ s.count ≠ 0 ∧ (s.count < p.vert → j ∈ (if b then nf ++ [sid] else nf) ∨ todo2 = [])) ∧
          Own p st2 j := by
        intro j hj
        by_cases hjs : j = sid
        · subst hjs
          refine ⟨⟨s2, hg2, by rw [← hsa2]; exact h0, ?_⟩, v.own hown1⟩
          intro hlt
          rcases hor with ⟨ht, _, _⟩ | ⟨_, _, hbd⟩
          · exact Or.inr ht
          · left
            rw [hb]
            right
            refine ⟨?_, rfl⟩
            rw [hbd, hsa2]
            exact decide_eq_true hlt
        · obtain ⟨⟨s, hs, hc, hor2⟩, ho⟩ := h.using_ j ((List.mem_cons.1 hj).resolve_left hjs)
          refine ⟨⟨s, (hframe2 j hjs).trans hs, hc, ?_⟩, ho.frame hst2 (hframe2 j hjs)⟩
          intro hlt
          rcases hor2 hlt with h1 | h1 | h1
          · exact Or.inl ((hb j).2 (Or.inl h1))
          · exact absurd h1 hjs
          · right
            rw [h1] at hd
            exact (List.append_eq_nil_iff.1 hd.symm).2
      have hmeas : 2 * todo2.length + (if b then nf ++ [sid] else nf).length ≤ 2 * todo.length + nf.length := by
        have hl : todo.length = done.length + todo2.length := by rw [hd, List.length_append]
        rcases hor with ⟨ht, hbf, _⟩ | ⟨hdn, _, _⟩
        · rw [hbf]; simp only [Bool.false_eq_true, if_false]; omega
        · have := List.length_pos_iff.2 hdn
          cases b
          · simp only [Bool.false_eq_true, if_false]; omega
          · simp only [if_true, List.length_append, List.length_singleton]; omega
      have finishIH : ∀ (r : Option (Fill × List Acc × List Nat)), fillNew p (fuel + 1) sid rem nf todo used st = r →
          (∃ st' todo' used' done', r = some (st', todo', used') ∧ Steps p st2 st' ∧ todo2 = done' ++ todo' ∧
            (∀ a ∈ done', Settled p st' a) ∧ (∀ j ∈ used', Closed p st' todo' j) ∧ (∀ j, j ∉ used' → get st'.slots j = get st2.slots j) ∧
            st'.slots.length ≤ n ∧ (st'.slots.length < n → todo' = []) ∧ ∀ j ∈ sid :: used, j ∈ used') →
          ∃ st' todo' used' done, fillNew p (fuel + 1) sid rem nf todo used st = some (st', todo', used') ∧ Steps p st st' ∧ todo = done ++ todo' ∧
            (∀ a ∈ done, Settled p st' a) ∧ (∀ j ∈ used', Closed p st' todo' j) ∧ (∀ j, j ∉ used' → get st'.slots j = get st.slots j) ∧
            st'.slots.length ≤ n ∧ (st'.slots.length < n → todo' = []) ∧ ∀ j ∈ used, j ∈ used' := by
        rintro r hr ⟨st', todo', used', done', e1, e2, e3, e4, e5, e6, e7, e8, e9⟩
        refine ⟨st', todo', used', done ++ done', hr.trans e1, hst2.trans e2, by rw [hd, e3, List.append_assoc], ?_, e5, ?_, e7, e8,
          fun j hj => e9 j (List.mem_cons_of_mem _ hj)⟩
        · intro a ha
          rcases List.mem_append.1 ha with ha | ha
          · exact (hset a ha).steps e2
          · exact e4 a ha
        · intro j hj
          rw [e6 j hj]
          apply hframe2
          rintro rfl
          exact hj (e9 j (by simp))
      by_cases hrem : 0 < rem
      · rw [if_pos hrem] at hstep
        refine finishIH _ hstep ?_
        rcases h.slot with ⟨hn, hlast, hlen⟩ | ⟨hr0, _⟩
        · rw [if_pos hn] at hlen2
          have hl2 : ∀ l, st2.last = some l → l < sid + 1 := by
            intro l hl
            rw [v.only.last] at hl
            have hl' : some (match st.last with | some l => max l sid | none => sid) = some l := hl
            cases hla : st.last with
            | none => rw [hla] at hl'; simp only [Option.some.injEq] at hl'; omega
            | some l0 =>
              rw [hla] at hl'
              have := hlast l0 hla
              simp only [Option.some.injEq] at hl'
              omega
          have hnone : get st2.slots (sid + 1) = none := by
            cases hg : get st2.slots (sid + 1) with
            | none => rfl
            | some s =>
              obtain ⟨l, hl, hle⟩ := hs2.last _ _ hg
              have := hl2 l hl
              omega
          refine ih (sid + 1) (rem - 1) _ todo2 (sid :: used) st2 ⟨hs2, Or.inl ⟨hnone, hl2, by omega⟩, hF1, hF2, ?_, ?_⟩ (by omega)
          · intro hm
            obtain ⟨_, s, hs, _⟩ := hF1 _ hm
            rw [hnone] at hs; cases hs
          · intro j hj
            obtain ⟨⟨s, hs, hc, hor2⟩, ho⟩ := hF3 j hj
            refine ⟨⟨s, hs, hc, fun hlt => ?_⟩, ho⟩
            rcases hor2 hlt with h1 | h1
            · exact Or.inl h1
            · exact Or.inr (Or.inr h1)
        · omega
      · rw [if_neg hrem] at hstep
        have hlenN : st2.slots.length = n := by
          rcases h.slot with ⟨hn, _, hlen⟩ | ⟨_, hlen, _, s, hs, _⟩
          · rw [hlen2, if_pos hn]; omega
          · rw [hlen2, if_neg (by rw [hs]; simp)]; exact hlen
        cases hnf : (if b then nf ++ [sid] else nf) with
        | nil =>
          rw [hnf] at hstep
          refine finishIH _ hstep ⟨st2, todo2, sid :: used, [], rfl, .refl, rfl, by simp, ?_, fun _ _ => rfl, by omega, fun h => by omega, fun j hj => hj⟩
          intro j hj
          obtain ⟨⟨s, hs, hc, hor2⟩, ho⟩ := hF3 j hj
          refine ⟨s, hs, hc, fun hlt => ?_, ho⟩
          rcases hor2 hlt with h1 | h1
          · rw [hnf] at h1; cases h1
          · exact h1
        | cons s rest =>
          rw [hnf] at hstep hmeas hF1 hF2
          simp only [List.length_cons] at hmeas
          refine finishIH _ hstep (ih s 0 rest todo2 (sid :: used) st2 ⟨hs2, Or.inr ?_, ?_, (List.nodup_cons.1 hF2).2, (List.nodup_cons.1 hF2).1, ?_⟩ (by omega))
          · obtain ⟨h1, h2⟩ := hF1 s (by simp)
            exact ⟨rfl, hlenN, h1, h2⟩
          · intro j hj; exact hF1 j (by simp [hj])
          · intro j hj
            obtain ⟨⟨s', hs', hc, hor2⟩, ho⟩ := hF3 j hj
            refine ⟨⟨s', hs', hc, fun hlt => ?_⟩, ho⟩
            rcases hor2 hlt with h1 | h1
            · rw [hnf] at h1
              rcases List.mem_cons.1 h1 with h1 | h1
              · exact Or.inr (Or.inl h1)
              · exact Or.inl h1
            · exact Or.inr (Or.inr h1)

/-! ### Second pass -/

theorem Closed.frame {p : Params} {st st' : Fill} {todo todo' done : List Acc} {j : Nat} (h : Closed p st todo j) (hs : Steps p st st')
    (he : get st'.slots j = get st.slots j) (hd : todo = done ++ todo') : Closed p st' todo' j := by
  obtain ⟨s, h1, h2, h3, h4⟩ := h
  refine ⟨s, he.trans h1, h2, fun hlt => ?_, h4.frame hs he⟩
  have := h3 hlt
  rw [this] at hd
  exact (List.append_eq_nil_iff.1 hd.symm).2

theorem fillSlot_spec {p : Params} {st : Fill} (hs : SInv p.vert st) {sid : Nat} {s : Slot} (hg : get st.slots sid = some s) (h0 : s.count ≠ 0)
    (todo : List Acc) : ∃ st' todo' done, fillSlot p sid s todo st = (st', todo') ∧ Steps p st st' ∧ Only sid st st' ∧ todo = done ++ todo' ∧
      (∀ a ∈ done, Settled p st' a) ∧ Closed p st' todo' sid := by
  have hsa := slotAt_of hg
  have hc : Ctx st sid (s.int, s.ext) := ⟨s, hg, fun _ => rfl⟩
  obtain ⟨h1, h2, h3, h4, h5⟩ := visitOwn_spec s.accounts st hs hc (by rw [hsa]; exact fun _ h => h)
  obtain ⟨s1, hg1, _⟩ := id h2
  have hsa1 := slotAt_of hg1
  have hcount := h3.count
  rw [hsa] at hcount
  unfold fillSlot
  simp only
  split
  · rename_i hfull
    refine ⟨_, todo, [], rfl, h1, h3, rfl, by simp, s1, hg1, ?_, fun hlt => ?_, fun hlt => ?_⟩
    · rw [← hsa1]; omega
    · rw [← hsa1] at hlt; omega
    · omega
  · rename_i hroom
    obtain ⟨st', todo', done, e, v, hd, hset, hend⟩ := visitFill_spec todo _ (hs.steps h1) h2 (by omega)
    obtain ⟨s2, hg2, _⟩ := v.ctx
    have hsa2 := slotAt_of hg2
    have hc2 := v.only.count
    refine ⟨st', todo', done, e, h1.trans v.steps, h3.trans v.only, hd, hset, s2, hg2, ?_, fun hlt => hend (by rw [hsa2]; exact hlt), ?_⟩
    · rw [← hsa2]; omega
    · apply v.own
      intro hlt a ha
      exact h4 hlt a (by have := h5 a ha; rwa [hsa] at this)

theorem fillOld_spec {p : Params} {used : List Nat} (ids : List Nat) (todo : List Acc) (st : Fill) (hs : SInv p.vert st)
    (hids : ∀ j ∈ ids, ∃ s, get st.slots j = some s ∧ s.count ≠ 0) (z : List Nat) (hz : ∀ j ∈ z, Closed p st todo j) (hu : ∀ j ∈ used, j ∈ z) :
    ∃ st' todo' done, fillOld p used ids todo st = some (st', todo') ∧ Steps p st st' ∧ todo = done ++ todo' ∧ (∀ a ∈ done, Settled p st' a) ∧
      st'.slots.length = st.slots.length ∧ (∀ j ∈ z ++ ids, Closed p st' todo' j) ∧ ∀ j, j ∉ ids → get st'.slots j = get st.slots j := by
  induction ids generalizing todo st z with
  | nil => exact ⟨st, todo, [], rfl, .refl, rfl, by simp, rfl, by simpa using hz, fun _ _ => rfl⟩
  | cons sid ids ih =>
    by_cases hin : sid ∈ used
    · obtain ⟨st', todo', done, e, h1, h2, h3, h4, h5, h6⟩ := ih todo st hs (fun j hj => hids j (by simp [hj])) z hz hu
      refine ⟨st', todo', done, ?_, h1, h2, h3, h4, ?_, fun j hj => h6 j (fun h => hj (by simp [h]))⟩
      · conv_lhs => unfold fillOld
        rw [if_pos hin]; exact e
      · intro j hj
        rcases List.mem_append.1 hj with hj | hj
        · exact h5 j (by simp [hj])
        · rcases List.mem_cons.1 hj with rfl | hj
          · exact h5 j (by simp [hu j hin])
          · exact h5 j (by simp [hj])
    · obtain ⟨s, hg, h0⟩ := hids sid (by simp)
      obtain ⟨st1, todo1, done1, e1, s1, o1, d1, set1, c1⟩ := fillSlot_spec hs hg h0 todo
      have hz1 : ∀ j ∈ sid :: z, Closed p st1 todo1 j := by
        intro j hj
        by_cases hjs : j = sid
        · subst hjs; exact c1
        · exact (hz j ((List.mem_cons.1 hj).resolve_left hjs)).frame s1 (o1.frame j hjs) d1
      have hids1 : ∀ j ∈ ids, ∃ s, get st1.slots j = some s ∧ s.count ≠ 0 := by
        intro j hj
        by_cases hjs : j = sid
        · subst hjs
          obtain ⟨s', hs', hc', _⟩ := c1
          exact ⟨s', hs', hc'⟩
        · rw [o1.frame j hjs]; exact hids j (by simp [hj])
      obtain ⟨st', todo', done, e, h1, h2, h3, h4, h5, h6⟩ := ih todo1 st1 (hs.steps s1) hids1 (sid :: z) hz1 (fun j hj => by simp [hu j hj])
      refine ⟨st', todo', done1 ++ done, ?_, s1.trans h1, by rw [d1, h2, List.append_assoc], ?_, h4.trans o1.length, ?_, ?_⟩
      · conv_lhs => unfold fillOld
        rw [if_neg hin, hg]
        simp only [e1]
        exact e
      · intro a ha
        rcases List.mem_append.1 ha with ha | ha
        · exact (set1 a ha).steps h1
        · exact h3 a ha
      · intro j hj
        apply h5
        simp only [List.mem_append, List.mem_cons] at hj ⊢
        rcases hj with h | h | h
        · exact Or.inl (Or.inr h)
        · exact Or.inl (Or.inl h)
        · exact Or.inr h
      · intro j hj
        rw [h6 j (fun h => hj (by simp [h]))]
        apply o1.frame
        rintro rfl
        exact hj (by simp)

end Tycho.MsgBuffer
