import Verif.Validator.Inv

/-! ## Every step keeps the invariants -/
namespace Tycho.Validator

open Tycho.Table

theorem createSlots_same (st : St) (f n : Nat) : ∃ a b d, createSlots st f n = { st with cache := a, caches := b, ncaches := d } := by
  unfold createSlots
  generalize List.range n = l
  induction l generalizing st with
  | nil => exact ⟨_, _, _, rfl⟩
  | cons i l ih =>
    simp only [List.foldl_cons]
    split
    · split
      · exact ih st
      · obtain ⟨a, b, d, h⟩ := ih { st with cache := put st.cache (f + i) st.ncaches, caches := fun j => if j = st.ncaches then fun _ => none else st.caches j, ncaches := st.ncaches + 1 }
        exact ⟨a, b, d, by rw [h]⟩
    · exact ih st

theorem setObj_self (st : St) (o : Nat) (b : Obj) : (setObj st o b).objs o = b := by simp [setObj]
theorem setObj_ne (st : St) {o j : Nat} (b : Obj) (h : j ≠ o) : (setObj st o b).objs j = st.objs j := by simp [setObj, h]

/-- An object is changed without a change of its block. -/
theorem Shared.setObj {c : Cfg} {st : St} (h : Shared c st) {o : Nat} {b : Obj} (hb : b.block = (st.objs o).block) (hok : ObjOk c st.cancelledUntil b) :
    Shared c (setObj st o b) := by
  have hblk : ∀ j, ((Validator.setObj st o b).objs j).block = (st.objs j).block := by
    intro j
    by_cases hj : j = o
    · subst hj; rw [setObj_self]; exact hb
    · rw [setObj_ne _ _ hj]
  refine ⟨?_, ?_, ?_, ?_, h.sess⟩
  · intro j hj
    by_cases hjo : j = o
    · subst hjo; rw [setObj_self]; exact hok
    · rw [setObj_ne _ _ hjo]; exact h.obj j hj
  · intro n j hj; rw [hblk]; exact h.blocks n j hj
  · intro j hj hc; rw [hblk] at hc ⊢; exact h.live j hj hc
  · intro x hx
    obtain ⟨j, h1, h2⟩ := h.exposed x hx
    exact ⟨j, h1, by rw [hblk]; exact h2⟩

theorem Le.setObj {st : St} {o : Nat} {b : Obj} (hb : b.block = (st.objs o).block) (hs : ∀ p s, (st.objs o).slots p = some s → b.slots p = some s)
    (ht : (st.objs o).total ≤ b.total) (hc : (st.objs o).cancelled = true → b.cancelled = true)
    (hp : (st.objs o).passed = true → b.passed = true) : Le st (setObj st o b) := by
  refine ⟨Nat.le_refl _, ?_, ?_, ?_, ?_, ?_, Nat.le_refl _⟩
  · intro j _
    by_cases hj : j = o
    · subst hj; rw [setObj_self]; exact hb
    · rw [setObj_ne _ _ hj]
  · intro j p s _ h
    by_cases hj : j = o
    · subst hj; rw [setObj_self]; exact hs p s h
    · rw [setObj_ne _ _ hj]; exact h
  · intro j _
    by_cases hj : j = o
    · subst hj; rw [setObj_self]; exact ht
    · rw [setObj_ne _ _ hj]
  · intro j _ h
    by_cases hj : j = o
    · subst hj; rw [setObj_self]; exact hc h
    · rw [setObj_ne _ _ hj]; exact h
  · intro j _ h
    by_cases hj : j = o
    · subst hj; rw [setObj_self]; exact hp h
    · rw [setObj_ne _ _ hj]; exact h

/-- What one step of `add_signature` does. -/
structure AddStep (c : Cfg) (st : St) (o : Nat) (p : Peer) (s : Sig) (a : Add) (r : St × (Add ⊕ AddRes)) : Prop where
  le : Le st r.1
  shared : Shared c r.1
  tasks : r.1.tasks = st.tasks
  counted : ∀ o' p', (r.1.objs o').counted p' = true → (st.objs o').counted p' = true ∨ (a = .count ∧ o' = o ∧ p' = p)
  next : ∀ a', r.2 = .inl a' → AddOk c r.1 o p s a'
  ok : r.2 = .inr .ok → (r.1.objs o).slots p = some s
  fresh : r.2 = .inl .count → (st.objs o).slots p = none ∧ (r.1.objs o).counted p = false

theorem addStep_ok {c : Cfg} {st : St} (hs : Shared c st) (hn : c.peers.Nodup) {o : Nat} {p : Peer} {s : Sig} {a : Add} (ho : o < st.nobjs) (hp : p ∈ c.peers)
    (ha : AddOk c st o p s a) (hc : a = .count → (st.objs o).counted p = false) : AddStep c st o p s a (addStep c st o p s a) := by
  have hob := hs.obj o ho
  cases a with
  | load =>
    cases hsl : (st.objs o).slots p with
    | none =>
      simp only [addStep, hsl]
      exact ⟨Le.refl _, hs, rfl, fun _ _ h => Or.inl h, fun a' h => by cases h; trivial, fun h => by (cases h), fun h => by (cases h)⟩
    | some s' =>
      simp only [addStep, hsl]
      refine ⟨Le.refl _, hs, rfl, fun _ _ h => Or.inl h, fun a' h => by (cases h), fun h => ?_, fun h => by (cases h)⟩
      by_cases he : s' = s
      · rw [← he]; exact hsl
      · simp [he] at h
  | check =>
    simp only [addStep]
    refine ⟨Le.refl _, hs, rfl, fun _ _ h => Or.inl h, fun a' h => ?_, fun h => ?_, fun h => ?_⟩
    · split at h
      · next hv => cases h; exact hv
      · cases h
    · split at h <;> cases h
    · split at h <;> cases h
  | cas =>
    cases hsl : (st.objs o).slots p with
    | none =>
      simp only [addStep, hsl]
      have hcf : (st.objs o).counted p = false := by
        cases hcc : (st.objs o).counted p with
        | false => rfl
        | true => have := hob.counted p hcc; rw [hsl] at this; cases this
      refine ⟨Le.setObj rfl (fun q s' h => ?_) (Nat.le_refl _) (fun h => h) (fun h => h), hs.setObj rfl ⟨?_, ?_, hob.total, hob.sealed, hob.cancelled⟩, rfl, fun o' p' h => ?_, fun a' h => ?_, fun h => by (cases h), fun h => ⟨hsl, ?_⟩⟩
      · show (if q = p then some s else (st.objs o).slots q) = some s'
        by_cases hq : q = p
        · subst hq; rw [hsl] at h; cases h
        · rw [if_neg hq]; exact h
      · intro q s' h
        change (if q = p then some s else (st.objs o).slots q) = some s' at h
        by_cases hq : q = p
        · rw [if_pos hq] at h; cases h; rw [hq]; exact ⟨hp, ha⟩
        · rw [if_neg hq] at h; exact hob.valid q s' h
      · intro q h
        show (if q = p then some s else (st.objs o).slots q).isSome
        by_cases hq : q = p
        · rw [if_pos hq]; rfl
        · rw [if_neg hq]; exact hob.counted q h
      · left
        by_cases ho' : o' = o
        · subst ho'; rw [setObj_self] at h; exact h
        · rw [setObj_ne _ _ ho'] at h; exact h
      · cases h
        show ((setObj st o _).objs o).slots p = some s
        rw [setObj_self]; simp
      · rw [setObj_self]; exact hcf
    | some s' =>
      simp only [addStep, hsl]
      refine ⟨Le.refl _, hs, rfl, fun _ _ h => Or.inl h, fun a' h => ?_, fun h => ?_, fun h => ?_⟩
      · split at h
        · next he => cases h; exact ⟨by rw [← he]; exact hsl, fun h => by (cases h)⟩
        · cases h
      · split at h <;> cases h
      · split at h <;> cases h
  | count =>
    have hcf := hc rfl
    simp only [addStep]
    refine ⟨Le.setObj rfl (fun q s' h => h) (Nat.le_add_right _ _) (fun h => h) (fun h => h), hs.setObj rfl ⟨hob.valid, ?_, ?_, ?_, hob.cancelled⟩, rfl, fun o' p' h => ?_, fun a' h => ?_, fun h => by (cases h), fun h => by (cases h)⟩
    · intro q h
      change (if q = p then true else (st.objs o).counted q) = true at h
      show ((st.objs o).slots q).isSome
      by_cases hq : q = p
      · have ha' : (st.objs o).slots p = some s := ha
        rw [hq, ha']; rfl
      · rw [if_neg hq] at h; exact hob.counted q h
    · show (st.objs o).total + c.weight p = c.ownWeight + wsum c (fun q => if q = p then true else (st.objs o).counted q)
      rw [wsum_add hn hp hcf, hob.total]; omega
    · intro h
      have := hob.sealed h
      show c.threshold ≤ (st.objs o).total + c.weight p
      omega
    · by_cases ho' : o' = o
      · subst ho'
        rw [setObj_self] at h
        change (if p' = p then true else (st.objs o').counted p') = true at h
        by_cases hq : p' = p
        · exact Or.inr ⟨rfl, rfl, hq⟩
        · rw [if_neg hq] at h; exact Or.inl h
      · rw [setObj_ne _ _ ho'] at h; exact Or.inl h
    · cases h
      refine ⟨?_, fun h => ?_⟩
      · show ((setObj st o _).objs o).slots p = some s
        rw [setObj_self]; exact ha
      · show c.threshold ≤ ((setObj st o _).objs o).total
        rw [setObj_self]; exact of_decide_eq_true h
  | mark can =>
    cases can with
    | false =>
      simp only [addStep]
      exact ⟨Le.refl _, hs, rfl, fun _ _ h => Or.inl h, fun a' h => by (cases h), fun _ => ha.1, fun h => by (cases h)⟩
    | true =>
      simp only [addStep, if_true]
      refine ⟨Le.setObj rfl (fun q s' h => h) (Nat.le_refl _) (fun h => h) (fun h => h), hs.setObj rfl ⟨hob.valid, hob.counted, hob.total, fun _ => ha.2 rfl, hob.cancelled⟩, rfl, fun o' p' h => ?_, fun a' h => by (cases h), fun _ => ?_, fun h => by (cases h)⟩
      · left
        by_cases ho' : o' = o
        · subst ho'; rw [setObj_self] at h; exact h
        · rw [setObj_ne _ _ ho'] at h; exact h
      · rw [setObj_self]; exact ha.1

/-- A step of `add_signature` inside a task. -/
theorem Inv.add {c : Cfg} {st : St} (h : Inv c st) (hn : c.peers.Nodup) {t : Nat} {k0 : Task} (hk0 : st.tasks t = some k0) {o : Nat} {p : Peer} {s : Sig} {a : Add}
    (ho : o < st.nobjs) (hp : p ∈ c.peers) (ha : AddOk c st o p s a) (hcnt : a = .count → counting k0 = some (o, p)) {k : Task}
    (hr : ∀ o p, IsR o p k0 → IsR o p k) (hk : TaskOk c (setTask (addStep c st o p s a).1 t k) k)
    (hck : ∀ x, counting k = some x → x = (o, p) ∧ (addStep c st o p s a).2 = .inl .count) : Inv c (setTask (addStep c st o p s a).1 t k) := by
  have hA := addStep_ok h.shared hn ho hp ha (fun hc => h.cnt t k0 o p hk0 (hcnt hc))
  refine h.move t k hA.le hA.shared hA.tasks ?_ hk ?_ ?_
  · intro k1 h1; rw [hk0] at h1; cases h1; exact hr
  · intro o' p' _ hcc
    rcases hA.counted o' p' hcc with h1 | ⟨h1, h2, h3⟩
    · exact Or.inl h1
    · rw [h2, h3]; exact Or.inr ⟨k0, hk0, hcnt h1⟩
  · intro o' p' hc'
    obtain ⟨he, hr2⟩ := hck _ hc'
    cases he
    obtain ⟨h1, h2⟩ := hA.fresh hr2
    refine ⟨h2, ?_⟩
    intro t' k' hk' hcn
    exfalso
    have hok := h.task t' k' hk'
    cases k' with
    | rAdd p' o' s' a' =>
      cases a' <;> simp [counting] at hcn
      obtain ⟨e1, e2⟩ := hcn
      have h3 : (st.objs o').slots p' = some s' := hok.2
      rw [e1, e2, h1] at h3; cases h3
    | xAdd p' o' s' a' =>
      cases a' <;> simp [counting] at hcn
      obtain ⟨e1, e2⟩ := hcn
      have h3 : (st.objs o').slots p' = some s' := hok.2
      rw [e1, e2, h1] at h3; cases h3
    | _ => cases hcn

theorem CfgOk.peersNodup {c : Cfg} (h : CfgOk c) : c.peers.Nodup := (List.nodup_cons.1 h.nodup).2

/-- Only the fields the invariants look at. -/
theorem Shared.same {c : Cfg} {st st' : St} (h : Shared c st) (h1 : st'.objs = st.objs) (h2 : st'.nobjs = st.nobjs) (h3 : st'.blocks = st.blocks)
    (h4 : st'.cancelledUntil = st.cancelledUntil) (h5 : st'.cancelled = st.cancelled) (h6 : st'.exposed = st.exposed) : Shared c st' := by
  refine ⟨?_, ?_, ?_, ?_, ?_⟩
  · rw [h1, h2, h4]; exact h.obj
  · rw [h1, h2, h3]; exact h.blocks
  · rw [h1, h2, h3, h4]; exact h.live
  · rw [h1, h2, h6]; exact h.exposed
  · rw [h4, h5]; exact h.sess

theorem Le.same {st st' : St} (h1 : st'.objs = st.objs) (h2 : st'.nobjs = st.nobjs) (h4 : st'.cancelledUntil = st.cancelledUntil) : Le st st' := by
  refine ⟨by rw [h2], ?_, ?_, ?_, ?_, ?_, by rw [h4]⟩ <;> rw [h1]
  · exact fun _ _ => rfl
  · exact fun _ _ _ _ h => h
  · exact fun _ _ => Nat.le_refl _
  · exact fun _ _ h => h
  · exact fun _ _ h => h

/-- More is cancelled. -/
theorem Shared.until {c : Cfg} {st st' : St} (h : Shared c st) (h1 : st'.objs = st.objs) (h2 : st'.nobjs = st.nobjs) (h3 : st'.blocks = st.blocks)
    (h4 : st.cancelledUntil ≤ st'.cancelledUntil) (h5 : st'.cancelled = true → c.maxSeqno ≤ st'.cancelledUntil) (h6 : st'.exposed = st.exposed) : Shared c st' := by
  refine ⟨?_, ?_, ?_, ?_, h5⟩
  · rw [h1, h2]; intro o ho
    have := h.obj o ho
    exact ⟨this.valid, this.counted, this.total, this.sealed, fun hc => Nat.le_trans (this.cancelled hc) h4⟩
  · rw [h1, h2, h3]; exact h.blocks
  · rw [h1, h2, h3]; exact fun o ho hc => h.live o ho (Nat.lt_of_le_of_lt h4 hc)
  · rw [h1, h2, h6]; exact h.exposed

theorem Le.until {st st' : St} (h1 : st'.objs = st.objs) (h2 : st'.nobjs = st.nobjs) (h4 : st.cancelledUntil ≤ st'.cancelledUntil) : Le st st' := by
  refine ⟨by rw [h2], ?_, ?_, ?_, ?_, ?_, h4⟩ <;> rw [h1]
  · exact fun _ _ => rfl
  · exact fun _ _ _ _ h => h
  · exact fun _ _ => Nat.le_refl _
  · exact fun _ _ h => h
  · exact fun _ _ h => h

/-- A block of a cancelled seqno is removed. -/
theorem Shared.drop {c : Cfg} {st : St} (h : Shared c st) {n : Nat} (hn : n ≤ st.cancelledUntil) :
    Shared c { st with blocks := del st.blocks (fun m => decide (m = n)) } := by
  refine ⟨h.obj, ?_, ?_, h.exposed, h.sess⟩
  · intro m o hm
    rw [show ({ st with blocks := del st.blocks (fun m => decide (m = n)) } : St).blocks = del st.blocks (fun m => decide (m = n)) from rfl, get_del] at hm
    split at hm
    · cases hm
    · exact h.blocks m o hm
  · intro o ho hc
    show get (del st.blocks (fun m => decide (m = n))) _ = some o
    rw [get_del, if_neg]
    · exact h.live o ho hc
    · intro he
      have he := of_decide_eq_true he
      change st.cancelledUntil < c.seqno (st.objs o).block at hc
      rw [he] at hc; omega

theorem ResOk.start {c : Cfg} (b : BlockId) : ResOk c b c.peers [(c.own, c.sign b)] c.ownWeight := by
  refine ⟨?_, ?_, ?_, by simp⟩
  · intro e he
    rw [List.mem_singleton] at he
    subst he; exact Or.inl ⟨rfl, rfl⟩
  · exact List.Perm.refl _
  · simp [weightOf]

theorem ResOk.push {c : Cfg} (hn : (c.own :: c.peers).Nodup) {b : BlockId} {rest rest' : List Peer} {res : List (Peer × Sig)} {w : Nat} (h : ResOk c b rest res w) {p : Peer} {s : Sig}
    (hp : rest.Perm (p :: rest')) (hpp : p ∈ c.peers) (hv : c.verify p b s = true) : ResOk c b rest' (res ++ [(p, s)]) (w + c.weight p) := by
  have hne : p ≠ c.own := by
    rintro rfl
    exact (List.nodup_cons.1 hn).1 hpp
  refine ⟨?_, ?_, ?_, by rw [List.map_append]; exact List.mem_append_left _ h.own⟩
  · intro e he
    rw [List.mem_append, List.mem_singleton] at he
    rcases he with he | rfl
    · exact h.valid e he
    · exact Or.inr ⟨hpp, hv⟩
  · rw [List.map_append, List.append_assoc]
    exact (List.Perm.append_left _ hp.symm).trans h.perm
  · rw [List.map_append, List.map_append, List.sum_append, ← h.weight]
    simp [weightOf, hne]

theorem ResOk.mem {c : Cfg} {b : BlockId} {rest : List Peer} {res : List (Peer × Sig)} {w : Nat} (h : ResOk c b rest res w) (hn : (c.own :: c.peers).Nodup) {p : Peer} (hp : p ∈ rest) : p ∈ c.peers := by
  have h1 : p ∈ c.own :: c.peers := h.perm.subset (List.mem_append_right _ hp)
  rcases List.mem_cons.1 h1 with h2 | h2
  · have h3 := h.perm.nodup_iff.2 hn
    exact absurd hp (fun hp => (List.nodup_append.1 h3).2.2 c.own h.own p hp h2.symm)
  · exact h2

end Tycho.Validator
