import Verif.Validator.Spec
import Mathlib.Data.List.Nodup
import Mathlib.Algebra.BigOperators.Group.List.Basic
import Mathlib.Algebra.Order.BigOperators.Group.List

/-! ## Invariants of a session -/
namespace Tycho.Validator

open Tycho.Table

/-- Weight of the peers that satisfy `f`. -/
def wsum (c : Cfg) (f : Peer → Bool) : Nat := ((c.peers.filter f).map c.weight).sum

theorem wsum_congr {c : Cfg} {f g : Peer → Bool} (h : ∀ p ∈ c.peers, f p = g p) : wsum c f = wsum c g := by
  unfold wsum; rw [List.filter_congr h]

theorem wsum_add_aux (w : Peer → Nat) (l : List Peer) (hn : l.Nodup) (f : Peer → Bool) (p : Peer) (hp : p ∈ l) (hf : f p = false) :
    ((l.filter (fun q => if q = p then true else f q)).map w).sum = ((l.filter f).map w).sum + w p := by
  induction l with
  | nil => cases hp
  | cons q l ih =>
    have hn' := List.nodup_cons.1 hn
    by_cases hq : q = p
    · subst hq
      rw [List.filter_cons_of_pos (by simp), List.filter_cons_of_neg (by simp [hf])]
      have : l.filter (fun x => if x = q then true else f x) = l.filter f := by
        apply List.filter_congr
        intro x hx
        rw [if_neg]
        rintro rfl; exact hn'.1 hx
      rw [this, List.map_cons, List.sum_cons]; omega
    · have hp' : p ∈ l := (List.mem_cons.1 hp).resolve_left (fun e => hq e.symm)
      have ih := ih hn'.2 hp'
      cases hfq : f q
      · rw [List.filter_cons_of_neg (by simp [hq, hfq]), List.filter_cons_of_neg (by simp [hfq]), ih]
      · rw [List.filter_cons_of_pos (by simp [hq, hfq]), List.filter_cons_of_pos (by simp [hfq]), List.map_cons, List.sum_cons, ih, List.map_cons, List.sum_cons]; omega

theorem wsum_add {c : Cfg} (hn : c.peers.Nodup) {f : Peer → Bool} {p : Peer} (hp : p ∈ c.peers) (hf : f p = false) :
    wsum c (fun q => if q = p then true else f q) = wsum c f + c.weight p := wsum_add_aux c.weight c.peers hn f p hp hf

structure ObjOk (c : Cfg) (cu : Nat) (o : Obj) : Prop where
  valid : ∀ p s, o.slots p = some s → p ∈ c.peers ∧ c.verify p o.block s = true
  counted : ∀ p, o.counted p = true → (o.slots p).isSome
  total : o.total = c.ownWeight + wsum c o.counted
  sealed : o.validated = true → c.threshold ≤ o.total
  cancelled : o.cancelled = true → c.seqno o.block ≤ cu

structure Shared (c : Cfg) (st : St) : Prop where
  obj : ∀ o, o < st.nobjs → ObjOk c st.cancelledUntil (st.objs o)
  blocks : ∀ n o, get st.blocks n = some o → o < st.nobjs ∧ c.seqno (st.objs o).block = n
  live : ∀ o, o < st.nobjs → st.cancelledUntil < c.seqno (st.objs o).block → get st.blocks (c.seqno (st.objs o).block) = some o
  exposed : ∀ b ∈ st.exposed, ∃ o, o < st.nobjs ∧ (st.objs o).block = b
  sess : st.cancelled = true → c.maxSeqno ≤ st.cancelledUntil

/-- What never goes back. -/
structure Le (st st' : St) : Prop where
  nobjs : st.nobjs ≤ st'.nobjs
  block : ∀ o, o < st.nobjs → (st'.objs o).block = (st.objs o).block
  slots : ∀ o p s, o < st.nobjs → (st.objs o).slots p = some s → (st'.objs o).slots p = some s
  total : ∀ o, o < st.nobjs → (st.objs o).total ≤ (st'.objs o).total
  cancelled : ∀ o, o < st.nobjs → (st.objs o).cancelled = true → (st'.objs o).cancelled = true
  passed : ∀ o, o < st.nobjs → (st.objs o).passed = true → (st'.objs o).passed = true
  cu : st.cancelledUntil ≤ st'.cancelledUntil

theorem Le.refl (st : St) : Le st st := ⟨Nat.le_refl _, fun _ _ => rfl, fun _ _ _ _ h => h, fun _ _ => Nat.le_refl _, fun _ _ h => h, fun _ _ h => h, Nat.le_refl _⟩

/-- A task that gets the signature of `p` for the object `o`, or was dropped. -/
def IsR (o : Nat) (p : Peer) : Task → Prop
  | .rStart p' o' _ => o' = o ∧ p' = p
  | .rAdd p' o' _ _ => o' = o ∧ p' = p
  | .rChanged p' o' => o' = o ∧ p' = p
  | .rWait p' o' => o' = o ∧ p' = p
  | .rDone p' o' _ => o' = o ∧ p' = p
  | .dead => True
  | _ => False

/-- The step of `add_signature` is sound. -/
def AddOk (c : Cfg) (st : St) (o : Nat) (p : Peer) (s : Sig) : Add → Prop
  | .load => True
  | .check => True
  | .cas => c.verify p (st.objs o).block s = true
  | .count => (st.objs o).slots p = some s
  | .mark can => (st.objs o).slots p = some s ∧ (can = true → c.threshold ≤ (st.objs o).total)

/-- What a validation has collected. -/
structure ResOk (c : Cfg) (b : BlockId) (rest : List Peer) (res : List (Peer × Sig)) (w : Nat) : Prop where
  valid : ∀ e ∈ res, SigOk c b e.1 e.2
  perm : (res.map (·.1) ++ rest).Perm (c.own :: c.peers)
  weight : w = ((res.map (·.1)).map (weightOf c)).sum
  own : c.own ∈ res.map (·.1)

def PendOk (st : St) (o : Nat) (pend : List (Nat × Peer)) : Prop := ∀ e ∈ pend, ∃ k, st.tasks e.1 = some k ∧ IsR o e.2 k

def HasObj (st : St) (o : Nat) (b : BlockId) : Prop := o < st.nobjs ∧ (st.objs o).block = b

def TaskOk (c : Cfg) (st : St) : Task → Prop
  | .vCheck1 _ => True
  | .vSlots _ => True
  | .vPeek _ => True
  | .vPrep b _ todo slots w => (∀ p s, slots p = some s → p ∈ c.peers ∧ p ∉ todo ∧ c.verify p b s = true) ∧ todo.Nodup ∧ (∀ p ∈ todo, p ∈ c.peers) ∧
      w = c.ownWeight + wsum c (fun p => (slots p).isSome)
  | .vInsert b _ slots w => (∀ p s, slots p = some s → p ∈ c.peers ∧ c.verify p b s = true) ∧ w = c.ownWeight + wsum c (fun p => (slots p).isSome)
  | .vCheck2 b _ o => HasObj st o b
  | .vDrop b o => HasObj st o b ∧ c.seqno b ≤ st.cancelledUntil ∧ (st.objs o).cancelled = true
  | .vUncache b _ o => HasObj st o b ∧ (st.objs o).passed = true
  | .vScan b _ o todo res pend w => HasObj st o b ∧ ResOk c b (pend.map (·.2) ++ todo) res w ∧ PendOk st o pend ∧ (st.objs o).passed = true
  | .vCollect b o res pend w => HasObj st o b ∧ ResOk c b (pend.map (·.2)) res w ∧ PendOk st o pend ∧ (st.objs o).passed = true
  | .vDone (.complete b res w) => (∃ rest, ResOk c b rest res w) ∧ c.threshold ≤ w ∧ ∃ o, HasObj st o b
  | .vDone .exhausted => False
  | .vDone _ => True
  | .rStart p o _ => o < st.nobjs ∧ p ∈ c.peers
  | .rAdd p o s a => (o < st.nobjs ∧ p ∈ c.peers) ∧ AddOk c st o p s a
  | .rChanged p o => o < st.nobjs ∧ p ∈ c.peers
  | .rWait p o => o < st.nobjs ∧ p ∈ c.peers
  | .rDone p o s => (o < st.nobjs ∧ p ∈ c.peers) ∧ (st.objs o).slots p = some s
  | .xCheck _ _ _ => True
  | .xPeek _ _ _ => True
  | .xSealed p o _ => o < st.nobjs ∧ p ∈ c.peers
  | .xAdd p o s a => (o < st.nobjs ∧ p ∈ c.peers) ∧ AddOk c st o p s a
  | .xReply _ o => o < st.nobjs
  | .xCachePeek _ _ _ => True
  | .xCacheStore _ _ _ => True
  | .xDone _ => True
  | .cSet _ => True
  | .cMin n => n ≤ st.cancelledUntil
  | .cCache n => n ≤ st.cancelledUntil
  | .cTokens n _ => n ≤ st.cancelledUntil
  | .cRemove n => n ≤ st.cancelledUntil
  | .cDone n => n ≤ st.cancelledUntil
  | .kSet => True
  | .kToken => c.maxSeqno ≤ st.cancelledUntil
  | .kDone => c.maxSeqno ≤ st.cancelledUntil
  | .dead => True

/-- The task is about to add a weight. -/
def counting : Task → Option (Nat × Peer)
  | .rAdd p o _ .count => some (o, p)
  | .xAdd p o _ .count => some (o, p)
  | _ => none

structure Inv (c : Cfg) (st : St) : Prop where
  shared : Shared c st
  task : ∀ t k, st.tasks t = some k → TaskOk c st k
  cnt : ∀ t k o p, st.tasks t = some k → counting k = some (o, p) → (st.objs o).counted p = false
  uniq : ∀ t t' k k' x, st.tasks t = some k → st.tasks t' = some k' → counting k = some x → counting k' = some x → t = t'

theorem AddOk.mono {c : Cfg} {st st' : St} {o : Nat} {p : Peer} {s : Sig} {a : Add} (h : AddOk c st o p s a) (ho : o < st.nobjs) (hle : Le st st') :
    AddOk c st' o p s a := by
  cases a with
  | load => trivial
  | check => trivial
  | cas => show c.verify p (st'.objs o).block s = true; rw [hle.block o ho]; exact h
  | count => exact hle.slots o p s ho h
  | mark can => exact ⟨hle.slots o p s ho h.1, fun hc => Nat.le_trans (h.2 hc) (hle.total o ho)⟩

theorem HasObj.mono {st st' : St} {o : Nat} {b : BlockId} (h : HasObj st o b) (hle : Le st st') : HasObj st' o b :=
  ⟨Nat.lt_of_lt_of_le h.1 hle.nobjs, by rw [hle.block o h.1]; exact h.2⟩

/-- Tasks go on as tasks of their kind. -/
def Goes (st st' : St) : Prop := ∀ r k o p, st.tasks r = some k → IsR o p k → ∃ k', st'.tasks r = some k' ∧ IsR o p k'

theorem PendOk.mono {st st' : St} {o : Nat} {pend : List (Nat × Peer)} (h : PendOk st o pend) (hg : Goes st st') : PendOk st' o pend := by
  intro e he
  obtain ⟨k, h1, h2⟩ := h e he
  exact hg e.1 k o e.2 h1 h2

theorem TaskOk.mono {c : Cfg} {st st' : St} {k : Task} (h : TaskOk c st k) (hle : Le st st') (hg : Goes st st') : TaskOk c st' k := by
  have lt : ∀ {o}, o < st.nobjs → o < st'.nobjs := fun h => Nat.lt_of_lt_of_le h hle.nobjs
  have hu := hle.cu
  cases k with
  | vCheck2 b ch o => exact HasObj.mono h hle
  | vDrop b o => exact ⟨HasObj.mono h.1 hle, Nat.le_trans h.2.1 hu, hle.cancelled o h.1.1 h.2.2⟩
  | vUncache b ch o => exact ⟨HasObj.mono h.1 hle, hle.passed o h.1.1 h.2⟩
  | vScan b ch o todo res pend w => exact ⟨h.1.mono hle, h.2.1, h.2.2.1.mono hg, hle.passed o h.1.1 h.2.2.2⟩
  | vCollect b o res pend w => exact ⟨h.1.mono hle, h.2.1, h.2.2.1.mono hg, hle.passed o h.1.1 h.2.2.2⟩
  | vDone out =>
    cases out with
    | complete b res w =>
      obtain ⟨h1, h2, o, h3⟩ := h
      exact ⟨h1, h2, o, h3.mono hle⟩
    | _ => exact h
  | rStart p o s => exact ⟨lt h.1, h.2⟩
  | rAdd p o s a => exact ⟨⟨lt h.1.1, h.1.2⟩, h.2.mono h.1.1 hle⟩
  | rChanged p o => exact ⟨lt h.1, h.2⟩
  | rWait p o => exact ⟨lt h.1, h.2⟩
  | rDone p o s => exact ⟨⟨lt h.1.1, h.1.2⟩, hle.slots o p s h.1.1 h.2⟩
  | xSealed p o s => exact ⟨lt h.1, h.2⟩
  | xAdd p o s a => exact ⟨⟨lt h.1.1, h.1.2⟩, h.2.mono h.1.1 hle⟩
  | xReply p o => exact lt h
  | cMin n => exact Nat.le_trans h hu
  | cCache n => exact Nat.le_trans h hu
  | cTokens n todo => exact Nat.le_trans h hu
  | cDone n => exact Nat.le_trans h hu
  | kDone => exact Nat.le_trans h hu
  | cRemove n => exact Nat.le_trans h hu
  | kToken => exact Nat.le_trans h hu
  | _ => exact h

/-- A change of the shared state only. -/
theorem Inv.change {c : Cfg} {st st' : St} (h : Inv c st) (hle : Le st st') (hs : Shared c st') (ht : st'.tasks = st.tasks)
    (hc : ∀ o p, o < st.nobjs → (st'.objs o).counted p = true → (st.objs o).counted p = true) : Inv c st' := by
  have hg : Goes st st' := fun r k o p h1 h2 => ⟨k, by rw [ht]; exact h1, h2⟩
  refine ⟨hs, ?_, ?_, ?_⟩
  · intro t k hk
    rw [ht] at hk
    exact (h.task t k hk).mono hle hg
  · intro t k o p hk hcn
    rw [ht] at hk
    have h1 := h.cnt t k o p hk hcn
    have ho : o < st.nobjs := by
      have := h.task t k hk
      cases k with
      | rAdd p' o' s a => cases a <;> simp [counting] at hcn; rw [← hcn.1]; exact this.1.1
      | xAdd p' o' s a => cases a <;> simp [counting] at hcn; rw [← hcn.1]; exact this.1.1
      | _ => cases hcn
    cases hcc : (st'.objs o).counted p with
    | false => rfl
    | true => rw [hc o p ho hcc] at h1; cases h1
  · intro t t' k k' x h1 h2
    rw [ht] at h1 h2
    exact h.uniq t t' k k' x h1 h2

theorem setTask_self (st : St) (t : Nat) (k : Task) : (setTask st t k).tasks t = some k := by simp [setTask]
theorem setTask_ne (st : St) {t j : Nat} (k : Task) (h : j ≠ t) : (setTask st t k).tasks j = st.tasks j := by simp [setTask, h]

theorem counting_obj {c : Cfg} {st : St} {k : Task} (h : TaskOk c st k) {o : Nat} {p : Peer} (hc : counting k = some (o, p)) : o < st.nobjs := by
  cases k with
  | rAdd p' o' s a => cases a <;> simp [counting] at hc; rw [← hc.1]; exact h.1.1
  | xAdd p' o' s a => cases a <;> simp [counting] at hc; rw [← hc.1]; exact h.1.1
  | _ => cases hc

/-- A task moves on, with a change of the shared state. -/
theorem Inv.move {c : Cfg} {st st1 : St} (h : Inv c st) (t : Nat) (k : Task) (hle : Le st st1) (hs : Shared c st1) (ht : st1.tasks = st.tasks)
    (hr : ∀ k0, st.tasks t = some k0 → ∀ o p, IsR o p k0 → IsR o p k) (hk : TaskOk c (setTask st1 t k) k)
    (hc : ∀ o p, o < st.nobjs → (st1.objs o).counted p = true → (st.objs o).counted p = true ∨ ∃ k0, st.tasks t = some k0 ∧ counting k0 = some (o, p))
    (hn : ∀ o p, counting k = some (o, p) → (st1.objs o).counted p = false ∧ ∀ t' k', st.tasks t' = some k' → counting k' = some (o, p) → t' = t) :
    Inv c (setTask st1 t k) := by
  have hg : Goes st (setTask st1 t k) := by
    intro r k0 o p h1 h2
    by_cases hrt : r = t
    · subst hrt; exact ⟨k, setTask_self _ _ _, hr k0 h1 o p h2⟩
    · exact ⟨k0, by rw [setTask_ne _ _ hrt, ht]; exact h1, h2⟩
  have hle' : Le st (setTask st1 t k) := ⟨hle.nobjs, hle.block, hle.slots, hle.total, hle.cancelled, hle.passed, hle.cu⟩
  refine ⟨⟨hs.obj, hs.blocks, hs.live, hs.exposed, hs.sess⟩, ?_, ?_, ?_⟩
  · intro t' k' hk'
    by_cases htt : t' = t
    · subst htt; rw [setTask_self] at hk'; cases hk'; exact hk
    · rw [setTask_ne _ _ htt, ht] at hk'
      exact (h.task t' k' hk').mono hle' hg
  · intro t' k' o p hk' hcn
    show (st1.objs o).counted p = false
    by_cases htt : t' = t
    · subst htt; rw [setTask_self] at hk'; cases hk'; exact (hn o p hcn).1
    · rw [setTask_ne _ _ htt, ht] at hk'
      have h1 := h.cnt t' k' o p hk' hcn
      have ho := counting_obj (h.task t' k' hk') hcn
      cases hcc : (st1.objs o).counted p with
      | false => rfl
      | true =>
        exfalso
        rcases hc o p ho hcc with h2 | ⟨k0, h2, h3⟩
        · rw [h1] at h2; cases h2
        · exact htt (h.uniq t' t k' k0 (o, p) hk' h2 hcn h3)
  · intro t1 t2 k1 k2 x h1 h2 c1 c2
    by_cases e1 : t1 = t
    · by_cases e2 : t2 = t
      · omega
      · subst e1
        rw [setTask_self] at h1; cases h1
        rw [setTask_ne _ _ e2, ht] at h2
        exact ((hn x.1 x.2 c1).2 t2 k2 h2 c2).symm
    · rw [setTask_ne _ _ e1, ht] at h1
      by_cases e2 : t2 = t
      · subst e2
        rw [setTask_self] at h2; cases h2
        exact (hn x.1 x.2 c2).2 t1 k1 h1 c1
      · rw [setTask_ne _ _ e2, ht] at h2
        exact h.uniq t1 t2 k1 k2 x h1 h2 c1 c2

/-- A task moves on, the shared state stays. -/
theorem Inv.goto {c : Cfg} {st : St} (h : Inv c st) (t : Nat) (k : Task) (hr : ∀ k0, st.tasks t = some k0 → ∀ o p, IsR o p k0 → IsR o p k)
    (hk : TaskOk c (setTask st t k) k) (hn : counting k = none) : Inv c (setTask st t k) :=
  h.move t k (Le.refl st) h.shared rfl hr hk (fun _ _ _ h => Or.inl h) (fun o p hc => by rw [hn] at hc; cases hc)

end Tycho.Validator
