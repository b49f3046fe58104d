import Verif.Verifier.Props
import Mathlib.Data.Finset.Card
import Mathlib.Data.Finset.Dedup
import Mathlib.Data.Finset.Lattice.Basic

/-! Properties of the verdict: no panic, independence of the order in which dependencies resolve, the root cause of a
transitively invalid point, and quorums. -/
namespace Tycho.Verifier

open Tycho.PeerCount

/-- **C52.** `validate` does not panic on a point that passed `verify`. -/
theorem validate_no_panic {conf : Conf} {peersFor} (hg : 0 < conf.genesisRound) (p : Info)
    (h : verify p peersFor conf = .ok) (run : Run) : validate conf p run ≠ .panic := by
  have hge := verify_round h hg
  unfold validate
  rw [if_neg (by omega)]
  split
  · simp
  rename_i hr
  obtain ⟨P, hP, _⟩ := prepare_some (verify_shape h hr)
  split
  · simp
  split
  · simp
  split
  · simp
  split
  · simp
  rw [hP]
  dsimp only
  split
  · simp
  split
  · simp
  split <;> simp

/-- **C52.** Every accessor of a verified point above genesis that could panic returns a value. -/
theorem accessors_no_panic {conf : Conf} {peersFor} (p : Info) (h : verify p peersFor conf = .ok)
    (hr : p.round ≠ conf.genesisRound) (s : Stage) :
    (p.anchorId s).isSome ∧ (p.anchorLinkThrough s).isSome ∧ p.inheritedProofId.isSome ∧
      p.triggerBoundProofId.isSome ∧ p.chainedToThrough.isSome ∧ p.chainedTo.isSome := by
  have hs := verify_shape h hr
  refine ⟨anchorId_isSome hs s, anchorLinkThrough_isSome hs s, inheritedProofId_isSome hs, ?_,
    chainedToThrough_isSome hs, ?_⟩
  · have := inheritedProofId_isSome hs
    unfold Info.triggerBoundProofId
    simpa using this
  · unfold Info.chainedTo
    split
    · rfl
    · rename_i n hc
      have := chained_prev hs n hc
      simpa using this
    · rfl

/-! ### order independence -/

/-- The rank of a root cause: newer rounds first, then causes that had their DAG round. -/
def rank (root : PointId) (reason : Reason) : Nat := 2 * root.round + reason.hasDagRound.toNat

/-- Rank of the remembered root cause. -/
def rankOf : Option InvDep → Option Nat := Option.map (fun d => rank d.link.to d.reason)

/-- The root cause that a dependency brings, if it is neither valid, nor certified, nor expired. -/
def rootOf (conf : Conf) (prevRound : Nat) : DagPoint → Option (PointId × Reason)
  | .invalid p false r => some (p.id, r)
  | .transInvalid _ false root =>
    if prevRound ≥ root.link.to.round + conf.commitHistoryRounds then none else some (root.link.to, root.reason)
  | _ => none

/-- Maximum with `none` as the least element. -/
def omax : Option Nat → Option Nat → Option Nat
  | none, b => b
  | a, none => a
  | some a, some b => some (max a b)

theorem omax_comm (a b : Option Nat) : omax a b = omax b a := by
  cases a <;> cases b <;> simp [omax, Nat.max_comm]

theorem omax_right_comm (a b c : Option Nat) : omax (omax a b) c = omax (omax a c) b := by
  cases a <;> cases b <;> cases c <;> simp [omax, Nat.max_comm, Nat.max_assoc, Nat.max_left_comm]

theorem rankOf_remember (old : Option InvDep) (dp th pr root reason) :
    rankOf (remember old dp th pr root reason) = omax (rankOf old) (some (rank root reason)) := by
  unfold remember
  cases old with
  | none => simp [replaces, rankOf, omax]
  | some o =>
    unfold replaces
    simp only [rankOf, Option.map_some, omax]
    split
    · rename_i h
      simp only [Option.map_some, Option.some.injEq]
      simp only [Bool.or_eq_true, decide_eq_true_eq, Bool.and_eq_true, Bool.not_eq_eq_eq_not, Bool.not_true] at h
      unfold rank
      rcases h with h | ⟨⟨h1, h2⟩, h3⟩
      · have : o.reason.hasDagRound.toNat ≤ 1 := Bool.toNat_le _
        have : reason.hasDagRound.toNat ≤ 1 := Bool.toNat_le _
        omega
      · rw [h1, h2, h3]; simp
    · rename_i h
      simp only [Option.map_some, Option.some.injEq]
      simp only [Bool.or_eq_true, decide_eq_true_eq, Bool.and_eq_true, Bool.not_eq_eq_eq_not, Bool.not_true,
        not_or, not_and, Nat.not_lt] at h
      obtain ⟨h1, h2⟩ := h
      unfold rank
      have : reason.hasDagRound.toNat ≤ 1 := Bool.toNat_le _
      rcases Nat.lt_or_ge root.round o.link.to.round with hlt | hge
      · omega
      · have heq : o.link.to.round = root.round := by omega
        rw [heq]
        cases hb : o.reason.hasDagRound
        · have := h2 ⟨heq, hb⟩
          simp at this
          rw [this]; simp
        · simp; omega

theorem dependency_latest {old dp th pr conf dep latest} (h : dependency old dp th pr conf = .ok (dep, latest)) :
    rankOf latest = omax (rankOf old) ((rootOf conf pr dp).map (fun x => rank x.1 x.2)) := by
  have hnone : ∀ a : Option Nat, omax a none = a := by intro a; cases a <;> rfl
  unfold dependency at h
  cases dp with
  | valid p f =>
    simp at h
    simp [rootOf, hnone, h.2]
  | transInvalid p c root =>
    simp only at h
    split at h
    · rename_i hc
      simp at h
      simp [rootOf, hnone, h.2, hc]
    · rename_i hc
      have hc : c = false := by simpa using hc
      subst hc
      split at h
      · rename_i hx
        simp at h
        simp only [rootOf, hx, if_true, Option.map_none, hnone, h.2]
      · rename_i hx
        simp only [Except.ok.injEq, Prod.mk.injEq] at h
        rw [← h.2]
        simp only [rootOf, hx, if_false, Option.map_some]
        exact rankOf_remember ..
  | invalid p c r =>
    simp only at h
    split at h
    · rename_i hc
      simp at h
      simp [rootOf, hnone, h.2, hc]
    · rename_i hc
      have hc : c = false := by simpa using hc
      subst hc
      simp only [Except.ok.injEq, Prod.mk.injEq] at h
      rw [← h.2]
      simp only [rootOf, Option.map_some]
      exact rankOf_remember ..
  | illFormed i => simp at h
  | notFound i c => simp at h

/-- Is the item another version of the author's previous point, not a dependency? -/
abbrev isOther (p : Info) (dp : DagPoint) : Prop :=
  (dp.id.round = p.round - 1 ∧ dp.id.author = p.author) ∧ p.prevDigest ≠ some dp.id.digest

/-- Rank that one item of `check_valid` contributes. -/
def itemRank (conf : Conf) (p : Info) : Option DagPoint → Option Nat
  | none => none
  | some dp => if isOther p dp then none else (rootOf conf (p.round - 1) dp).map (fun x => rank x.1 x.2)

theorem directStep_latest {conf p P st item} (hs : st.stop = false) (hok : itemOk conf p P item) :
    rankOf (directStep conf p P st item).latest = omax (rankOf st.latest) (itemRank conf p item) ∧
      (directStep conf p P st item).stop = false := by
  have hnone : ∀ a : Option Nat, omax a none = a := by intro a; cases a <;> rfl
  cases item with
  | none => exact hok.elim
  | some dp =>
    unfold directStep itemRank isOther
    rw [hs]
    simp only [Bool.false_eq_true, if_false]
    split
    · exact ⟨(hnone _).symm, rfl⟩
    · rename_i ho
      unfold itemOk at hok
      simp only [ho, if_false] at hok
      obtain ⟨dep, hinfo, _⟩ := hok
      obtain ⟨latest, hl⟩ := dependency_isOk st.latest dp none (p.round - 1) conf dep hinfo
      rw [hl]
      exact ⟨dependency_latest hl, rfl⟩

theorem checkValid_latest {conf p P} (order : List (Option DagPoint)) (hok : ∀ item ∈ order, itemOk conf p P item) :
    rankOf (checkValid conf p P order).latest =
      order.foldl (fun k item => omax k (itemRank conf p item)) none := by
  unfold checkValid
  suffices h : ∀ st : St, st.stop = false → rankOf (order.foldl (directStep conf p P) st).latest =
      order.foldl (fun k item => omax k (itemRank conf p item)) (rankOf st.latest) from h {} rfl
  induction order with
  | nil => intro st _; rfl
  | cons item order ih =>
    intro st hs
    rw [List.foldl_cons, List.foldl_cons]
    obtain ⟨h1, h2⟩ := directStep_latest (P := P) hs (hok item (by simp))
    rw [ih (fun x hx => hok x (by simp [hx])) _ h2, h1]

/-- Rank that one item of `check_indirect_links` contributes. -/
def itemRankI (conf : Conf) (p : Info) : Option (DagPoint × Through) → Option Nat
  | none => none
  | some (dp, _) => (rootOf conf (p.round - 1) dp).map (fun x => rank x.1 x.2)

theorem checkIndirect_latest {conf p b} (order : List (Option (DagPoint × Through)))
    (hok : ∀ item ∈ order, itemOkI conf p b item) (latest : Option InvDep) :
    rankOf (checkIndirect conf p b latest order).latest =
      order.foldl (fun k item => omax k (itemRankI conf p item)) (rankOf latest) := by
  have hnone : ∀ a : Option Nat, omax a none = a := by intro a; cases a <;> rfl
  unfold checkIndirect
  suffices h : ∀ st : St, rankOf (order.foldl (indirectStep conf p b) st).latest =
      order.foldl (fun k item => omax k (itemRankI conf p item)) (rankOf st.latest) from h { latest }
  induction order with
  | nil => intro st; rfl
  | cons item order ih =>
    intro st
    rw [List.foldl_cons, List.foldl_cons, ih (fun x hx => hok x (by simp [hx]))]
    congr 1
    have hi := hok item (by simp)
    cases item with
    | none => simp [indirectStep, itemRankI, hnone]
    | some x =>
      obtain ⟨dp, th⟩ := x
      obtain ⟨dep, hinfo, _⟩ := hi
      obtain ⟨l, hl⟩ := dependency_isOk st.latest dp (some th) (p.round - 1) conf dep hinfo
      unfold indirectStep itemRankI
      simp only [hl]
      exact dependency_latest hl

/-- What other nodes and later code see of a verdict: its kind, and for a transitively invalid point the round of the
root cause and whether the cause had its DAG round. -/
def ValidateRes.kind : ValidateRes → Nat × Option Nat
  | .illFormed _ => (0, none)
  | .invalid _ => (1, none)
  | .transInvalid d => (2, some (rank d.link.to d.reason))
  | .valid => (3, none)
  | .panic => (4, none)

/-- A rank determines the round and the flag. -/
theorem rank_inj {r r' : PointId} {a a' : Reason} (h : rank r a = rank r' a') :
    r.round = r'.round ∧ a.hasDagRound = a'.hasDagRound := by
  unfold rank at h
  have h1 : a.hasDagRound.toNat ≤ 1 := Bool.toNat_le _
  have h2 : a'.hasDagRound.toNat ≤ 1 := Bool.toNat_le _
  refine ⟨by omega, ?_⟩
  have : a.hasDagRound.toNat = a'.hasDagRound.toNat := by omega
  cases ha : a.hasDagRound <;> cases hb : a'.hasDagRound <;> rw [ha, hb] at this <;> simp at this <;> rfl

/-- **C53.** The verdict does not depend on the order in which the dependencies resolve: reordering the answers changes
neither the kind of the verdict nor, for a transitively invalid point, the round of its root cause and whether that
cause had its DAG round. -/
theorem verdict_order_independent (conf : Conf) (p : Info) (run run' : Run)
    (hfix : run'.isLeader = run.isLeader ∧ run'.r0 = run.r0 ∧ run'.r1 = run.r1 ∧ run'.r2 = run.r2)
    (ho : run.order.Perm run'.order) (hi : run.orderI.Perm run'.orderI) :
    (validate conf p run).kind = (validate conf p run').kind := by
  obtain ⟨e1, e2, e3, e4⟩ := hfix
  unfold validate
  rw [e1, e2, e3, e4]
  split
  · rfl
  split
  · rfl
  split
  · rfl
  split
  · rfl
  split
  · rfl
  split
  · rfl
  cases hP : prepare p with
  | none => rfl
  | some P =>
    dsimp only
    have hd : ((checkValid conf p P run.order).inv = none) ↔ ((checkValid conf p P run'.order).inv = none) := by
      rw [checkValid_inv, checkValid_inv]
      exact ⟨fun h x hx => h x (ho.mem_iff.mpr hx), fun h x hx => h x (ho.mem_iff.mp hx)⟩
    cases h1 : (checkValid conf p P run.order).inv with
    | some r =>
      cases h2 : (checkValid conf p P run'.order).inv with
      | some r' => rfl
      | none => rw [← hd, h1] at h2; simp at h2
    | none =>
      have h2 := hd.mp h1
      rw [h2]
      dsimp only
      have hii : ∀ l l', ((checkIndirect conf p P.bound l run.orderI).inv = none) ↔
          ((checkIndirect conf p P.bound l' run'.orderI).inv = none) := by
        intro l l'
        rw [checkIndirect_inv, checkIndirect_inv]
        exact ⟨fun h x hx => h x (hi.mem_iff.mpr hx), fun h x hx => h x (hi.mem_iff.mp hx)⟩
      have hok := checkValid_inv (conf := conf) (p := p) (P := P) run.order |>.mp h1
      have hok' := checkValid_inv (conf := conf) (p := p) (P := P) run'.order |>.mp h2
      cases h3 : (checkIndirect conf p P.bound (checkValid conf p P run.order).latest run.orderI).inv with
      | some r =>
        cases h4 : (checkIndirect conf p P.bound (checkValid conf p P run'.order).latest run'.orderI).inv with
        | some r' => rfl
        | none => rw [← hii (checkValid conf p P run.order).latest, h3] at h4; simp at h4
      | none =>
        have h4 := (hii _ (checkValid conf p P run'.order).latest).mp h3
        rw [h4]
        dsimp only
        have hoki := checkIndirect_inv (conf := conf) (p := p) (b := P.bound) run.orderI |>.mp h3
        have hoki' := checkIndirect_inv (conf := conf) (p := p) (b := P.bound) run'.orderI |>.mp h4
        have hl := checkIndirect_latest run.orderI hoki (checkValid conf p P run.order).latest
        have hl' := checkIndirect_latest run'.orderI hoki' (checkValid conf p P run'.order).latest
        rw [checkValid_latest _ hok] at hl
        rw [checkValid_latest _ hok'] at hl'
        have hperm1 : run.order.foldl (fun k item => omax k (itemRank conf p item)) none =
            run'.order.foldl (fun k item => omax k (itemRank conf p item)) none :=
          ho.foldl_eq' (fun x _ y _ z => omax_right_comm z _ _) none
        rw [hperm1] at hl
        have hperm2 := hi.foldl_eq' (f := fun k item => omax k (itemRankI conf p item))
          (fun x _ y _ z => omax_right_comm z _ _)
          (run'.order.foldl (fun k item => omax k (itemRank conf p item)) none)
        rw [hperm2, ← hl'] at hl
        cases ha : (checkIndirect conf p P.bound (checkValid conf p P run.order).latest run.orderI).latest with
        | none =>
          cases hb : (checkIndirect conf p P.bound (checkValid conf p P run'.order).latest run'.orderI).latest with
          | none => rfl
          | some d => rw [ha, hb] at hl; simp [rankOf] at hl
        | some d =>
          cases hb : (checkIndirect conf p P.bound (checkValid conf p P run'.order).latest run'.orderI).latest with
          | none => rw [ha, hb] at hl; simp [rankOf] at hl
          | some d' =>
            rw [ha, hb] at hl
            simp [rankOf] at hl
            simp [ValidateRes.kind, hl]

/-! ### the root cause -/

theorem omax_some {a b : Option Nat} {n : Nat} (h : omax a b = some n) : a = some n ∨ b = some n := by
  cases a with
  | none => simp [omax] at h; exact .inr h
  | some x =>
    cases b with
    | none => simp [omax] at h; exact .inl (by rw [h])
    | some y =>
      simp [omax] at h
      rcases Nat.le_total x y with hxy | hxy
      · rw [Nat.max_eq_right hxy] at h; exact .inr (by rw [h])
      · rw [Nat.max_eq_left hxy] at h; exact .inl (by rw [h])

theorem omax_ge {a b : Option Nat} {n : Nat} (h : a = some n ∨ b = some n) : ∃ m, omax a b = some m ∧ n ≤ m := by
  rcases h with h | h
  · subst h; cases b <;> simp [omax]
  · subst h; cases a <;> simp [omax]

theorem foldl_omax_ge {α} (f : α → Option Nat) (l : List α) (k : Option Nat) (n : Nat)
    (h : k = some n ∨ ∃ x ∈ l, f x = some n) : ∃ m, l.foldl (fun k x => omax k (f x)) k = some m ∧ n ≤ m := by
  induction l generalizing k n with
  | nil => rcases h with h | ⟨x, hx, _⟩ <;> simp_all
  | cons x l ih =>
    rw [List.foldl_cons]
    rcases h with h | ⟨y, hy, hf⟩
    · obtain ⟨m, hm, hle⟩ := omax_ge (a := k) (b := f x) (.inl h)
      obtain ⟨m', h1, h2⟩ := ih _ m (.inl hm)
      exact ⟨m', h1, by omega⟩
    · rcases List.mem_cons.mp hy with rfl | hy
      · obtain ⟨m, hm, hle⟩ := omax_ge (a := k) (b := f y) (.inr hf)
        obtain ⟨m', h1, h2⟩ := ih _ m (.inl hm)
        exact ⟨m', h1, by omega⟩
      · exact ih _ n (.inr ⟨y, hy, hf⟩)

theorem remember_mem (old : Option InvDep) (dp th pr root reason) :
    remember old dp th pr root reason = old ∨
      ∃ d, remember old dp th pr root reason = some d ∧ d.link.to = root ∧ d.reason = reason := by
  unfold remember
  split
  · exact .inr ⟨_, rfl, rfl, rfl⟩
  · exact .inl rfl

theorem dependency_latest_mem {old dp th pr conf dep latest} (h : dependency old dp th pr conf = .ok (dep, latest)) :
    latest = old ∨ ∃ d, latest = some d ∧ rootOf conf pr dp = some (d.link.to, d.reason) := by
  unfold dependency at h
  cases dp with
  | valid p f => simp at h; exact .inl h.2.symm
  | transInvalid p c root =>
    simp only at h
    split at h
    · simp at h; exact .inl h.2.symm
    · rename_i hc
      have hc : c = false := by simpa using hc
      subst hc
      split at h
      · simp at h; exact .inl h.2.symm
      · rename_i hx
        simp only [Except.ok.injEq, Prod.mk.injEq] at h
        rw [← h.2]
        rcases remember_mem old (.transInvalid p false root) th pr root.link.to root.reason with h1 | ⟨d, h1, h2, h3⟩
        · exact .inl h1
        · exact .inr ⟨d, h1, by simp only [rootOf, hx, if_false]; rw [h2, h3]⟩
  | invalid p c r =>
    simp only at h
    split at h
    · simp at h; exact .inl h.2.symm
    · rename_i hc
      have hc : c = false := by simpa using hc
      subst hc
      simp only [Except.ok.injEq, Prod.mk.injEq] at h
      rw [← h.2]
      rcases remember_mem old (.invalid p false r) th pr p.id r with h1 | ⟨d, h1, h2, h3⟩
      · exact .inl h1
      · exact .inr ⟨d, h1, by simp only [rootOf]; rw [h2, h3]⟩
  | illFormed i => simp at h
  | notFound i c => simp at h

theorem directStep_latest_mem {conf p P st item} :
    (directStep conf p P st item).latest = st.latest ∨
      ∃ dp d, item = some dp ∧ ¬ isOther p dp ∧ (directStep conf p P st item).latest = some d ∧
        rootOf conf (p.round - 1) dp = some (d.link.to, d.reason) := by
  unfold directStep isOther
  split
  · exact .inl rfl
  · split
    · exact .inl rfl
    · rename_i dp
      dsimp only
      split
      · exact .inl rfl
      · rename_i ho
        split
        · exact .inl rfl
        · rename_i dep latest hl
          rcases dependency_latest_mem hl with h | ⟨d, h1, h2⟩
          · exact .inl h
          · exact .inr ⟨dp, d, rfl, ho, h1, h2⟩

theorem checkValid_latest_mem {conf p P} (order : List (Option DagPoint)) (d : InvDep)
    (h : (checkValid conf p P order).latest = some d) :
    ∃ dp, some dp ∈ order ∧ ¬ isOther p dp ∧ rootOf conf (p.round - 1) dp = some (d.link.to, d.reason) := by
  unfold checkValid at h
  suffices H : ∀ st : St, (order.foldl (directStep conf p P) st).latest = some d → st.latest = some d ∨
      ∃ dp, some dp ∈ order ∧ ¬ isOther p dp ∧ rootOf conf (p.round - 1) dp = some (d.link.to, d.reason) by
    rcases H _ h with h | h
    · simp at h
    · exact h
  clear h
  induction order with
  | nil => intro st h; exact .inl h
  | cons item order ih =>
    intro st h
    rw [List.foldl_cons] at h
    rcases ih _ h with h | ⟨dp, h1, h2⟩
    · rcases directStep_latest_mem (conf := conf) (p := p) (P := P) (st := st) (item := item) with h3 | ⟨dp, d', e1, e2, e3, e4⟩
      · exact .inl (h3 ▸ h)
      · rw [h] at e3
        injection e3 with e3
        subst e3
        exact .inr ⟨dp, by simp [e1], e2, e4⟩
    · exact .inr ⟨dp, by simp [h1], h2⟩

theorem checkIndirect_latest_mem {conf p b latest} (order : List (Option (DagPoint × Through))) (d : InvDep)
    (h : (checkIndirect conf p b latest order).latest = some d) : latest = some d ∨
    ∃ dp th, some (dp, th) ∈ order ∧ rootOf conf (p.round - 1) dp = some (d.link.to, d.reason) := by
  unfold checkIndirect at h
  suffices H : ∀ st : St, (order.foldl (indirectStep conf p b) st).latest = some d → st.latest = some d ∨
      ∃ dp th, some (dp, th) ∈ order ∧ rootOf conf (p.round - 1) dp = some (d.link.to, d.reason) from H _ h
  clear h
  induction order with
  | nil => intro st h; exact .inl h
  | cons item order ih =>
    intro st h
    rw [List.foldl_cons] at h
    rcases ih _ h with h | ⟨dp, th, h1, h2⟩
    · unfold indirectStep at h
      split at h
      · exact .inl h
      · rename_i dp th _
        split at h
        · exact .inl h
        · rename_i dep l hl
          rcases dependency_latest_mem hl with h3 | ⟨d', h3, h4⟩
          · exact .inl (h3 ▸ h)
          · simp only at h
            rw [h] at h3
            injection h3 with h3
            subst h3
            exact .inr ⟨dp, th, by simp, h4⟩
    · exact .inr ⟨dp, th, by simp [h1], h2⟩

/-- The root cause brought by a dependency that is not valid, stated on its own: an invalid point that is not certified
is its own cause; a transitively invalid one that is not certified passes its cause on, until the cause is
`commit_history_rounds` older than the round before the point under validation. -/
inductive Brings (conf : Conf) (p : Info) : DagPoint → PointId → Reason → Prop
  | invalid (q r) : Brings conf p (.invalid q false r) q.id r
  | trans (q root) : p.round ≤ root.link.to.round + conf.commitHistoryRounds →
      Brings conf p (.transInvalid q false root) root.link.to root.reason

theorem rootOf_iff {conf : Conf} {p : Info} (hp : 0 < p.round) {dp i r} :
    rootOf conf (p.round - 1) dp = some (i, r) ↔ Brings conf p dp i r := by
  constructor
  · intro h
    unfold rootOf at h
    split at h
    · simp at h; obtain ⟨rfl, rfl⟩ := h; exact .invalid _ _
    · split at h
      · simp at h
      · simp at h; obtain ⟨rfl, rfl⟩ := h; exact .trans _ _ (by omega)
    · simp at h
  · intro h
    cases h with
    | invalid q r => rfl
    | trans q root h => simp only [rootOf]; rw [if_neg (by omega)]

/-- Every dependency or link target that an execution has seen. -/
def Seen (p : Info) (run : Run) (dp : DagPoint) : Prop :=
  (some dp ∈ run.order ∧ ¬ ((dp.id.round = p.round - 1 ∧ dp.id.author = p.author) ∧ p.prevDigest ≠ some dp.id.digest)) ∨
    ∃ th, some (dp, th) ∈ run.orderI

/-- **C54.** A point found without faults of its own is valid exactly when none of the dependencies seen brings a root
cause; otherwise it is transitively invalid, its recorded cause is one that was brought, and no brought cause is newer,
or as new and had its DAG round while the recorded one had not. -/
theorem verdict_root_cause (conf : Conf) (p : Info) (run : Run) (hr : conf.genesisRound < p.round) :
    (validate conf p run = .valid → ∀ dp i r, Seen p run dp → ¬ Brings conf p dp i r) ∧
    (∀ d, validate conf p run = .transInvalid d →
      (∃ dp, Seen p run dp ∧ Brings conf p dp d.link.to d.reason) ∧
      ∀ dp i r, Seen p run dp → Brings conf p dp i r → i.round ≤ d.link.to.round ∧
        (i.round = d.link.to.round → r.hasDagRound = true → d.reason.hasDagRound = true)) := by
  have key : ∀ st2 : St, (∃ P, prepare p = some P ∧ (checkValid conf p P run.order).inv = none ∧
      st2 = checkIndirect conf p P.bound (checkValid conf p P run.order).latest run.orderI ∧ st2.inv = none) →
      (∀ dp i r, Seen p run dp → Brings conf p dp i r → ∃ d, st2.latest = some d ∧
        rank i r ≤ rank d.link.to d.reason) ∧
      (∀ d, st2.latest = some d → ∃ dp, Seen p run dp ∧ Brings conf p dp d.link.to d.reason) := by
    rintro st2 ⟨P, hP, h1, rfl, h2⟩
    have hok := (checkValid_inv run.order).mp h1
    have hoki := (checkIndirect_inv run.orderI).mp h2
    constructor
    · intro dp i r hs hb
      rw [← rootOf_iff (by omega)] at hb
      have hl := checkIndirect_latest run.orderI hoki (checkValid conf p P run.order).latest
      have hgoal : ∃ m, rankOf (checkIndirect conf p P.bound (checkValid conf p P run.order).latest run.orderI).latest
          = some m ∧ rank i r ≤ m := by
        rw [hl]
        rcases hs with ⟨hs, hno⟩ | ⟨th, hs⟩
        · have := foldl_omax_ge (itemRank conf p) run.order none (rank i r) (.inr ⟨_, hs, by
            unfold itemRank isOther; dsimp only; rw [if_neg hno, hb]; rfl⟩)
          obtain ⟨m, e1, e2⟩ := this
          rw [← checkValid_latest _ hok] at e1
          obtain ⟨m', f1, f2⟩ := foldl_omax_ge (itemRankI conf p) run.orderI _ m (.inl e1)
          exact ⟨m', f1, by omega⟩
        · exact foldl_omax_ge (itemRankI conf p) run.orderI _ (rank i r) (.inr ⟨_, hs, by
            unfold itemRankI; dsimp only; rw [hb]; rfl⟩)
      obtain ⟨m, g1, g2⟩ := hgoal
      unfold rankOf at g1
      rw [Option.map_eq_some_iff] at g1
      obtain ⟨d, g3, g4⟩ := g1
      exact ⟨d, g3, by rw [g4]; exact g2⟩
    · intro d hd
      rcases checkIndirect_latest_mem _ _ hd with h | ⟨dp, th, h1, h2⟩
      · obtain ⟨dp, h1, h2, h3⟩ := checkValid_latest_mem _ _ h
        exact ⟨dp, .inl ⟨h1, h2⟩, (rootOf_iff (by omega)).mp h3⟩
      · exact ⟨dp, .inr ⟨th, h1⟩, (rootOf_iff (by omega)).mp h2⟩
  unfold validate
  rw [if_neg (by omega), if_neg (by omega)]
  split
  · simp
  split
  · simp
  split
  · simp
  split
  · simp
  split
  · simp
  rename_i P hP
  dsimp only
  split
  · simp
  rename_i h1
  split
  · simp
  rename_i h2
  have k := key _ ⟨P, hP, h1, rfl, h2⟩
  split
  · rename_i d hd
    refine ⟨by simp, ?_⟩
    intro d' hd'
    injection hd' with hd'
    subst hd'
    refine ⟨k.2 _ hd, ?_⟩
    intro dp i r hs hb
    obtain ⟨d', e1, e2⟩ := k.1 dp i r hs hb
    rw [hd] at e1
    injection e1 with e1
    subst e1
    unfold rank at e2
    have g1 : r.hasDagRound.toNat ≤ 1 := Bool.toNat_le _
    have g2 : d.reason.hasDagRound.toNat ≤ 1 := Bool.toNat_le _
    refine ⟨by omega, ?_⟩
    intro he hrr
    rw [hrr] at e2
    cases hc : d.reason.hasDagRound
    · rw [hc] at e2; simp at e2; omega
    · rfl
  · rename_i hn
    refine ⟨?_, by simp⟩
    intro _ dp i r hs hb
    obtain ⟨d', e1, _⟩ := k.1 dp i r hs hb
    rw [hn] at e1
    simp at e1

/-- **C54.** Transitive invalidity dies out: the recorded cause of a transitively invalid point is at most
`commit_history_rounds` older than the point, unless the point refers to the invalid point directly or names it in one
of its links. -/
theorem trans_invalid_expires (W : World) (p : Info) (run : Run) (hf : Faithful W p run) (d : InvDep)
    (hr : W.conf.genesisRound < p.round) (h : validate W.conf p run = .transInvalid d) :
    p.round ≤ d.link.to.round + W.conf.commitHistoryRounds ∨ d.link.to ∈ depIds p true ∨
      ∃ l ∈ indirectLinks p, d.link.to = l.to := by
  obtain ⟨dp, hs, hb⟩ := ((verdict_root_cause W.conf p run hr).2 d h).1
  generalize hi : d.link.to = i at *
  generalize hrs : d.reason = r at *
  cases hb with
  | trans q root hle => exact .inl hle
  | invalid q r =>
    right
    rcases hs with ⟨hs, hno⟩ | ⟨th, hs⟩
    · left
      rw [hf.order.mem_iff, List.mem_append] at hs
      rcases hs with hs | hs
      · obtain ⟨j, hj, hres⟩ := List.mem_map.mp hs
        have := hf.resolves _ _ hres
        simp only [DagPoint.id] at this
        rw [this]
        unfold depIds at hj ⊢
        simp only [if_true]
        split at hj
        · exact hj
        · simp only [List.nil_append] at hj
          exact List.mem_append_right _ hj
      · obtain ⟨h1, h2, h3⟩ := hf.others _ hs
        exact absurd ⟨⟨h1, h2⟩, h3⟩ hno
    · right
      rw [hf.orderI.mem_iff] at hs
      obtain ⟨l, hl, hres⟩ := List.mem_map.mp hs
      rw [Option.map_eq_some_iff] at hres
      obtain ⟨dp', e1, e2⟩ := hres
      simp only [Prod.mk.injEq] at e2
      have := hf.resolvesI _ _ e1
      rw [e2.1] at this
      simp only [DagPoint.id] at this
      unfold scannedLinks at hl
      exact ⟨l, List.takeWhile_subset _ hl, this⟩

/-! ### quorums -/

theorem tryFrom_ok {n : Nat} {c : PeerCount} (h : tryFrom n = .ok c) : c.oneF = (n + 1) / 3 ∧ 3 ≤ n := by
  unfold tryFrom at h
  split at h
  · simp at h
  · dsimp only at h
    split at h
    · simp at h
      rw [← h]
      simp only
      omega
    · simp at h

theorem peerCountFor_false {l r m c} (h : peerCountFor false l r m = .ok c) : c.oneF = (l + 1) / 3 ∧ 3 ≤ l := by
  unfold peerCountFor at h
  simp only [Bool.false_eq_true, if_false] at h
  split at h
  · rename_i c' hc
    simp at h; subst h
    exact tryFrom_ok hc
  · simp at h
  · simp at h

/-- Peer sets of a verified point two or more rounds above genesis. -/
theorem verify_inner {p : Info} {peersFor conf} (h : verify p peersFor conf = .ok)
    (hr : conf.genesisRound + 1 < p.round) (hg : 0 < conf.genesisRound) :
    ∃ ca cb cc, ca.oneF = ((peersFor p.round).length + 1) / 3 ∧ 3 ≤ (peersFor p.round).length ∧
      cb.oneF = ((peersFor (p.round - 1)).length + 1) / 3 ∧
      peersError p ⟨(ca, peersFor p.round), some (cb, peersFor (p.round - 1)), some (cc, peersFor (p.round - 1 - 1))⟩ =
        none := by
  obtain ⟨inner, hi, _, _, hp⟩ := verify_ok h
  unfold Inner.new at hi
  dsimp only at hi
  split at hi
  · omega
  · omega
  · omega
  · simp only [bind, Except.bind] at hi
    split at hi
    · simp at hi
    · rename_i cc hcc
      split at hi
      · simp at hi
      · rename_i ca hca
        split at hi
        · simp at hi
        · rename_i cb hcb
          simp [pure, Except.pure] at hi
          subst hi
          have h1 := peerCountFor_false hca
          have h2 := peerCountFor_false hcb
          exact ⟨ca, cb, cc, h1.1, h1.2, h2.1, hp⟩

/-- Peers that a map of a point mentions. -/
def peersOf (m : PMap) : Finset Nat := (m.map (·.1)).toFinset

theorem card_peersOf {m : PMap} (h : m.Uniq) : (peersOf m).card = m.length := by
  unfold peersOf
  rw [List.toFinset_card_of_nodup h, List.length_map]

theorem card_inter_ge {a b s : Finset Nat} (ha : a ⊆ s) (hb : b ⊆ s) : a.card + b.card ≤ (a ∩ b).card + s.card := by
  have h1 := Finset.card_union_add_card_inter a b
  have h2 : (a ∪ b).card ≤ s.card := Finset.card_le_card (Finset.union_subset ha hb)
  omega

/-- **C55.** Two verified points of the same round, two or more rounds above genesis, include points of more than `F`
common peers, where `F` is the number of faults tolerated among the peers of the previous round. -/
theorem includes_quorums_intersect {peersFor conf} (hg : 0 < conf.genesisRound) (p q : Info)
    (hp : verify p peersFor conf = .ok) (hq : verify q peersFor conf = .ok) (hpq : q.round = p.round)
    (hr : conf.genesisRound + 1 < p.round) (hup : p.includes.Uniq) (huq : q.includes.Uniq) :
    ((peersFor (p.round - 1)).length + 1) / 3 + 1 ≤ (peersOf p.includes ∩ peersOf q.includes).card := by
  obtain ⟨ca, cb, cc, _, _, hcb, hpe⟩ := verify_inner hp hr hg
  obtain ⟨ca', cb', cc', _, _, hcb', hqe⟩ := verify_inner hq (by omega) hg
  rw [hpq] at hcb' hqe
  unfold peersError at hpe hqe
  rw [or_eq_none', or_eq_none'] at hpe hqe
  have hi := hpe.2.1
  have hj := hqe.2.1
  have sub : ∀ (r : Info) (c : PeerCount), includesPeersError r (some (c, peersFor (p.round - 1))) = none →
      peersOf r.includes ⊆ (peersFor (p.round - 1)).toFinset ∧ c.majority ≤ r.includes.length := by
    intro r c h
    unfold includesPeersError at h
    simp only at h
    split at h
    · simp at h
    rename_i h1
    split at h
    · simp at h
    rename_i h2
    refine ⟨?_, by omega⟩
    intro x hx
    unfold peersOf at hx
    rw [List.mem_toFinset, List.mem_map] at hx
    obtain ⟨e, he, rfl⟩ := hx
    simp only [List.any_eq_true, decide_eq_true_eq, not_exists, not_and, Decidable.not_not] at h1
    rw [List.mem_toFinset]
    exact h1 e he
  obtain ⟨s1, l1⟩ := sub p cb hi
  obtain ⟨s2, l2⟩ := sub q cb' hj
  have hcard := card_inter_ge s1 s2
  rw [card_peersOf hup, card_peersOf huq] at hcard
  have hle : (peersFor (p.round - 1)).toFinset.card ≤ (peersFor (p.round - 1)).length := List.toFinset_card_le _
  unfold PeerCount.majority at l1 l2
  rw [hcb] at l1
  rw [hcb'] at l2
  generalize hn : (peersFor (p.round - 1)).length = n at *
  have : n ≤ 3 * ((n + 1) / 3) + 1 := by omega
  omega

/-- **C55.** Two verified points of one author and one round that prove two different previous points carry signatures
of at least `F` common peers besides the author: more than `F` peers equivocated. -/
theorem two_proven_points_need_double_signers {peersFor conf} (hg : 0 < conf.genesisRound) (p q : Info)
    (hp : verify p peersFor conf = .ok) (hq : verify q peersFor conf = .ok) (hpq : q.round = p.round)
    (ha : q.author = p.author) (hr : conf.genesisRound + 1 < p.round)
    (hup : p.evidence.Uniq) (huq : q.evidence.Uniq)
    (hpp : ∃ d, (p.author, d) ∈ p.includes) (hqp : ∃ d, (q.author, d) ∈ q.includes) :
    ((peersFor p.round).length + 1) / 3 ≤ (peersOf p.evidence ∩ peersOf q.evidence).card ∧
      p.author ∉ peersOf p.evidence ∩ peersOf q.evidence := by
  obtain ⟨ca, cb, cc, hca, h3, _, hpe⟩ := verify_inner hp hr hg
  obtain ⟨ca', cb', cc', hca', _, _, hqe⟩ := verify_inner hq (by omega) hg
  rw [hpq] at hca' hqe
  unfold peersError at hpe hqe
  rw [or_eq_none', or_eq_none'] at hpe hqe
  have sub : ∀ (r : Info) (c : PeerCount), verify r peersFor conf = .ok → r.round = p.round → r.author = p.author →
      (∃ d, (r.author, d) ∈ r.includes) → c.oneF = ((peersFor p.round).length + 1) / 3 →
      evidencePeersError r (c, peersFor p.round) = none →
      peersOf r.evidence ⊆ (peersFor p.round).toFinset.erase p.author ∧ c.majorityOfOthers ≤ r.evidence.length ∧
        p.author ∈ peersFor p.round := by
    intro r c hv hrr hra hinc hc h
    have hsh := verify_shape hv (by omega)
    have hev : r.evidence.isEmpty = false := by
      rw [hsh.evidence, PMap.has_iff.mpr hinc]; rfl
    unfold evidencePeersError at h
    split at h
    · simp at h
    rename_i h0
    rw [hev] at h
    simp only [Bool.false_eq_true, if_false] at h
    split at h
    · simp at h
    split at h
    · simp at h
    rename_i h1
    split at h
    · simp at h
    rename_i h2
    simp only [Decidable.not_not] at h0
    refine ⟨?_, by omega, by rw [← hra]; exact h0⟩
    intro x hx
    unfold peersOf at hx
    rw [List.mem_toFinset, List.mem_map] at hx
    obtain ⟨e, he, rfl⟩ := hx
    simp only [List.any_eq_true, decide_eq_true_eq, not_exists, not_and, Decidable.not_not] at h1
    rw [Finset.mem_erase, List.mem_toFinset]
    refine ⟨?_, h1 e he⟩
    intro hcon
    have := hsh.evidenceAuthor
    have hh : r.evidence.has r.author = true := PMap.has_iff.mpr ⟨e.2, by rw [hra, ← hcon]; exact he⟩
    rw [this] at hh
    simp at hh
  obtain ⟨s1, l1, hmem⟩ := sub p ca hp rfl rfl hpp hca hpe.1
  obtain ⟨s2, l2, _⟩ := sub q ca' hq hpq ha hqp hca' hqe.1
  have hcard := card_inter_ge s1 s2
  rw [card_peersOf hup, card_peersOf huq, Finset.card_erase_of_mem (by rw [List.mem_toFinset]; exact hmem)] at hcard
  have hle : (peersFor p.round).toFinset.card ≤ (peersFor p.round).length := List.toFinset_card_le _
  unfold PeerCount.majorityOfOthers at l1 l2
  rw [hca] at l1
  rw [hca'] at l2
  refine ⟨?_, ?_⟩
  · generalize hn : (peersFor p.round).length = n at *
    have : n ≤ 3 * ((n + 1) / 3) + 1 := by omega
    omega
  · intro hcon
    have := s1 (Finset.mem_inter.mp hcon).1
    simp at this

end Tycho.Verifier
