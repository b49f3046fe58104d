import Verif.Lookup.Lemmas

/-! C178: `find_value`. -/
namespace Tycho.Lookup

open Tycho.Dht

/-- `q` was among the first candidates, or a response named it validly, and it may be used. -/
def Offered (init : List Id) (h : List (Id × VResp)) (q : Id) : Prop :=
  q ∈ init ∨ ∃ p nodes n, (p, VResp.notFound nodes) ∈ h ∧ n ∈ nodes ∧ n.valid = true ∧ n.accept = true ∧ n.id = q

/-- What holds of a lookup throughout. -/
structure FVInv (localId target : Id) (maxK : Nat) (init : List Id) (s : FV) (h : List (Id × VResp)) : Prop where
  look : ∃ named, LInv localId target maxK named s.look ∧ ∀ q, Offered init h q → IsId q ∧ (q ≠ localId → q ∈ named)
  ans : s.look.answered = (h.map Prod.fst).reverse
  asks : ∀ p ∈ s.look.table.closest s.look.table.localId maxK, p ∈ s.look.scheduled
  found : ∀ v, s.found = some v ↔ ∃ p, (p, VResp.found v true) ∈ h
  head : ∀ v, s.found = some v → ∃ p h', h = (p, VResp.found v true) :: h'

theorem addNodes_inv {localId target : Id} (ht : IsId target) {maxK : Nat} (nodes : List Info) (hn : ∀ n ∈ nodes, IsId n.id)
    (l : Look) (named : List Id) (h : LInv localId target maxK named l) :
    ∃ named', LInv localId target maxK named' { l with table := nodes.foldl (addNode localId maxK) l.table } ∧
      (∀ q ∈ named, q ∈ named') ∧ ∀ n ∈ nodes, n.valid = true → n.accept = true → n.id ≠ localId → n.id ∈ named' := by
  induction nodes generalizing l named with
  | nil => exact ⟨named, h, fun _ hq => hq, by simp⟩
  | cons n nodes ih =>
    rw [List.foldl_cons]
    by_cases hv : n.valid = true ∧ n.id ≠ localId
    · have hst : addNode localId maxK l.table n = (l.table.add n.id maxK false n.accept).1 := by unfold addNode; rw [if_pos hv]
      rw [hst]
      obtain ⟨named', h1, h2, h3⟩ := ih (fun m hm => hn m (by simp [hm])) _ _ (h.add ht (hn n (by simp)) hv.2 n.accept)
      refine ⟨named', h1, fun q hq => h2 q (by split <;> simp [hq]), fun m hm hmv hma hml => ?_⟩
      rcases List.mem_cons.mp hm with rfl | hm
      · exact h2 _ (by rw [hma]; simp)
      · exact h3 m hm hmv hma hml
    · have hst : addNode localId maxK l.table n = l.table := by unfold addNode; rw [if_neg hv]
      rw [hst]
      obtain ⟨named', h1, h2, h3⟩ := ih (fun m hm => hn m (by simp [hm])) l named h
      refine ⟨named', h1, h2, fun m hm hmv hma hml => ?_⟩
      rcases List.mem_cons.mp hm with rfl | hm
      · exact absurd ⟨hmv, hml⟩ hv
      · exact h3 m hm hmv hma hml

theorem FV.inv {localId target : Id} (ht : IsId target) {maxK : Nat} {init : List Id} {s : FV} {h : List (Id × VResp)}
    (hr : FV.Reach localId target maxK init s h) : FVInv localId target maxK init s h := by
  induction hr with
  | start hi =>
    refine ⟨⟨_, (candidates_inv ht maxK hi).schedule ht _, ?_⟩, ?_, fun p hp => schedule_asks _ _ _ p hp rfl, ?_, ?_⟩
    · rintro q (hq | ⟨_, _, _, hm, _⟩)
      · exact ⟨hi q hq, fun hne => by simp [hq, hne]⟩
      · simp at hm
    · exact schedule_answered _ _ _
    · intro v; simp [FV.start]
    · intro v; simp [FV.start]
  | @step s t h p r hr hn hst ih =>
    unfold FV.step at hst
    split at hst
    · rename_i hc
      obtain ⟨hf, hp⟩ := hc
      obtain ⟨⟨named, hl, hoff⟩, hans, hasks, hfound, hhead⟩ := ih
      have hl2 := hl.answer hp
      have ha2 : (s.look.answer p).answered = (p :: h.map Prod.fst).reverse := by
        rw [List.reverse_cons, ← hans]; rfl
      have hnf : ∀ v q, (q, VResp.found v true) ∉ h := fun v q hm => by
        have := (hfound v).mpr ⟨q, hm⟩; rw [hf] at this; simp at this
      cases r with
      | found v valid =>
        simp only [Option.some.injEq] at hst
        subst hst
        refine ⟨⟨named, hl2, ?_⟩, ha2, hasks, ?_, ?_⟩
        · rintro q (hq | ⟨a, b, c, hm, hx⟩)
          · exact hoff q (.inl hq)
          · simp only [List.mem_cons, Prod.mk.injEq, reduceCtorEq, and_false, false_or] at hm
            exact hoff q (.inr ⟨a, b, c, hm, hx⟩)
        · intro w
          dsimp only
          constructor
          · intro hw
            cases valid with
            | false => simp at hw
            | true => simp only [if_true, Option.some.injEq] at hw; subst hw; exact ⟨p, by simp⟩
          · rintro ⟨q, hm⟩
            rcases List.mem_cons.mp hm with hm | hm
            · simp only [Prod.mk.injEq, VResp.found.injEq] at hm
              rw [← hm.2.2, hm.2.1]; rfl
            · exact absurd hm (hnf w q)
        · intro w hw
          dsimp only at hw
          cases valid with
          | false => simp at hw
          | true => simp only [if_true, Option.some.injEq] at hw; subst hw; exact ⟨p, h, rfl⟩
      | notFound nodes =>
        simp only [Option.some.injEq] at hst
        subst hst
        obtain ⟨named', h1, h2, h3⟩ := addNodes_inv ht nodes (hn nodes rfl) _ _ hl2
        refine ⟨⟨named', h1.schedule ht _, ?_⟩, ?_, fun q hq => schedule_asks _ _ _ q hq rfl, ?_, ?_⟩
        · rintro q (hq | ⟨a, b, c, hm, hc, hv, hac, rfl⟩)
          · exact ⟨(hoff q (.inl hq)).1, fun hne => h2 q ((hoff q (.inl hq)).2 hne)⟩
          · rcases List.mem_cons.mp hm with hm | hm
            · simp only [Prod.mk.injEq, VResp.notFound.injEq] at hm
              rw [hm.2] at hc
              exact ⟨hn nodes rfl c hc, fun hne => h3 c hc hv hac hne⟩
            · have := hoff c.id (.inr ⟨a, b, c, hm, hc, hv, hac, rfl⟩)
              exact ⟨this.1, fun hne => h2 _ (this.2 hne)⟩
        · dsimp only; rw [schedule_answered]; exact ha2
        · intro v
          dsimp only
          rw [hf]
          constructor
          · intro h; simp at h
          · rintro ⟨q, hm⟩
            simp only [List.mem_cons, Prod.mk.injEq, reduceCtorEq, and_false, false_or] at hm
            exact absurd hm (hnf v q)
        · intro v hv; dsimp only at hv; rw [hf] at hv; simp at hv
      | failed =>
        simp only [Option.some.injEq] at hst
        subst hst
        refine ⟨⟨named, hl2, ?_⟩, ha2, hasks, ?_, ?_⟩
        · rintro q (hq | ⟨a, b, c, hm, hx⟩)
          · exact hoff q (.inl hq)
          · simp only [List.mem_cons, Prod.mk.injEq, reduceCtorEq, and_false, false_or] at hm
            exact hoff q (.inr ⟨a, b, c, hm, hx⟩)
        · intro v
          dsimp only
          rw [hf]
          constructor
          · intro h; simp at h
          · rintro ⟨q, hm⟩
            simp only [List.mem_cons, Prod.mk.injEq, reduceCtorEq, and_false, false_or] at hm
            exact absurd hm (hnf v q)
        · intro v hv; dsimp only at hv; rw [hf] at hv; simp at hv
    · simp at hst

/-- **C178**: whatever the peers answer and in which order, no peer is asked twice, neither the peer itself nor the peer
whose id is the key is asked, and no more than `256 * max_k` are asked at all: no peers can keep a lookup from ending. -/
theorem find_value_asks {localId target : Id} (ht : IsId target) {maxK : Nat} {init : List Id} {s : FV} {h : List (Id × VResp)}
    (hr : FV.Reach localId target maxK init s h) :
    (h.map Prod.fst ++ s.look.pending).Nodup ∧ (h.map Prod.fst ++ s.look.pending).length ≤ 256 * maxK ∧
      ∀ p ∈ h.map Prod.fst ++ s.look.pending, IsId p ∧ p ≠ localId ∧ p ≠ target := by
  obtain ⟨⟨named, hl, _⟩, hans, _, _, _⟩ := FV.inv ht hr
  have hp : (h.map Prod.fst ++ s.look.pending).Perm s.look.scheduled := by
    refine List.Perm.trans ?_ hl.perm
    rw [hans]
    exact (List.reverse_perm _).symm.append_right _
  exact ⟨hp.nodup_iff.mpr hl.nodup, hp.length_eq ▸ asked_le ht hl, fun p hm => asked_ne ht hl (hp.mem_iff.mp hm)⟩

/-- **C178**: a value is returned only if a peer asked sent it and it is valid; and the first such is returned at once. -/
theorem find_value_found {localId target : Id} (ht : IsId target) {maxK : Nat} {init : List Id} {s : FV} {h : List (Id × VResp)}
    (hr : FV.Reach localId target maxK init s h) (v : Nat) :
    (s.result = some (some v) ↔ ∃ p, (p, VResp.found v true) ∈ h) ∧
    ((∃ p, (p, VResp.found v true) ∈ h) → ∃ p h', h = (p, VResp.found v true) :: h' ∧ ∀ q w, (q, VResp.found w true) ∉ h') := by
  obtain ⟨_, _, _, hf, hh⟩ := FV.inv ht hr
  constructor
  · rw [← hf v]
    unfold FV.result
    cases hs : s.found with
    | some w => simp
    | none => dsimp only; split <;> simp
  · intro hx
    obtain ⟨p, h', rfl⟩ := hh v ((hf v).mpr hx)
    refine ⟨p, h', rfl, fun q w hm => ?_⟩
    cases hr with
    | step hr' _ hst =>
      have := ((FV.inv ht hr').found w).mpr ⟨q, hm⟩
      unfold FV.step at hst
      rw [this] at hst
      simp at hst

/-- **C178**: nothing is returned only after everyone asked has answered, and then each peer named validly (or a first
candidate), that may be used and is neither the peer itself nor the one whose id is the key, has answered without a valid
value, or `max_k` different peers no farther from the key have. -/
theorem find_value_none {localId target : Id} (ht : IsId target) {maxK : Nat} {init : List Id} {s : FV} {h : List (Id × VResp)}
    (hr : FV.Reach localId target maxK init s h) (hres : s.result = some none) :
    s.look.pending = [] ∧ (∀ p v, (p, VResp.found v true) ∉ h) ∧
    ∀ q, Offered init h q → q ≠ localId → q ≠ target →
      q ∈ h.map Prod.fst ∨ ∃ near : List Id, near.Nodup ∧ near.length = maxK ∧
        ∀ x ∈ near, x ∈ h.map Prod.fst ∧ xorDistance target x ≤ xorDistance target q := by
  obtain ⟨⟨named, hl, hoff⟩, hans, hasks, hf, _⟩ := FV.inv ht hr
  have hs : s.found = none ∧ s.look.pending = [] := by
    unfold FV.result at hres
    cases hs : s.found with
    | some v => rw [hs] at hres; simp at hres
    | none =>
      rw [hs] at hres
      dsimp only at hres
      by_cases hp : s.look.pending = []
      · exact ⟨rfl, hp⟩
      · rw [if_neg hp] at hres; simp at hres
  refine ⟨hs.2, fun p v hm => ?_, fun q hq hql hqt => ?_⟩
  · have := (hf v).mpr ⟨p, hm⟩
    rw [hs.1] at this; simp at this
  · have := exhausted ht hl hasks hs.2 ((hoff q hq).2 hql) (hoff q hq).1 hqt
    simpa only [hans, List.mem_reverse] using this

/-- **C178**: till it returns someone asked has not answered, whose response moves it on. -/
theorem find_value_goes_on {localId target : Id} {maxK : Nat} {s : FV} (hres : s.result = none) :
    ∃ p ∈ s.look.pending, ∀ r, (FV.step localId maxK s p r).isSome = true := by
  unfold FV.result at hres
  cases hs : s.found with
  | some v => rw [hs] at hres; simp at hres
  | none =>
    rw [hs] at hres
    dsimp only at hres
    by_cases hp : s.look.pending = []
    · rw [if_pos hp] at hres; simp at hres
    · obtain ⟨p, hm⟩ := List.exists_mem_of_ne_nil _ hp
      refine ⟨p, hm, fun r => ?_⟩
      unfold FV.step
      rw [if_pos ⟨hs, hm⟩]
      cases r <;> rfl

end Tycho.Lookup
