import Verif.Lookup.Props

/-! C179: `find_peers`. -/
namespace Tycho.Lookup

open Tycho.Dht

/-- The responses of a lookup, `none` for an error or none in time. -/
abbrev Resps := List (Id × Option (List Info))

/-- A response held the info, and it is valid. -/
def Named (h : Resps) (n : Info) : Prop := ∃ p nodes, (p, some nodes) ∈ h ∧ n ∈ nodes ∧ n.valid = true

/-- `q` is found in `d` steps from the first candidates, each from a peer to one it named. -/
inductive Hops (init : List Id) (h : Resps) : Nat → Id → Prop
  | first {q} : q ∈ init → Hops init h 0 q
  | next {d p nodes n} : Hops init h d p → (p, some nodes) ∈ h → n ∈ nodes → n.valid = true → Hops init h (d + 1) n.id

/-- All that the history `h` holds `h'` does as well. -/
def Sub (h h' : Resps) : Prop := ∀ p nodes, (p, some nodes) ∈ h → ∃ nodes', (p, some nodes') ∈ h' ∧ ∀ n ∈ nodes, n ∈ nodes'

theorem Hops.mono {init : List Id} {h h' : Resps} (hs : Sub h h') {d : Nat} {q : Id} (hh : Hops init h d q) : Hops init h' d q := by
  induction hh with
  | first hq => exact .first hq
  | next _ hm hn hv ih =>
    obtain ⟨nodes', h1, h2⟩ := hs _ _ hm
    exact .next ih h1 (h2 _ hn) hv

/-- What holds of a lookup. -/
structure FPInv (localId target : Id) (maxK : Nat) (maxDepth : Option Nat) (init : List Id) (s : FP) (h : Resps) : Prop where
  look : ∃ named, LInv localId target maxK named s.look ∧
    (∀ q ∈ init, IsId q ∧ (q ≠ localId → q ∈ named)) ∧
    ∀ n, Named h n → IsId n.id ∧ (n.accept = true → n.id ≠ localId → n.id ∈ named)
  ans : s.look.answered = (h.map Prod.fst).reverse
  depth : ∀ q d, s.depths q = some d → Hops init h d q
  asked : ∀ q ∈ s.look.scheduled, ∃ d, s.depths q = some d ∧ ∀ m, maxDepth = some m → d ≤ m
  resNone : ∀ q, s.result q = none ↔ ∀ n, Named h n → n.id = q → q = localId
  resSome : ∀ q i, s.result q = some i → q ≠ localId ∧ Named h i ∧ i.id = q ∧
    ∀ n, Named h n → n.id = q → n.createdAt ≤ i.createdAt
  stored : init.length ≤ maxK → ∀ q, Stored s.look.table q → ∃ d, s.depths q = some d

theorem named_snoc {p : Id} {pre : List Info} {n : Info} {h : Resps} (m : Info) :
    Named ((p, some (pre ++ [n])) :: h) m ↔ Named ((p, some pre) :: h) m ∨ (m = n ∧ n.valid = true) := by
  unfold Named
  constructor
  · rintro ⟨a, b, hm, hb, hv⟩
    rcases List.mem_cons.mp hm with hm | hm
    · simp only [Prod.mk.injEq, Option.some.injEq] at hm
      rw [hm.2, List.mem_append, List.mem_singleton] at hb
      rcases hb with hb | rfl
      · exact .inl ⟨p, pre, by simp, hb, hv⟩
      · exact .inr ⟨rfl, hv⟩
    · exact .inl ⟨a, b, by simp [hm], hb, hv⟩
  · rintro (⟨a, b, hm, hb, hv⟩ | ⟨rfl, hv⟩)
    · rcases List.mem_cons.mp hm with hm | hm
      · simp only [Prod.mk.injEq, Option.some.injEq] at hm
        exact ⟨p, pre ++ [n], by simp, by rw [← hm.2]; simp [hb], hv⟩
      · exact ⟨a, b, by simp [hm], hb, hv⟩
    · exact ⟨p, pre ++ [m], by simp, by simp, hv⟩

theorem sub_snoc {p : Id} {pre : List Info} {n : Info} {h : Resps} : Sub ((p, some pre) :: h) ((p, some (pre ++ [n])) :: h) := by
  intro a b hm
  rcases List.mem_cons.mp hm with hm | hm
  · simp only [Prod.mk.injEq, Option.some.injEq] at hm
    exact ⟨pre ++ [n], by simp [hm.1], fun x hx => by rw [← hm.2]; simp [hx]⟩
  · exact ⟨b, by simp [hm], fun _ hx => hx⟩

/-- A node of a response. -/
theorem FPInv.node {localId target : Id} (ht : IsId target) {maxK : Nat} {maxDepth : Option Nat} {init : List Id} {s : FP}
    {p : Id} {pre : List Info} {h : Resps} (hi : FPInv localId target maxK maxDepth init s ((p, some pre) :: h)) {depth : Nat}
    (hd : Hops init ((p, some pre) :: h) depth p) {n : Info} (hn : IsId n.id) :
    FPInv localId target maxK maxDepth init (FP.addNode localId maxK depth s n) ((p, some (pre ++ [n])) :: h) := by
  obtain ⟨⟨named, hl, hin, hnm⟩, hans, hdep, hask, hrn, hrs, hst⟩ := hi
  unfold FP.addNode
  split
  · rename_i hc
    obtain ⟨hv, hne⟩ := hc
    refine ⟨⟨_, hl.add ht hn hne n.accept, ?_, ?_⟩, hans, ?_, ?_, ?_, ?_, ?_⟩
    · intro q hq
      exact ⟨(hin q hq).1, fun h => by have := (hin q hq).2 h; split <;> simp [this]⟩
    · intro m hm
      rcases (named_snoc m).mp hm with hm | ⟨rfl, _⟩
      · exact ⟨(hnm m hm).1, fun ha hl => by have := (hnm m hm).2 ha hl; split <;> simp [this]⟩
      · exact ⟨hn, fun ha _ => by rw [ha]; simp⟩
    · intro q d hq
      dsimp only at hq
      split at hq
      · rename_i he
        have hnew : Hops init ((p, some (pre ++ [n])) :: h) (depth + 1) q :=
          he ▸ .next (hd.mono sub_snoc) (List.mem_cons_self ..) (by simp) hv
        cases ho : s.depths q with
        | none => rw [ho] at hq; simp only [Option.elim, Option.some.injEq] at hq; exact hq ▸ hnew
        | some o =>
          rw [ho] at hq
          simp only [Option.elim, Option.some.injEq] at hq
          rcases Nat.le_total o (depth + 1) with hle | hle
          · rw [Nat.min_eq_left hle] at hq
            exact hq ▸ (hdep q o ho).mono sub_snoc
          · rw [Nat.min_eq_right hle] at hq
            exact hq ▸ hnew
      · exact (hdep q d hq).mono sub_snoc
    · intro q hq
      obtain ⟨d, h1, h2⟩ := hask q hq
      dsimp only
      split
      · rw [h1]
        exact ⟨_, rfl, fun m hm => Nat.le_trans (Nat.min_le_left _ _) (h2 m hm)⟩
      · exact ⟨d, h1, h2⟩
    · intro q
      dsimp only
      split
      · rename_i he
        constructor
        · intro h; simp at h
        · intro hall
          exact absurd (he ▸ hall n ((named_snoc n).mpr (.inr ⟨rfl, hv⟩)) he.symm) hne
      · rename_i he
        rw [hrn]
        constructor
        · intro hall m hm hmq
          rcases (named_snoc m).mp hm with hm | ⟨rfl, _⟩
          · exact hall m hm hmq
          · exact absurd hmq.symm he
        · intro hall m hm hmq
          exact hall m ((named_snoc m).mpr (.inl hm)) hmq
    · intro q i hq
      dsimp only at hq
      split at hq
      · rename_i he
        refine ⟨he ▸ hne, ?_⟩
        cases ho : s.result q with
        | none =>
          rw [ho] at hq
          simp only [Option.elim, Option.some.injEq] at hq
          subst hq
          refine ⟨(named_snoc n).mpr (.inr ⟨rfl, hv⟩), he.symm, fun m hm hmq => ?_⟩
          rcases (named_snoc m).mp hm with hm | ⟨rfl, _⟩
          · exact absurd ((hrn q).mp ho m hm hmq) (he ▸ hne)
          · exact Nat.le_refl _
        | some o =>
          rw [ho] at hq
          simp only [Option.elim, Option.some.injEq] at hq
          obtain ⟨_, h1, h2, h3⟩ := hrs q o ho
          split at hq
          · rename_i hlt
            subst hq
            refine ⟨(named_snoc n).mpr (.inr ⟨rfl, hv⟩), he.symm, fun m hm hmq => ?_⟩
            rcases (named_snoc m).mp hm with hm | ⟨rfl, _⟩
            · have := h3 m hm hmq; omega
            · exact Nat.le_refl _
          · rename_i hlt
            subst hq
            refine ⟨(named_snoc o).mpr (.inl h1), h2, fun m hm hmq => ?_⟩
            rcases (named_snoc m).mp hm with hm | ⟨rfl, _⟩
            · exact h3 m hm hmq
            · omega
      · rename_i he
        obtain ⟨h0, h1, h2, h3⟩ := hrs q i hq
        refine ⟨h0, (named_snoc i).mpr (.inl h1), h2, fun m hm hmq => ?_⟩
        rcases (named_snoc m).mp hm with hm | ⟨rfl, _⟩
        · exact h3 m hm hmq
        · exact absurd hmq.symm he
    · intro hk q hq
      dsimp only at hq ⊢
      split
      · exact ⟨_, rfl⟩
      · rename_i he
        rcases add_mem hq with hq | hq
        · exact hst hk q hq
        · exact absurd hq he
  · rename_i hc
    have hnamed : ∀ m, Named ((p, some (pre ++ [n])) :: h) m → Named ((p, some pre) :: h) m ∨ (m = n ∧ n.id = localId) := by
      intro m hm
      rcases (named_snoc m).mp hm with hm | ⟨rfl, hv⟩
      · exact .inl hm
      · exact .inr ⟨rfl, Classical.byContradiction fun hx => hc ⟨hv, hx⟩⟩
    refine ⟨⟨named, hl, hin, fun m hm => ?_⟩, hans, fun q d hq => (hdep q d hq).mono sub_snoc, hask, fun q => ?_, fun q i hq => ?_, hst⟩
    · rcases hnamed m hm with hm | ⟨rfl, hm⟩
      · exact hnm m hm
      · exact ⟨hn, fun _ hl => absurd hm hl⟩
    · rw [hrn]
      constructor
      · intro hall m hm hmq
        rcases hnamed m hm with hm | ⟨rfl, hm⟩
        · exact hall m hm hmq
        · exact hmq ▸ hm
      · intro hall m hm hmq
        exact hall m ((named_snoc m).mpr (.inl hm)) hmq
    · obtain ⟨h0, h1, h2, h3⟩ := hrs q i hq
      refine ⟨h0, (named_snoc i).mpr (.inl h1), h2, fun m hm hmq => ?_⟩
      rcases hnamed m hm with hm | ⟨rfl, hm⟩
      · exact h3 m hm hmq
      · exact absurd (hmq ▸ hm) h0

/-- The nodes of a response. -/
theorem FPInv.nodes {localId target : Id} (ht : IsId target) {maxK : Nat} {maxDepth : Option Nat} {init : List Id}
    {p : Id} {h : Resps} {depth : Nat} (nodes : List Info) (hn : ∀ n ∈ nodes, IsId n.id) (s : FP) (pre : List Info)
    (hi : FPInv localId target maxK maxDepth init s ((p, some pre) :: h)) (hd : Hops init ((p, some pre) :: h) depth p) :
    FPInv localId target maxK maxDepth init (nodes.foldl (FP.addNode localId maxK depth) s) ((p, some (pre ++ nodes)) :: h) := by
  induction nodes generalizing s pre with
  | nil => simpa using hi
  | cons n nodes ih =>
    rw [List.foldl_cons]
    have := ih (fun m hm => hn m (by simp [hm])) _ _ (hi.node ht hd (hn n (by simp))) (hd.mono sub_snoc)
    simpa using this

theorem candidates_stored {localId target : Id} (maxK : Nat) (init : List Id) {q : Id}
    (hq : Stored (candidates localId target maxK init) q) : q ∈ init := by
  unfold candidates at hq
  have key : ∀ (init : List Id) (t : Table),
      Stored (init.foldl (fun t p => if p = localId then t else (t.add p maxK false true).1) t) q → q ∈ init ∨ Stored t q := by
    intro init
    induction init with
    | nil => intro t h; exact .inr h
    | cons p init ih =>
      intro t h
      rw [List.foldl_cons] at h
      rcases ih _ h with h | h
      · exact .inl (by simp [h])
      · split at h
        · exact .inr h
        · rcases add_mem h with h | h
          · exact .inr h
          · exact .inl (by simp [h])
  rcases key init _ hq with h | ⟨i, hi⟩
  · exact h
  · simp [Table.new] at hi

theorem schedule_mem (ok : Id → Bool) (maxK : Nat) (l : Look) {q : Id} (hq : q ∈ (schedule ok maxK l).scheduled) :
    q ∈ l.scheduled ∨ (q ∈ l.table.closest l.table.localId maxK ∧ ok q = true) :=
  ((schedule_fold ok (l.table.closest l.table.localId maxK) l).2.2.1 q).mp hq

theorem start_inv {localId target : Id} (ht : IsId target) {maxK : Nat} (maxDepth : Option Nat) {init : List Id}
    (hi : ∀ p ∈ init, IsId p) : FPInv localId target maxK maxDepth init (FP.start localId target maxK init) [] := by
  have hc := candidates_inv (localId := localId) ht maxK hi
  have hn : ∀ n, ¬ Named [] n := by rintro n ⟨_, _, hm, _⟩; simp at hm
  have hmem : ∀ q, q ∈ (FP.start localId target maxK init).look.scheduled → q ∈ init := by
    intro q hq
    rcases schedule_mem _ _ _ hq with hq | ⟨hq, _⟩
    · simp at hq
    · refine candidates_stored maxK init ((stored_range ht hc.inv).mpr ?_)
      rw [closest_self ht hc.inv] at hq
      exact List.mem_of_mem_take hq
  refine ⟨⟨_, hc.schedule ht _, fun q hq => ⟨hi q hq, fun hne => by simp [hq, hne]⟩, fun n h => absurd h (hn n)⟩,
    schedule_answered _ _ _, fun q d hq => ?_, fun q hq => ⟨0, ?_, fun _ _ => Nat.zero_le _⟩, fun q => ?_, fun q i hq => ?_,
    fun hk q hq => ⟨0, ?_⟩⟩
  · unfold FP.start at hq
    dsimp only at hq
    split at hq
    · rename_i hs
      simp only [Option.some.injEq] at hq
      exact hq ▸ .first (hmem q hs)
    · simp at hq
  · unfold FP.start at hq ⊢
    dsimp only at hq ⊢
    rw [if_pos hq]
  · exact ⟨fun _ n h => absurd h (hn n), fun _ => rfl⟩
  · unfold FP.start at hq; simp at hq
  · unfold FP.start at hq ⊢
    dsimp only at hq ⊢
    rw [schedule_table] at hq
    rw [if_pos]
    refine ((schedule_fold (fun _ => true) _ { table := candidates localId target maxK init }).2.2.1 q).mpr (.inr ⟨?_, rfl⟩)
    dsimp only
    rw [closest_self ht hc.inv, List.take_of_length_le]
    · exact (stored_range ht hc.inv).mp hq
    · refine Nat.le_trans (List.subperm_of_subset (range_nodup hc.inv _ List.nodup_range) ?_).length_le hk
      intro x hx
      exact candidates_stored maxK init ((stored_range ht hc.inv).mpr hx)

theorem FP.inv {localId target : Id} (ht : IsId target) {maxK : Nat} {maxDepth : Option Nat} {init : List Id} {s : FP} {h : Resps}
    (hr : FP.Reach localId target maxK maxDepth init s h) :
    FPInv localId target maxK maxDepth init s h ∧ (maxDepth = none → init.length ≤ maxK →
      ∀ p ∈ s.look.table.closest s.look.table.localId maxK, p ∈ s.look.scheduled) := by
  induction hr with
  | start hi => exact ⟨start_inv ht maxDepth hi, fun _ _ p hp => schedule_asks _ _ _ p hp rfl⟩
  | @step s t h p r hr hn hst ih =>
    obtain ⟨⟨⟨named, hl, hin, hnm⟩, hans, hdep, hask, hrn, hrs, hsto⟩, hasks⟩ := ih
    unfold FP.step at hst
    split at hst
    · rename_i hp
      cases hd : s.depths p with
      | none => rw [hd] at hst; simp at hst
      | some depth =>
        rw [hd] at hst
        simp only [Option.bind_some] at hst
        have ha2 : (s.look.answer p).answered = (p :: h.map Prod.fst).reverse := by
          rw [List.reverse_cons, ← hans]; rfl
        have base : ∀ r : Option (List Info), (r = none ∨ r = some []) →
            FPInv localId target maxK maxDepth init { s with look := s.look.answer p } ((p, r) :: h) := by
          intro r hre
          have hnamed : ∀ m, Named ((p, r) :: h) m ↔ Named h m := by
            intro m
            constructor
            · rintro ⟨a, b, hm, hb, hv⟩
              rcases List.mem_cons.mp hm with hm | hm
              · rcases hre with rfl | rfl
                · simp at hm
                · simp only [Prod.mk.injEq, Option.some.injEq] at hm
                  rw [hm.2] at hb; simp at hb
              · exact ⟨a, b, hm, hb, hv⟩
            · rintro ⟨a, b, hm, hb, hv⟩; exact ⟨a, b, by simp [hm], hb, hv⟩
          refine ⟨⟨named, hl.answer hp, hin, fun n hm => hnm n ((hnamed n).mp hm)⟩, ha2,
            fun q d hq => (hdep q d hq).mono fun a b hm => ⟨b, by simp [hm], fun _ hx => hx⟩, hask, fun q => ?_, fun q i hq => ?_, hsto⟩
          · simp only [hnamed]; exact hrn q
          · simp only [hnamed]; exact hrs q i hq
        cases r with
        | none =>
          simp only [Option.some.injEq] at hst
          subst hst
          exact ⟨base none (.inl rfl), hasks⟩
        | some nodes =>
          simp only [Option.some.injEq] at hst
          have hb := FPInv.nodes ht nodes (hn nodes rfl) _ [] (base (some []) (.inr rfl))
            ((hdep p depth hd).mono fun a b hm => ⟨b, by simp [hm], fun _ hx => hx⟩)
          simp only [List.nil_append] at hb
          revert hb hst
          generalize nodes.foldl (FP.addNode localId maxK depth) { s with look := s.look.answer p } = u
          intro hst hb
          subst hst
          obtain ⟨⟨named, hl, hin, hnm⟩, hans, hdep, hask, hrn, hrs, hsto⟩ := hb
          refine ⟨⟨⟨named, hl.schedule ht _, hin, hnm⟩, ?_, hdep, ?_, hrn, hrs, ?_⟩, ?_⟩
          · dsimp only; rw [schedule_answered]; exact hans
          · intro q hq
            rcases schedule_mem _ _ _ hq with hq | ⟨_, hq⟩
            · exact hask q hq
            · dsimp only
              unfold mayAsk at hq
              cases hdq : u.depths q with
              | none => rw [hdq] at hq; simp at hq
              | some d =>
                rw [hdq] at hq
                refine ⟨d, rfl, fun m hm => ?_⟩
                rw [hm] at hq
                simpa using hq
          · intro hk q hq
            dsimp only at hq ⊢
            rw [schedule_table] at hq
            exact hsto hk q hq
          · intro hm hk q hq
            refine schedule_asks _ _ _ q hq ?_
            dsimp only at hq
            rw [schedule_table] at hq
            obtain ⟨d, h1⟩ := hsto hk q ((stored_range ht hl.inv).mpr
              (List.mem_of_mem_take (by rw [closest_self ht hl.inv] at hq; exact hq)))
            unfold mayAsk
            rw [h1, hm]; rfl
    · simp at hst

/-- **C179**: whatever the peers answer and in which order, the lookup never fails (at the index into the depths): the
response of anyone asked moves it on. -/
theorem find_peers_no_panic {localId target : Id} (ht : IsId target) {maxK : Nat} {maxDepth : Option Nat} {init : List Id} {s : FP}
    {h : Resps} (hr : FP.Reach localId target maxK maxDepth init s h) {p : Id} (hp : p ∈ s.look.pending) (r : Option (List Info)) :
    (FP.step localId maxK maxDepth s p r).isSome = true := by
  obtain ⟨hi, _⟩ := FP.inv ht hr
  obtain ⟨named, hl, _⟩ := hi.look
  obtain ⟨d, hd, _⟩ := hi.asked p (hl.perm.mem_iff.mp (List.mem_append_right _ hp))
  unfold FP.step
  rw [if_pos hp, hd, Option.bind_some]
  cases r <;> rfl

/-- **C179**: no peer is asked twice, neither the peer itself nor the target is asked, no more than `256 * max_k` are asked
at all; and all asked are found in at most so many steps from the first candidates, each from a peer to one it named. -/
theorem find_peers_asks {localId target : Id} (ht : IsId target) {maxK : Nat} {maxDepth : Option Nat} {init : List Id} {s : FP}
    {h : Resps} (hr : FP.Reach localId target maxK maxDepth init s h) :
    (h.map Prod.fst ++ s.look.pending).Nodup ∧ (h.map Prod.fst ++ s.look.pending).length ≤ 256 * maxK ∧
      ∀ p ∈ h.map Prod.fst ++ s.look.pending, IsId p ∧ p ≠ localId ∧ p ≠ target ∧
        ∃ d, Hops init h d p ∧ ∀ m, maxDepth = some m → d ≤ m := by
  obtain ⟨hi, _⟩ := FP.inv ht hr
  obtain ⟨named, hl, _⟩ := hi.look
  have hp : (h.map Prod.fst ++ s.look.pending).Perm s.look.scheduled := by
    refine List.Perm.trans ?_ hl.perm
    rw [hi.ans]
    exact (List.reverse_perm _).symm.append_right _
  refine ⟨hp.nodup_iff.mpr hl.nodup, hp.length_eq ▸ asked_le ht hl, fun p hm => ?_⟩
  obtain ⟨h1, h2, h3⟩ := asked_ne ht hl (hp.mem_iff.mp hm)
  obtain ⟨d, h4, h5⟩ := hi.asked p (hp.mem_iff.mp hm)
  exact ⟨h1, h2, h3, d, hi.depth p d h4, h5⟩

/-- **C179**: the result has exactly the peers named validly, but the peer itself, each with a valid info of it that came
in a response, of which none that came is newer. -/
theorem find_peers_result {localId target : Id} (ht : IsId target) {maxK : Nat} {maxDepth : Option Nat} {init : List Id} {s : FP}
    {h : Resps} (hr : FP.Reach localId target maxK maxDepth init s h) (q : Id) :
    ((s.result q).isSome = true ↔ q ≠ localId ∧ ∃ n, Named h n ∧ n.id = q) ∧
    ∀ i, s.result q = some i → Named h i ∧ i.id = q ∧ ∀ n, Named h n → n.id = q → n.createdAt ≤ i.createdAt := by
  obtain ⟨hi, _⟩ := FP.inv ht hr
  refine ⟨?_, fun i hq => (hi.resSome q i hq).2⟩
  constructor
  · intro hs
    obtain ⟨i, hq⟩ := Option.isSome_iff_exists.mp hs
    obtain ⟨h1, h2, h3, _⟩ := hi.resSome q i hq
    exact ⟨h1, i, h2, h3⟩
  · rintro ⟨h1, n, h2, h3⟩
    cases hq : s.result q with
    | none => exact absurd ((hi.resNone q).mp hq n h2 h3) h1
    | some i => rfl

/-- **C179**: once everyone asked has answered and there is no limit of steps, each peer named validly (or a first
candidate), that may be used and is neither the peer itself nor the target, has answered, or `max_k` different peers no
farther from the target have. -/
theorem find_peers_exhausted {localId target : Id} (ht : IsId target) {maxK : Nat} {init : List Id} {s : FP} {h : Resps}
    (hr : FP.Reach localId target maxK none init s h) (hk : init.length ≤ maxK) (hp : s.look.pending = []) (q : Id)
    (hq : q ∈ init ∨ ∃ n, Named h n ∧ n.accept = true ∧ n.id = q) (hl : q ≠ localId) (hqt : q ≠ target) :
    q ∈ h.map Prod.fst ∨ ∃ near : List Id, near.Nodup ∧ near.length = maxK ∧
      ∀ x ∈ near, x ∈ h.map Prod.fst ∧ xorDistance target x ≤ xorDistance target q := by
  obtain ⟨hi, hasks⟩ := FP.inv ht hr
  obtain ⟨named, hlk, hin, hnm⟩ := hi.look
  have h2 : IsId q ∧ q ∈ named := by
    rcases hq with hq | ⟨n, hn, ha, rfl⟩
    · exact ⟨(hin q hq).1, (hin q hq).2 hl⟩
    · exact ⟨(hnm n hn).1, (hnm n hn).2 ha hl⟩
  have := exhausted ht hlk (hasks rfl hk) hp h2.2 h2.1 hqt
  simpa only [hi.ans, List.mem_reverse] using this

end Tycho.Lookup
