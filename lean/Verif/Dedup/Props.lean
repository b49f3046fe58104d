import Verif.Dedup.Lemmas
import Mathlib.Data.List.Perm.Subperm

/-!
C10. The deduplicator fed with any sequence of sightings and cleanings whose rounds never decrease
(rounds start from 1, the window is at least one round).
-/
namespace Tycho.Dedup

variable {H : Type} [DecidableEq H]

/-- One call. -/
inductive Op (H : Type) where
  | check (round : Nat) (hash : H)
  | clean (round : Nat)

def Op.round : Op H → Nat
  | .check r _ => r
  | .clean r => r

/-- The real run: answers of the `check` calls; `none` if some call panics. -/
def run (d : Dedup H) : List (Op H) → Option (Dedup H × List Bool)
  | [] => some (d, [])
  | .check r h :: rest => (checkUnique d r h).bind fun (d', b) =>
      (run d' rest).map fun (d'', bs) => (d'', b :: bs)
  | .clean r :: rest => (Dedup.clean d r).bind fun d' => run d' rest

/-- Specification: was the hash seen in the `T` rounds ending with `r`? -/
def SeenWithin (T r : Nat) (hist : List (Nat × H)) (h : H) : Prop :=
  ∃ o, (o, h) ∈ hist ∧ r < o + T

/-- Specification of the answers: unique exactly when not seen within the window; cleanings are
invisible. `hist` is all sightings so far, whether they were answered unique or not. -/
inductive Answers (T : Nat) : List (Nat × H) → List (Op H) → List Bool → Prop
  | nil (hist) : Answers T hist [] []
  | check (hist r h rest b bs) : (b = true ↔ ¬ SeenWithin T r hist h) →
      Answers T ((r, h) :: hist) rest bs → Answers T hist (.check r h :: rest) (b :: bs)
  | clean (hist r rest bs) : Answers T hist rest bs → Answers T hist (.clean r :: rest) bs

theorem run_spec {T : Nat} (hT : 1 ≤ T) (ops : List (Op H)) (d : Dedup H) (hist : List (Nat × H))
    (cur : Nat) (hi : Inv T d hist cur) (hpos : ∀ e ∈ hist, 1 ≤ e.1)
    (hcur : ∀ op ∈ ops, cur ≤ op.round) (h1 : ∀ op ∈ ops, 1 ≤ op.round)
    (hs : ops.Pairwise (fun a b => a.round ≤ b.round)) :
    ∃ d' bs cur' hist', run d ops = some (d', bs) ∧ Answers T hist ops bs ∧ Inv T d' hist' cur' ∧
      (∀ e ∈ hist', 1 ≤ e.1) ∧ (cur' = cur ∨ ∃ op ∈ ops, cur' = op.round) := by
  induction ops generalizing d hist cur with
  | nil => exact ⟨d, [], cur, hist, rfl, .nil hist, hi, hpos, Or.inl rfl⟩
  | cons op ops ih =>
    have hp := List.pairwise_cons.1 hs
    have h1' : ∀ op ∈ ops, 1 ≤ op.round := fun o ho => h1 o (List.mem_cons_of_mem _ ho)
    cases op with
    | check r h =>
      have hr1 : 1 ≤ r := h1 _ (List.mem_cons_self ..)
      obtain ⟨d', b, e1, e2, e3⟩ := inv_check (r := r) hT hi (hcur _ (List.mem_cons_self ..)) hpos hr1 h
      obtain ⟨d'', bs, cur', hist', f1, f2, f3, f4, f5⟩ := ih d' ((r, h) :: hist) r e2
        (by
          intro e he
          rcases List.mem_cons.1 he with rfl | he
          · exact hr1
          · exact hpos e he)
        (fun o ho => hp.1 o ho) h1' hp.2
      refine ⟨d'', b :: bs, cur', hist', by rw [run, e1]; dsimp only [Option.bind]; rw [f1]; rfl, .check _ _ _ _ _ _ e3 f2, f3, f4, ?_⟩
      rcases f5 with rfl | ⟨op, ho, rfl⟩
      · exact Or.inr ⟨_, List.mem_cons_self .., rfl⟩
      · exact Or.inr ⟨op, List.mem_cons_of_mem _ ho, rfl⟩
    | clean r =>
      obtain ⟨d', e1, e2, _, _⟩ := inv_clean (r := r) hi (hcur _ (List.mem_cons_self ..))
      obtain ⟨d'', bs, cur', hist', f1, f2, f3, f4, f5⟩ := ih d' hist r e2 hpos
        (fun o ho => hp.1 o ho) h1' hp.2
      refine ⟨d'', bs, cur', hist', by rw [run, e1]; exact f1, .clean _ _ _ _ f2, f3, f4, ?_⟩
      rcases f5 with rfl | ⟨op, ho, rfl⟩
      · exact Or.inr ⟨_, List.mem_cons_self .., rfl⟩
      · exact Or.inr ⟨op, List.mem_cons_of_mem _ ho, rfl⟩

/-- C10: no call panics and every answer is the specified one, wherever cleanings are placed. -/
theorem dedup_window (T : Nat) (hT : 1 ≤ T) (ops : List (Op H))
    (h1 : ∀ op ∈ ops, 1 ≤ op.round) (hs : ops.Pairwise (fun a b => a.round ≤ b.round)) :
    ∃ d bs, run (new T) ops = some (d, bs) ∧ Answers T [] ops bs := by
  obtain ⟨d, bs, _, _, e1, e2, _⟩ := run_spec hT ops (new T) [] 0 (inv_new T) (by simp)
    (fun _ _ => Nat.zero_le _) h1 hs
  exact ⟨d, bs, e1, e2⟩

/-- C10: after a cleaning at round `r` nothing older than the window is kept. -/
theorem dedup_clean_bounds_state (T : Nat) (hT : 1 ≤ T) (ops : List (Op H)) (r : Nat) (hr : 1 ≤ r)
    (h1 : ∀ op ∈ ops, 1 ≤ op.round) (hs : ops.Pairwise (fun a b => a.round ≤ b.round))
    (hlast : ∀ op ∈ ops, op.round ≤ r) :
    ∃ d bs d', run (new T) ops = some (d, bs) ∧ Dedup.clean d r = some d' ∧
      (∀ h k, d'.hashMaxRound h = some k → r < k + T ∧ k ≤ r) ∧
      (∀ e ∈ d'.roundToHashes, r < e.1 + T ∧ e.1 ≤ r) ∧
      d'.roundToHashes.length ≤ T := by
  obtain ⟨d, bs, cur, hist, e1, e2, e3, e4, e5⟩ := run_spec hT ops (new T) [] 0 (inv_new T) (by simp)
    (fun _ _ => Nat.zero_le _) h1 hs
  have hcr : cur ≤ r := by
    rcases e5 with rfl | ⟨op, ho, rfl⟩
    · omega
    · exact hlast op ho
  obtain ⟨d', f1, f2, f3, f4⟩ := inv_clean e3 hcr
  have hk : ∀ k ∈ d'.roundToHashes.map Prod.fst, r < k + T ∧ k ≤ r := by
    intro k hk
    have a := f4 k hk
    have b := f2.keys k hk
    unfold bottomRound at a
    omega
  refine ⟨d, bs, d', e1, f1, ?_, ?_, ?_⟩
  · intro h k hk
    have a := f3 h k hk
    have b := f2.le _ (f2.seen k h hk)
    unfold bottomRound at a
    dsimp only at b
    omega
  · intro e he
    exact hk e.1 (List.mem_map_of_mem he)
  · have hnd : (d'.roundToHashes.map Prod.fst).Nodup := by
      have hw := f2.wf.sorted
      rw [List.nodup_iff_pairwise_ne, List.pairwise_map]
      exact hw.imp (fun h => Nat.ne_of_lt h)
    have hsub : (d'.roundToHashes.map Prod.fst) ⊆ List.range' (r + 1 - T) T := by
      intro k hk'
      have := hk k hk'
      rw [List.mem_range'_1]
      omega
    have := (List.subperm_of_subset hnd hsub).length_le
    simpa using this

/-- Without sightings in the window the answer is "unique"; with one it is not: the three-call
pattern seen / cleaned / seen again. -/
example : (run (new 2 : Dedup Nat) [.check 1 7, .clean 1, .check 2 7, .clean 3, .check 3 7,
    .check 3 8, .clean 5, .check 5 7, .check 5 7]).map Prod.snd
    = some [true, false, false, true, true, false] := by decide

end Tycho.Dedup
