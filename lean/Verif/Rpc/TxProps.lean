import Verif.Rpc.TxInv

namespace Tycho.Rpc
open Tycho.Table

theorem desc_reverse {t : Rows} (h : Ordered t) : Desc t.reverse := List.pairwise_reverse.2 h

theorem newer_reverse (t : Rows) (k : Key) : newer t.reverse k = newer t k := by
  unfold newer; rw [List.filter_reverse, List.length_reverse]

theorem old_reverse (t : Rows) (keep minLt : Nat) (k : Key) : Old t.reverse keep minLt k ↔ Old t keep minLt k := by
  unfold Old; rw [newer_reverse]

theorem oldCount_reverse (t : Rows) (keep minLt : Nat) : oldCount t.reverse keep minLt t.reverse = oldCount t keep minLt t := by
  unfold oldCount
  rw [List.filter_reverse, List.length_reverse]
  congr 1
  apply List.filter_congr
  intro e _
  exact decide_eq_decide.2 (old_reverse t keep minLt e.1)

theorem start_inv (snap : Rows) (keep minLt : Nat) : GInv snap.reverse keep minLt [] (Gc.start snap) := by
  refine ⟨rfl, fun e _ d hd => (by cases hd), by simp [Gc.start, countAcct], ?_, fun e he => (by cases he), fun e b h => (by cases h),
    fun e b h => (by cases h), ?_, ?_⟩
  · rintro x (⟨op, h, _⟩ | h)
    · cases h
    · cases h
  · intro h; simp [Gc.start, Gc.ops]
  · intro h; simp [Gc.start, Gc.ops]

/-- What is written by a collection. -/
structure Written (snap : Rows) (size keep minLt : Nat) (bs : List (List Op)) : Prop where
  /-- only old transactions are removed -/
  sound : ∀ op ∈ bs.flatten, ∀ x, coverOp x op → Old snap keep minLt x
  /-- all of them -/
  complete : oldCount snap keep minLt snap % size ≠ 0 ∨ oldCount snap keep minLt snap = 0 →
    ∀ e ∈ snap, Old snap keep minLt e.1 → ∃ op ∈ bs.flatten, coverOp e.1 op
  hash : ∀ h, Op.hash h ∈ bs.flatten ↔ ∃ e ∈ snap, Old snap keep minLt e.1 ∧ e.2.hash = h
  msg : ∀ m, Op.msg m ∈ bs.flatten ↔ ∃ e ∈ snap, Old snap keep minLt e.1 ∧ e.2.msg = some m

theorem finish_nonzero (g : Gc) (h : g.items ≠ 0) : g.finish.flatten = g.endAccount.ops := by
  unfold Gc.finish Gc.ops
  rw [if_pos (by rw [(endAccount_fields g).2.2.2.1]; exact h)]
  simp

theorem finish_zero (g : Gc) (h : g.items = 0) : g.finish.flatten = g.out.flatten := by
  unfold Gc.finish
  rw [if_neg (by rw [(endAccount_fields g).2.2.2.1]; simpa using h), (endAccount_fields g).2.2.2.2.2]

/-- nothing of the indices is left in an empty batch -/
def Clean (g : Gc) : Prop := g.items = 0 → (∀ h, Op.hash h ∉ g.batch) ∧ (∀ m, Op.msg m ∉ g.batch)

theorem endAccount_clean {g : Gc} (h : Clean g) : Clean g.endAccount := by
  unfold Gc.endAccount
  split
  · exact h
  · intro hz; have := h hz; simp [this]
  · intro hz; have := h hz; simp [this]

theorem flushIf_clean {g : Gc} (h : Clean g) (size : Nat) : Clean (g.flushIf size) := by
  unfold Gc.flushIf
  split
  · intro _; simp
  · exact h

theorem step_clean (desc : Rows) (size keep minLt : Nat) {g : Gc} (h : Clean g) (k : Key) (v : Tx) (rest : Rows) :
    Clean (g.step desc size keep minLt k v rest) := by
  have ha : Clean (g.account k.acct) := by
    unfold Gc.account
    split
    · have := endAccount_clean (g := { g with last := k.acct }) h
      exact this
    · exact h
  unfold Gc.step
  dsimp only
  split
  · exact flushIf_clean (g := { g.account k.acct with cnt := _, pos := rest }) ha size
  · split
    · apply flushIf_clean
      intro hz
      have hz : (g.account k.acct).items + 1 = 0 := hz
      cases hz
    · split
      · exact flushIf_clean (g := { g.account k.acct with pos := seekPrev desc ⟨(g.account k.acct).last, minLt⟩ }) ha size
      · exact flushIf_clean (g := { g.account k.acct with pos := rest }) ha size

/-- what holds after any number of iterations -/
structure Going (desc : Rows) (size keep minLt : Nat) (g : Gc) : Prop where
  inv : ∃ done, GInv desc keep minLt done g ∧ g.items = oldCount desc keep minLt done % size
  clean : Clean g

theorem going_start (snap : Rows) (size keep minLt : Nat) : Going snap.reverse size keep minLt (Gc.start snap) :=
  ⟨⟨[], start_inv snap keep minLt, by simp [Gc.start, oldCount]⟩, fun _ => ⟨fun _ h => (by cases h), fun _ h => (by cases h)⟩⟩

theorem going_step {desc : Rows} {size keep minLt : Nat} {g : Gc} (hd : Desc desc) (hsz : 0 < size) (h : Going desc size keep minLt g) (k : Key) (v : Tx)
    (rest : Rows) (hp : g.pos = (k, v) :: rest) : Going desc size keep minLt (g.step desc size keep minLt k v rest) := by
  obtain ⟨done, h1, h2⟩ := h.inv
  obtain ⟨done', h3, h4, _, _⟩ := step_inv hd hsz h1 h2 k v rest hp
  exact ⟨⟨done', h3, h4⟩, step_clean desc size keep minLt h.clean k v rest⟩

theorem run_full {desc : Rows} {size keep minLt : Nat} (hd : Desc desc) (hsz : 0 < size) (hmin : ∀ e ∈ desc, ¬ Stuck desc keep minLt e.1) (fuel : Nat)
    (g : Gc) (hi : Going desc size keep minLt g) (hf : g.pos.length < fuel) :
    ∃ g', Gc.run desc size keep minLt fuel g = some g'.finish ∧ GInv desc keep minLt desc g' ∧ g'.items = oldCount desc keep minLt desc % size ∧
      Clean g' := by
  induction fuel generalizing g with
  | zero => omega
  | succ fuel ih =>
    rw [Gc.run]
    obtain ⟨done, hg, hit⟩ := hi.inv
    cases hp : g.pos with
    | nil =>
      have hs := hg.split
      rw [hp, List.append_nil] at hs
      subst hs
      exact ⟨g, rfl, hg, hit, hi.clean⟩
    | cons e rest =>
      obtain ⟨k, v⟩ := e
      obtain ⟨done', h1, h2, h3, _⟩ := step_inv hd hsz hg hit k v rest hp
      refine ih _ (going_step hd hsz hi k v rest hp) ?_
      rcases h3 with ⟨_, h3⟩ | ⟨h3, _⟩
      · omega
      · exact absurd h3 (hmin (k, v) (by rw [hg.split, hp]; simp))

theorem run_stuck {desc : Rows} {size keep minLt : Nat} (hd : Desc desc) (hsz : 0 < size) (fuel : Nat)
    (g : Gc) (hi : Going desc size keep minLt g) (e : Key × Tx) (he : e ∈ g.pos) (hs : Stuck desc keep minLt e.1) :
    Gc.run desc size keep minLt fuel g = none := by
  induction fuel generalizing g with
  | zero => rfl
  | succ fuel ih =>
    rw [Gc.run]
    obtain ⟨done, hg, hit⟩ := hi.inv
    cases hp : g.pos with
    | nil => rw [hp] at he; cases he
    | cons x rest =>
      obtain ⟨k, v⟩ := x
      obtain ⟨done', h1, h2, _, h4⟩ := step_inv hd hsz hg hit k v rest hp
      exact ih _ (going_step hd hsz hi k v rest hp) (h4 e he hs)

theorem stuck_reverse (t : Rows) (keep minLt : Nat) (k : Key) : Stuck t.reverse keep minLt k ↔ Stuck t keep minLt k := by
  unfold Stuck; rw [newer_reverse]

/-- The collection comes to an end: a number of iterations bounded by the number of rows is enough. -/
theorem gc_terminates (snap : Rows) (size keep minLt fuel : Nat) (ho : Ordered snap) (hsz : 0 < size)
    (hmin : ∀ e ∈ snap, ¬ Stuck snap keep minLt e.1) (hf : snap.length < fuel) :
    ∃ bs, gcRun size keep minLt fuel snap = some bs ∧ Written snap size keep minLt bs := by
  have hmin' : ∀ e ∈ snap.reverse, ¬ Stuck snap.reverse keep minLt e.1 := by
    intro e he
    rw [stuck_reverse]; exact hmin e (List.mem_reverse.1 he)
  obtain ⟨g, h1, h2, h3, h4⟩ := run_full (size := size) (desc_reverse ho) hsz hmin' fuel (Gc.start snap) (going_start snap size keep minLt)
    (by simpa [Gc.start] using hf)
  rw [oldCount_reverse] at h3
  refine ⟨g.finish, h1, ?_⟩
  have hcov := endAccount_covered g (fun e b h => .inl (h2.pendBegin e b h).2.1)
  obtain ⟨l, hl, hl1, hl2⟩ := endAccount_ops g
  have hall : ∀ op ∈ g.finish.flatten, op ∈ g.endAccount.ops := by
    intro op hop
    by_cases hz : g.items = 0
    · rw [finish_zero g hz] at hop
      rw [hl, Gc.ops]
      simp [hop]
    · rwa [finish_nonzero g hz] at hop
  refine ⟨?_, ?_, ?_, ?_⟩
  · intro op hop x hx
    exact (old_reverse _ _ _ _).1 (h2.sound x ((hcov x).1 (.inl ⟨op, hall op hop, hx⟩)))
  · rintro (hne | hz) e he ho
    · have hne : g.items ≠ 0 := by rw [h3]; exact hne
      rw [finish_nonzero g hne]
      rcases (hcov _).2 (h2.complete e (List.mem_reverse.2 he) ((old_reverse _ _ _ _).2 ho)) with h | h
      · exact h
      · rw [(endAccount_fields g).2.2.2.2.1] at h; cases h
    · exfalso
      unfold oldCount at hz
      rw [List.length_eq_zero_iff, List.filter_eq_nil_iff] at hz
      exact hz e he (by simpa using ho)
  · intro h
    have hh := h2.hash h
    simp only [List.mem_reverse, old_reverse] at hh
    rw [← hh]
    by_cases hz : g.items = 0
    · rw [finish_zero g hz, Gc.ops, List.mem_append]
      exact ⟨.inl, fun h' => h'.resolve_right ((h4 hz).1 h)⟩
    · rw [finish_nonzero g hz, hl, List.mem_append]
      exact ⟨fun h' => h'.resolve_right (hl1 h), .inl⟩
  · intro h
    have hh := h2.msg h
    simp only [List.mem_reverse, old_reverse] at hh
    rw [← hh]
    by_cases hz : g.items = 0
    · rw [finish_zero g hz, Gc.ops, List.mem_append]
      exact ⟨.inl, fun h' => h'.resolve_right ((h4 hz).2 h)⟩
    · rw [finish_nonzero g hz, hl, List.mem_append]
      exact ⟨fun h' => h'.resolve_right (hl2 h), .inl⟩

/-- It never ends if there is a transaction at the bound itself which is not among the newest `keep` of its account. -/
theorem gc_ends_iff (snap : Rows) (size keep minLt : Nat) (ho : Ordered snap) (hsz : 0 < size) :
    (∃ fuel bs, gcRun size keep minLt fuel snap = some bs) ↔ ¬ ∃ e ∈ snap, 0 < minLt ∧ e.1.lt = minLt ∧ keep ≤ newer snap e.1 := by
  constructor
  · rintro ⟨fuel, bs, h⟩ ⟨e, he, hs⟩
    have := run_stuck (size := size) (desc_reverse ho) hsz fuel (Gc.start snap) (going_start snap size keep minLt) e (by simpa [Gc.start] using he)
      ((stuck_reverse snap keep minLt e.1).2 hs)
    unfold gcRun at h
    rw [this] at h
    cases h
  · intro h
    obtain ⟨bs, h1, _⟩ := gc_terminates snap size keep minLt (snap.length + 1) ho hsz (fun e he hs => h ⟨e, he, hs⟩) (by omega)
    exact ⟨_, bs, h1⟩

theorem run_fuel (desc : Rows) (size keep minLt : Nat) (a b : Nat) (g : Gc) (x y : List (List Op)) (h1 : Gc.run desc size keep minLt a g = some x)
    (h2 : Gc.run desc size keep minLt b g = some y) : x = y := by
  induction a generalizing b g with
  | zero => cases h1
  | succ a ih =>
    cases b with
    | zero => cases h2
    | succ b =>
      rw [Gc.run] at h1 h2
      split at h1
      · rename_i hp
        rw [hp] at h2
        cases h1; cases h2; rfl
      · rename_i hp
        rw [hp] at h2
        exact ih b _ h1 h2

/-- All that a finished collection has written. -/
theorem gc_written (snap : Rows) (size keep minLt fuel : Nat) (bs : List (List Op)) (ho : Ordered snap) (hsz : 0 < size)
    (hr : gcRun size keep minLt fuel snap = some bs) : Written snap size keep minLt bs := by
  have h := (gc_ends_iff snap size keep minLt ho hsz).1 ⟨fuel, bs, hr⟩
  obtain ⟨bs', h1, h2⟩ := gc_terminates snap size keep minLt (snap.length + 1) ho hsz (fun e he hs => h ⟨e, he, hs⟩) (by omega)
  rw [run_fuel snap.reverse size keep minLt _ _ _ _ _ hr h1]
  exact h2

end Tycho.Rpc
