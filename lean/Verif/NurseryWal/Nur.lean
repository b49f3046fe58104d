import Verif.NurseryWal.Format
import Mathlib.Data.List.Nodup

namespace Tycho.NurseryWal
open Tycho.Table

/-! ### The nursery as a map -/

theorem same_refl {κ ν : Type} [DecidableEq κ] (a : Table κ ν) : Same a a := fun _ => rfl

theorem same_put {κ ν : Type} [DecidableEq κ] {a b : Table κ ν} (h : Same a b) (k : κ) (v : ν) :
    Same (put a k v) (put b k v) := by
  intro x; rw [get_put, get_put, h x]

theorem same_del {κ ν : Type} [DecidableEq κ] {a b : Table κ ν} (h : Same a b) (p : κ → Bool) :
    Same (del a p) (del b p) := by
  intro x; rw [get_del, get_del, h x]

theorem insertAll_same {a b : Table (List Nat) Entry} (h : Same a b) (l : List Rec) {b' : Table (List Nat) Entry}
    (hb : insertAll b l = some b') : ∃ a', insertAll a l = some a' ∧ Same a' b' := by
  induction l generalizing a b with
  | nil => cases hb; exact ⟨a, rfl, h⟩
  | cons e l ih =>
    unfold insertAll at hb ⊢
    rw [h e.1]
    cases hg : get b e.1 with
    | some _ => rw [hg] at hb; cases hb
    | none =>
      rw [hg] at hb
      exact ih (same_put h _ _) hb

theorem insertAll_uniq {a a' : Table (List Nat) Entry} (hu : Uniq a) (l : List Rec) (h : insertAll a l = some a') :
    Uniq a' := by
  induction l generalizing a with
  | nil => cases h; exact hu
  | cons e l ih =>
    unfold insertAll at h
    cases hg : get a e.1 with
    | some _ => rw [hg] at h; cases h
    | none => rw [hg] at h; exact ih (uniq_put _ _ _ hu) h

theorem insertAll_mem {a a' : Table (List Nat) Entry} (l : List Rec) (h : insertAll a l = some a') {x : List Nat}
    {e : Entry} (hg : get a' x = some e) : get a x = some e ∨ (x, e) ∈ l := by
  induction l generalizing a with
  | nil => cases h; exact Or.inl hg
  | cons y l ih =>
    unfold insertAll at h
    cases hy : get a y.1 with
    | some _ => rw [hy] at h; cases h
    | none =>
      rw [hy] at h
      rcases ih h with h1 | h1
      · rw [get_put] at h1
        split at h1
        · rename_i hx
          obtain rfl := Option.some.inj h1
          right; rw [hx]; simp
        · exact Or.inl h1
      · exact Or.inr (by simp [h1])

/-- Inserting a table into the empty one. -/
theorem insertAll_table (l : Table (List Nat) Entry) (hu : Uniq l) (a : Table (List Nat) Entry)
    (hn : ∀ e ∈ l, get a e.1 = none) :
    ∃ a', insertAll a l = some a' ∧ ∀ x, get a' x = match get l x with | some e => some e | none => get a x := by
  induction l generalizing a with
  | nil => exact ⟨a, rfl, fun x => rfl⟩
  | cons e l ih =>
    simp only [Uniq, List.map_cons, List.nodup_cons] at hu
    obtain ⟨a', h1, h2⟩ := ih hu.2 (put a e.1 e.2) (by
      intro x hx
      have : x.1 ≠ e.1 := fun hk => hu.1 (hk ▸ List.mem_map_of_mem hx)
      rw [get_put, if_neg this]
      exact hn x (by simp [hx]))
    refine ⟨a', ?_, ?_⟩
    · unfold insertAll; rw [hn e (by simp)]; exact h1
    · intro x
      rw [h2 x, get_put]
      by_cases hx : x = e.1
      · subst hx
        have : get l e.1 = none := by
          cases hg : get l e.1 with
          | none => rfl
          | some v => exact absurd (List.mem_map_of_mem (f := (·.1)) (mem_of_get l _ _ hg)) hu.1
        simp [this, Table.get]
      · simp only [Table.get, Ne.symm hx, if_false, hx]

theorem perm_same {a b : Table (List Nat) Entry} (hp : a.Perm b) (hb : Uniq b) : Uniq a ∧ Same a b := by
  have ha : Uniq a := (hp.map (fun e : List Nat × Entry => e.1)).nodup_iff.2 hb
  refine ⟨ha, ?_⟩
  intro x
  cases hg : get a x with
  | some e =>
    have := mem_of_get a x e hg
    rw [get_of_mem b hb x e (hp.mem_iff.1 this)]
  | none =>
    cases hg' : get b x with
    | none => rfl
    | some e =>
      have := mem_of_get b x e hg'
      rw [get_of_mem a ha x e (hp.mem_iff.2 this)] at hg
      cases hg

/-- A nursery that holds the result of the commits `ds`, with a complete round index. -/
structure NurOk (n : Nursery) (ds : List Delta) : Prop where
  uniq : Uniq n.entries
  same : ∃ r, replay ds = some r ∧ Same n.entries r.entries

def Indexed (n : Nursery) : Prop := ∀ h e, get n.entries h = some e → (e.born, h) ∈ n.rounds

theorem replay_append (ds : List Delta) (d : Delta) :
    replay (ds ++ [d]) = (replay ds).bind (fun n => applyCommit n d) := by
  simp [replay]

theorem replay_take {ds : List Delta} (h : (replay ds).isSome) (k : Nat) : (replay (ds.take k)).isSome := by
  have key : ∀ (l : List Delta) (o : Option Nursery),
      (l.foldl (fun o d => o.bind (fun n => applyCommit n d)) o).isSome → o.isSome := by
    intro l
    induction l with
    | nil => intro o h; exact h
    | cons d l ih =>
      intro o h
      have := ih _ h
      cases o with
      | none => simp at this
      | some _ => rfl
  have e : replay ds = (ds.drop k).foldl (fun o d => o.bind (fun n => applyCommit n d)) (replay (ds.take k)) := by
    conv_lhs => rw [← List.take_append_drop k ds]
    unfold replay
    rw [List.foldl_append]
  rw [e] at h
  exact key _ _ h

theorem NurOk.nil : NurOk Nursery.empty [] := ⟨uniq_nil, Nursery.empty, rfl, same_refl _⟩

theorem NurOk.commit {n : Nursery} {ds : List Delta} (h : NurOk n ds) {d : Delta} (hr : (replay (ds ++ [d])).isSome) :
    ∃ n', applyCommit n d = some n' ∧ NurOk n' (ds ++ [d]) ∧ (Indexed n → Indexed n') := by
  obtain ⟨r, hr1, hr2⟩ := h.same
  obtain ⟨r', hr'⟩ := Option.isSome_iff_exists.1 hr
  have hr0 := hr'
  rw [replay_append, hr1] at hr'
  simp only [Option.bind_some, applyCommit, Option.map_eq_some_iff] at hr'
  obtain ⟨es, he1, rfl⟩ := hr'
  obtain ⟨es', he1', he2⟩ := insertAll_same hr2 d.inserts he1
  refine ⟨{ entries := del es' (fun h => d.removes.contains h), rounds := n.rounds ++ d.inserts.map (fun e => (e.2.born, e.1)) },
    by simp [applyCommit, he1'], ?_, ?_⟩
  · exact ⟨uniq_del _ _ (insertAll_uniq h.uniq _ he1'), _, hr0, same_del he2 _⟩
  · intro hi x e hx
    have hx : get (del es' (fun h => d.removes.contains h)) x = some e := hx
    rw [get_del] at hx
    split at hx
    · cases hx
    · show _ ∈ n.rounds ++ _
      rw [List.mem_append]
      rcases insertAll_mem _ he1' hx with h1 | h1
      · exact Or.inl (hi x e h1)
      · exact Or.inr (List.mem_map.2 ⟨(x, e), h1, rfl⟩)

/-- The converse: a commit that applies here is one more commit of the history. -/
theorem NurOk.isSome {n : Nursery} {ds : List Delta} (h : NurOk n ds) {d : Delta} (ha : (applyCommit n d).isSome) :
    (replay (ds ++ [d])).isSome := by
  obtain ⟨r, hr1, hr2⟩ := h.same
  rw [replay_append, hr1]
  simp only [Option.bind_some]
  unfold applyCommit at ha ⊢
  rw [Option.isSome_map] at ha ⊢
  obtain ⟨es, he⟩ := Option.isSome_iff_exists.1 ha
  obtain ⟨a', h1, _⟩ := insertAll_same (a := r.entries) (b := n.entries) (fun x => (hr2 x).symm) d.inserts he
  rw [h1]; rfl

/-- A snapshot of a nursery, read back. -/
theorem NurOk.snapshot {n : Nursery} {ds : List Delta} (h : NurOk n ds) {snap : List Rec} (hp : snap.Perm n.entries) :
    ∃ n', applyCommit Nursery.empty ⟨snap, []⟩ = some n' ∧ NurOk n' ds ∧ Indexed n' := by
  obtain ⟨hu, hs⟩ := perm_same hp h.uniq
  obtain ⟨es, h1, h2⟩ := insertAll_table snap hu [] (fun e _ => rfl)
  have hdel : del es (fun _ => false) = es := by simp [del]
  refine ⟨⟨es, snap.map (fun e => (e.2.born, e.1))⟩, ?_, ?_, ?_⟩
  · simp [applyCommit, Nursery.empty, h1, hdel]
  · obtain ⟨r, hr1, hr2⟩ := h.same
    refine ⟨insertAll_uniq uniq_nil _ h1, r, hr1, ?_⟩
    intro x
    show get es x = _
    rw [h2 x, ← hr2 x, ← hs x]
    cases hg : get snap x <;> rfl
  · intro x e hx
    rcases insertAll_mem _ h1 hx with h3 | h3
    · cases h3
    · exact List.mem_map.2 ⟨(x, e), h3, rfl⟩

end Tycho.NurseryWal
