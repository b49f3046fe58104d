import Verif.Bans.Journal
/-!
A start reads from a sound journal exactly the bans it tells of, and histories that stand for its events.
-/
namespace Tycho.Bans
open Tycho.Table (Table get put del get_put get_del)

/-- Is the record read? -/
def keep (cfg : Config) (st : Nat) (r : Rec) : Bool :=
  decide (min (st - cfg.ttl) (st - cfg.maxDur) ≤ r.key.1) && (if r.key.1 < st - cfg.maxDur then match r.kind with
      | .event _ => false
      | _ => true
    else true)

theorem load_eq (cfg : Config) (st : Nat) (j : List Rec) : load cfg st j = j.filter (keep cfg st) := by
  unfold load
  rw [List.filter_filter]
  congr 1
  funext r
  rw [Bool.and_comm]
  rfl

theorem keep_old (cfg : Config) (hv : Valid cfg) (st : Nat) (r : Rec) (h : r.key.1 < st - cfg.ttl) : keep cfg st r = false := by
  have := hv.ttl
  unfold keep
  rw [decide_eq_false (by omega)]; rfl

theorem keep_new (cfg : Config) (hv : Valid cfg) (st : Nat) (r : Rec) (h : st - cfg.ttl ≤ r.key.1) :
    keep cfg st r = false ↔ (∃ tag, r.kind = .event tag) ∧ r.key.1 < st - cfg.maxDur := by
  have := hv.ttl
  unfold keep
  rw [decide_eq_true (by omega), Bool.true_and]
  by_cases hk : r.key.1 < st - cfg.maxDur
  · simp only [if_pos hk, hk, and_true]
    cases r.kind <;> simp
  · simp [hk]

theorem ri_load (cfg : Config) (hv : Valid cfg) (st : Nat) (b : List Rec) : ∀ (a : List Rec) (x : Restored), Jok cfg (a ++ b) →
    RI cfg st a b x → (∀ r ∈ b, st - cfg.ttl ≤ r.key.1) → RI cfg st (a ++ b) [] ((b.filter (keep cfg st)).foldl (restoreStep cfg st) x) := by
  induction b with
  | nil => intro a x _ w _; simpa using w
  | cons r b ih =>
    intro a x j w hb
    have e : a ++ r :: b = (a ++ [r]) ++ b := by simp
    cases hk : keep cfg st r with
    | false =>
      obtain ⟨⟨tag, h1⟩, h2⟩ := (keep_new cfg hv st r (hb r (by simp))).1 hk
      rw [List.filter_cons_of_neg (by simp [hk]), e]
      exact ih _ _ (e ▸ j) (ri_skip w tag h1 h2) (fun y hy => hb y (by simp [hy]))
    | true =>
      rw [List.filter_cons_of_pos hk, List.foldl_cons, e]
      refine ih _ _ (e ▸ j) (ri_step j w ?_) (fun y hy => hb y (by simp [hy]))
      intro tag ht
      by_contra hne
      have := (keep_new cfg hv st r (hb r (by simp))).2 ⟨⟨tag, ht⟩, by omega⟩
      rw [hk] at this
      cases this

theorem banNow_old (cfg : Config) (st : Nat) (p : Nat) (l : List Rec) (acc : Option Nat) (hacc : acc = none)
    (h1 : ∀ r ∈ l, ∀ u, r.kind = .banned u → u ≤ r.key.1 + cfg.ttl) (h2 : ∀ r ∈ l, r.key.1 < st - cfg.ttl) :
    l.foldl (banStep st p) acc = none := by
  induction l generalizing acc with
  | nil => exact hacc
  | cons r l ih =>
    rw [List.foldl_cons]
    apply ih
    · unfold banStep
      split
      · split
        · rename_i u hu
          have := h1 r (by simp) u hu
          have := h2 r (by simp)
          rw [if_neg (by omega)]; exact hacc
        · rfl
        · exact hacc
      · exact hacc
    · exact fun y hy => h1 y (by simp [hy])
    · exact fun y hy => h2 y (by simp [hy])

theorem takeWhile_lt {α : Type} (f : α → Bool) (l : List α) : ∀ r ∈ l.takeWhile f, f r = true := by
  intro r hr
  have := List.all_takeWhile (p := f) (l := l)
  rw [List.all_eq_true] at this
  exact this r hr

theorem dropWhile_ge (l : List Rec) (h : Up (l.map (·.key))) (t : Nat) :
    ∀ r ∈ l.dropWhile (fun r => decide (r.key.1 < t)), t ≤ r.key.1 := by
  induction l with
  | nil => simp
  | cons x l ih =>
    have h2 := List.pairwise_cons.1 h
    rw [List.dropWhile_cons]
    split
    · exact ih h2.2
    · rename_i hx
      intro r hr
      rcases List.mem_cons.1 hr with rfl | hr
      · simpa using hx
      · have h3 : x.key.1 ≤ r.key.1 := klt_fst (h2.1 r.key (List.mem_map_of_mem hr))
        simp at hx
        omega

/-- A start on a sound journal. -/
theorem restore_ok (cfg : Config) (hv : Valid cfg) (st : Nat) (j : List Rec) (jok : Jok cfg j) :
    RI cfg st j [] (restoreLoop cfg st (load cfg st j)) := by
  let old := j.takeWhile (fun r => decide (r.key.1 < st - cfg.ttl))
  let rest := j.dropWhile (fun r => decide (r.key.1 < st - cfg.ttl))
  have e : j = old ++ rest := (List.takeWhile_append_dropWhile).symm
  have hold : ∀ r ∈ old, r.key.1 < st - cfg.ttl := fun r hr => by simpa using takeWhile_lt _ _ r hr
  have hrest : ∀ r ∈ rest, st - cfg.ttl ≤ r.key.1 := dropWhile_ge j jok.up _
  have hf : j.filter (keep cfg st) = rest.filter (keep cfg st) := by
    rw [e, List.filter_append]
    have : old.filter (keep cfg st) = [] := by
      rw [List.filter_eq_nil_iff]
      intro r hr
      rw [keep_old cfg hv st r (hold r hr)]
      simp
    rw [this, List.nil_append]
  have hbn : ∀ p, banNow st old p = none := fun p =>
    banNow_old cfg st p old none rfl (fun r hr => jok.inTime r (by rw [e]; exact List.mem_append_left _ hr)) hold
  have w0 : RI cfg st old rest ⟨[], [], false⟩ := by
    refine ⟨rfl, ?_, ?_, ?_⟩
    · intro p; simpa [Table.get] using hbn p
    · intro p u h; rw [hbn p] at h; cases h
    · intro p tag
      refine ⟨st - cfg.maxDur, ?_, by simp [Table.get], Nat.le_refl _, Or.inl rfl⟩
      unfold HistOk
      split
      · trivial
      · have : (eventsOf old p tag).filter (fun x => decide (st - cfg.maxDur ≤ x.1)) = [] := by
          rw [List.filter_eq_nil_iff]
          intro k hk
          obtain ⟨r, hr, e2, _⟩ := mem_eventsOf hk
          have := hold r hr
          have := hv.ttl
          rw [← e2]
          simp; omega
        rw [this]
        simp [Table.get, lastN]
  unfold restoreLoop
  rw [load_eq, hf]
  have := ri_load cfg hv st rest old _ (e ▸ jok) w0 hrest
  rwa [← e] at this

/-- A start does not see whether old records were deleted before. -/
theorem clean_unseen (cfg : Config) (hv : Valid cfg) (now st : Nat) (h : now ≤ st) (disk : List Rec) :
    load cfg st (cleaned cfg now disk) = load cfg st disk := by
  rw [load_eq, load_eq]
  unfold cleaned
  rw [List.filter_filter]
  congr 1
  funext r
  by_cases hr : now - cfg.ttl ≤ r.key.1
  · simp [hr]
  · rw [keep_old cfg hv st r (by omega)]; rfl

/-- What a start has for its bans is what the journal says, and no ban is made up. -/
theorem restored_bans (cfg : Config) (hv : Valid cfg) (st : Nat) (j : List Rec) (jok : Jok cfg j) (p : Nat) :
    get (restoreLoop cfg st (load cfg st j)).temp p = (banNow st j p).map .stored := by
  have := (restore_ok cfg hv st j jok).temp p
  cases hg : get (restoreLoop cfg st (load cfg st j)).temp p with
  | none => simp only [hg] at this; rw [this]; rfl
  | some t =>
    cases t with
    | stored v => simp only [hg] at this; rw [this]; rfl
    | new v =>
      simp only [hg] at this
      obtain ⟨l1, r, l2, e, _⟩ := this.2.2
      cases l1 <;> simp at e

end Tycho.Bans
