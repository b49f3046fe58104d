import Verif.Signing.Model
import Mathlib.Data.List.Nodup
import Mathlib.Data.List.Perm.Basic
import Mathlib.Tactic.Tauto

/-! Invariants of one location. -/
namespace Tycho.Signing

/-- The version that acquired the location first. -/
def rdig (l : Loc) : Option Nat :=
  match l.resolved with
  | some (.valid d _) => some d
  | some (.notValid d) => some d
  | _ => none

def inDb : Phase → Bool
  | .stored => true
  | .done => true
  | _ => false

structure Inv (s : Sys) : Prop where
  nodup : (s.tasks.map Task.digest).Nodup
  v0 : s.loc.resolved = none → s.loc.valid = none
  v1 : ∀ d c, s.loc.resolved = some (.valid d c) → s.loc.valid = some d
  hasV : ∀ d, s.loc.valid = some d → ∃ t ∈ s.tasks, t.digest = d
  hasR : ∀ d, rdig s.loc = some d → ∃ t ∈ s.tasks, t.digest = d
  fv : ∀ t ∈ s.tasks, (t.firstValid = true ↔ s.loc.valid = some t.digest)
  fr : ∀ t ∈ s.tasks, (t.firstResolved = true ↔ rdig s.loc = some t.digest)
  fvValid : ∀ t ∈ s.tasks, t.firstValid = true → t.isValid = true
  kindV : ∀ t ∈ s.tasks, ∀ c, s.loc.resolved = some (.valid t.digest c) → t.isValid = true
  kindN : ∀ t ∈ s.tasks, s.loc.resolved = some (.notValid t.digest) → t.isValid = false
  sg : ∀ d g, s.loc.resolved = some (.valid d (some (some g))) → g.digest = d ∧ ∃ r ∈ s.db, r.digest = d ∧ r.isValid = true
  rec_ : ∀ t ∈ s.tasks, inDb t.phase = true → ∃ r ∈ s.db, r.digest = t.digest ∧ r.isValid = t.isValid
  norec : ∀ t ∈ s.tasks, inDb t.phase = false → ∀ r ∈ s.db, r.digest ≠ t.digest
  dbTask : ∀ r ∈ s.db, ∃ t ∈ s.tasks, t.digest = r.digest
  flag : ∀ r ∈ s.db, r.firstValid = true → s.loc.valid = some r.digest ∧ r.isValid = true
  dbNodup : (s.db.map Rec.digest).Nodup

theorem mem_setTask {ts : List Task} {t x : Task} : x ∈ setTask ts t ↔
    (x = t ∧ ∃ y ∈ ts, y.digest = t.digest) ∨ (x ∈ ts ∧ x.digest ≠ t.digest) := by
  unfold setTask
  rw [List.mem_map]
  constructor
  · rintro ⟨y, hy, rfl⟩
    split
    · rename_i h; exact Or.inl ⟨rfl, y, hy, h⟩
    · rename_i h; exact Or.inr ⟨hy, h⟩
  · rintro (⟨rfl, y, hy, h⟩ | ⟨hx, h⟩)
    · exact ⟨y, hy, if_pos h⟩
    · exact ⟨x, hx, if_neg h⟩

theorem setTask_digests {ts : List Task} {t : Task} : (setTask ts t).map Task.digest = ts.map Task.digest := by
  unfold setTask
  rw [List.map_map]
  apply List.map_congr_left
  intro x _
  simp only [Function.comp]
  split
  · rename_i h; exact h.symm
  · rfl

theorem exists_setTask {ts : List Task} {t : Task} {d : Nat} (h : ∃ x ∈ ts, x.digest = d) :
    ∃ x ∈ setTask ts t, x.digest = d := by
  obtain ⟨x, hx, rfl⟩ := h
  by_cases hd : x.digest = t.digest
  · exact ⟨t, mem_setTask.2 (Or.inl ⟨rfl, x, hx, hd⟩), hd.symm⟩
  · exact ⟨x, mem_setTask.2 (Or.inr ⟨hx, hd⟩), rfl⟩

theorem findTask_some {ts : List Task} {d p t} (h : findTask ts d p = some t) :
    t ∈ ts ∧ t.digest = d ∧ t.phase = p := by
  unfold findTask at h
  have h1 := List.mem_of_find?_eq_some h
  have h2 := List.find?_some h
  simp at h2
  exact ⟨h1, h2⟩

theorem same_task {s : Sys} (I : Inv s) {x y : Task} (hx : x ∈ s.tasks) (hy : y ∈ s.tasks) (h : x.digest = y.digest) :
    x = y := List.inj_on_of_nodup_map I.nodup hx hy h

theorem inv_new : Inv Sys.new := by
  refine ⟨?_, ?_, ?_, ?_, ?_, ?_, ?_, ?_, ?_, ?_, ?_, ?_, ?_, ?_, ?_, ?_⟩ <;>
    simp [Sys.new, Loc.new, rdig]

/-- The flags of a version that has not acquired anything. -/
theorem fresh_flags {s : Sys} (I : Inv s) {d} (h : ¬ s.tasks.any (fun t => decide (t.digest = d)) = true) :
    s.loc.valid ≠ some d ∧ rdig s.loc ≠ some d ∧ ∀ r ∈ s.db, r.digest ≠ d := by
  have key : ∀ x, (∃ t ∈ s.tasks, t.digest = x) → x ≠ d := by
    rintro x ⟨t, ht, rfl⟩ hx
    exact h (List.any_eq_true.2 ⟨t, ht, by simpa using hx⟩)
  refine ⟨fun hv => key d (I.hasV d hv) rfl, fun hv => key d (I.hasR d hv) rfl, ?_⟩
  intro r hr hx
  obtain ⟨t, ht, h'⟩ := I.dbTask r hr
  exact key d ⟨t, ht, h'.trans hx⟩ rfl

theorem inv_start {s : Sys} (I : Inv s) {d v tm} (h : ¬ s.tasks.any (fun t => decide (t.digest = d)) = true) :
    Inv { s with tasks := ⟨d, v, tm, .fresh, false, false⟩ :: s.tasks } := by
  obtain ⟨h1, h2, h3⟩ := fresh_flags I h
  refine ⟨?_, I.v0, I.v1, ?_, ?_, ?_, ?_, ?_, ?_, ?_, I.sg, ?_, ?_, ?_, I.flag, I.dbNodup⟩
  · simp only [List.map_cons, List.nodup_cons]
    refine ⟨?_, I.nodup⟩
    intro hm
    obtain ⟨t, ht, hd⟩ := List.mem_map.1 hm
    exact h (List.any_eq_true.2 ⟨t, ht, by simpa using hd⟩)
  · intro x hx; obtain ⟨t, ht, e⟩ := I.hasV x hx; exact ⟨t, by simp [ht], e⟩
  · intro x hx; obtain ⟨t, ht, e⟩ := I.hasR x hx; exact ⟨t, by simp [ht], e⟩
  · intro t ht
    rcases List.mem_cons.1 ht with rfl | ht
    · simpa using h1
    · exact I.fv t ht
  · intro t ht
    rcases List.mem_cons.1 ht with rfl | ht
    · simpa using h2
    · exact I.fr t ht
  · intro t ht
    rcases List.mem_cons.1 ht with rfl | ht
    · simp
    · exact I.fvValid t ht
  · intro t ht c hc
    rcases List.mem_cons.1 ht with rfl | ht
    · exact absurd (by unfold rdig; simp only at hc; rw [hc]) h2
    · exact I.kindV t ht c hc
  · intro t ht hc
    rcases List.mem_cons.1 ht with rfl | ht
    · exact absurd (by unfold rdig; simp only at hc; rw [hc]) h2
    · exact I.kindN t ht hc
  · intro t ht hp
    rcases List.mem_cons.1 ht with rfl | ht
    · simp [inDb] at hp
    · exact I.rec_ t ht hp
  · intro t ht hp
    rcases List.mem_cons.1 ht with rfl | ht
    · exact h3
    · exact I.norec t ht hp
  · intro r hr; obtain ⟨t, ht, e⟩ := I.dbTask r hr; exact ⟨t, by simp [ht], e⟩

/-- Only a task moved: same digest, kind, flags. -/
theorem inv_move {s : Sys} (I : Inv s) {t t' : Task} (ht : t ∈ s.tasks) (hd : t'.digest = t.digest)
    (hv : t'.isValid = t.isValid) (h1 : t'.firstResolved = t.firstResolved) (h2 : t'.firstValid = t.firstValid)
    (hp : inDb t'.phase = inDb t.phase) : Inv { s with tasks := setTask s.tasks t' } := by
  refine ⟨?_, I.v0, I.v1, fun d h => exists_setTask (I.hasV d h), fun d h => exists_setTask (I.hasR d h), ?_, ?_, ?_, ?_, ?_,
    I.sg, ?_, ?_, fun r h => exists_setTask (I.dbTask r h), I.flag, I.dbNodup⟩
  · show ((setTask s.tasks t').map Task.digest).Nodup
    rw [setTask_digests]; exact I.nodup
  all_goals
    intro x hx
    rcases mem_setTask.1 hx with ⟨rfl, -⟩ | ⟨hx, -⟩
  · rw [h2, hd]; exact I.fv t ht
  · exact I.fv x hx
  · rw [h1, hd]; exact I.fr t ht
  · exact I.fr x hx
  · rw [h2, hv]; exact I.fvValid t ht
  · exact I.fvValid x hx
  · rw [hd, hv]; exact I.kindV t ht
  · exact I.kindV x hx
  · rw [hd, hv]; exact I.kindN t ht
  · exact I.kindN x hx
  · rw [hp, hd, hv]; exact I.rec_ t ht
  · exact I.rec_ x hx
  · rw [hp, hd]; exact I.norec t ht
  · exact I.norec x hx

theorem acquire1_ok {s : Sys} (I : Inv s) {t : Task} (ht : t ∈ s.tasks) (hp : t.phase = .fresh) :
    ∃ l' t', acquire1 s.loc t = some (l', t') ∧ Inv { s with loc := l', tasks := setTask s.tasks t' } ∧
      (∀ d, s.loc.valid = some d → l'.valid = some d) := by
  unfold acquire1
  cases hr : s.loc.resolved with
  | some f =>
    refine ⟨_, _, rfl, ?_, fun _ h => h⟩
    exact inv_move I ht rfl rfl rfl rfl (by rw [hp]; rfl)
  | none =>
    have hvn := I.v0 hr
    have hrn : rdig s.loc = none := by unfold rdig; rw [hr]
    have hnfv : ∀ x ∈ s.tasks, x.firstValid = false := by
      intro x hx
      have := I.fv x hx; rw [hvn] at this; simpa using this
    have hnfr : ∀ x ∈ s.tasks, x.firstResolved = false := by
      intro x hx
      have := I.fr x hx; rw [hrn] at this; simpa using this
    have hnoflag : ∀ r ∈ s.db, r.firstValid = false := by
      intro r hr'
      cases hf : r.firstValid with
      | false => rfl
      | true => have := (I.flag r hr' hf).1; rw [hvn] at this; simp at this
    cases hiv : t.isValid with
    | true =>
      simp only [if_true, hvn]
      refine ⟨_, _, rfl, ?_, by simp⟩
      refine ⟨?_, by simp, ?_, ?_, ?_, ?_, ?_, ?_, ?_, ?_, ?_, ?_, ?_, fun r h => exists_setTask (I.dbTask r h), ?_, I.dbNodup⟩
      · show ((setTask s.tasks _).map Task.digest).Nodup
        rw [setTask_digests]; exact I.nodup
      · intro d c h; simp at h ⊢; exact h.1
      · intro d h; simp at h; exact exists_setTask ⟨t, ht, h⟩
      · intro d h; simp [rdig] at h; exact exists_setTask ⟨t, ht, h⟩
      · intro x hx
        rcases mem_setTask.1 hx with ⟨rfl, -⟩ | ⟨hx, hne⟩
        · simp
        · simp at hne; simp [hnfv x hx]; exact fun h => hne h.symm
      · intro x hx
        rcases mem_setTask.1 hx with ⟨rfl, -⟩ | ⟨hx, hne⟩
        · simp [rdig]
        · simp at hne; simp [hnfr x hx, rdig]; exact fun h => hne h.symm
      · intro x hx
        rcases mem_setTask.1 hx with ⟨rfl, -⟩ | ⟨hx, hne⟩
        · intro _; rfl
        · exact I.fvValid x hx
      · intro x hx c h
        rcases mem_setTask.1 hx with ⟨rfl, -⟩ | ⟨hx, hne⟩
        · rfl
        · simp at h hne; exact absurd h.1.symm hne
      · intro x hx h; simp at h
      · intro d g h; simp at h
      · intro x hx h
        rcases mem_setTask.1 hx with ⟨rfl, -⟩ | ⟨hx, hne⟩
        · simp [inDb] at h
        · exact I.rec_ x hx h
      · intro x hx h
        rcases mem_setTask.1 hx with ⟨rfl, -⟩ | ⟨hx, hne⟩
        · exact I.norec t ht (by rw [hp]; rfl)
        · exact I.norec x hx h
      · intro r hr' hf; rw [hnoflag r hr'] at hf; simp at hf
    | false =>
      simp only [Bool.false_eq_true, if_false]
      refine ⟨_, _, rfl, ?_, by simp⟩
      refine ⟨?_, by simp, by simp, ?_, ?_, ?_, ?_, ?_, by simp, ?_, by simp, ?_, ?_, fun r h => exists_setTask (I.dbTask r h), ?_, I.dbNodup⟩
      · show ((setTask s.tasks _).map Task.digest).Nodup
        rw [setTask_digests]; exact I.nodup
      · intro d h; simp [hvn] at h
      · intro d h; simp [rdig] at h; exact exists_setTask ⟨t, ht, h⟩
      · intro x hx
        rcases mem_setTask.1 hx with ⟨rfl, -⟩ | ⟨hx, hne⟩
        · exact I.fv t ht
        · exact I.fv x hx
      · intro x hx
        rcases mem_setTask.1 hx with ⟨rfl, -⟩ | ⟨hx, hne⟩
        · simp [rdig]
        · simp at hne; simp [hnfr x hx, rdig]; exact fun h => hne h.symm
      · intro x hx
        rcases mem_setTask.1 hx with ⟨rfl, -⟩ | ⟨hx, hne⟩
        · intro h; simp at h; rw [hnfv t ht] at h; simp at h
        · exact I.fvValid x hx
      · intro x hx h
        rcases mem_setTask.1 hx with ⟨rfl, -⟩ | ⟨hx, hne⟩
        · rfl
        · simp at h hne; exact absurd h.symm hne
      · intro x hx h
        rcases mem_setTask.1 hx with ⟨rfl, -⟩ | ⟨hx, hne⟩
        · simp [inDb] at h
        · exact I.rec_ x hx h
      · intro x hx h
        rcases mem_setTask.1 hx with ⟨rfl, -⟩ | ⟨hx, hne⟩
        · exact I.norec t ht (by rw [hp]; rfl)
        · exact I.norec x hx h
      · intro r hr' hf; rw [hnoflag r hr'] at hf; simp at hf

theorem acquire2_ok {s : Sys} (I : Inv s) {t : Task} (ht : t ∈ s.tasks) (hp : t.phase = .half)
    (hres : s.loc.resolved ≠ none) :
    Inv { s with loc := (acquire2 s.loc t).1, tasks := setTask s.tasks (acquire2 s.loc t).2 } ∧
      (∀ d, s.loc.valid = some d → (acquire2 s.loc t).1.valid = some d) := by
  unfold acquire2
  split
  · rename_i hc
    cases hv : s.loc.valid with
    | some v =>
      exact ⟨inv_move I ht rfl rfl rfl rfl (by rw [hp]; rfl), fun d h => by simpa [hv] using h⟩
    | none =>
      refine ⟨?_, by simp⟩
      have hnfv : ∀ x ∈ s.tasks, x.firstValid = false := by
        intro x hx
        have := I.fv x hx; rw [hv] at this; simpa using this
      have hnoflag : ∀ r ∈ s.db, r.firstValid = false := by
        intro r hr'
        cases hf : r.firstValid with
        | false => rfl
        | true => have := (I.flag r hr' hf).1; rw [hv] at this; simp at this
      refine ⟨?_, ?_, ?_, ?_, fun d h => exists_setTask (I.hasR d h), ?_, ?_, ?_, ?_, ?_, I.sg, ?_, ?_,
        fun r h => exists_setTask (I.dbTask r h), ?_, I.dbNodup⟩
      · show ((setTask s.tasks _).map Task.digest).Nodup
        rw [setTask_digests]; exact I.nodup
      · intro h; exact absurd h hres
      · intro d c h; have := I.v1 d c h; rw [hv] at this; simp at this
      · intro d h; simp at h; exact exists_setTask ⟨t, ht, h⟩
      · intro x hx
        rcases mem_setTask.1 hx with ⟨rfl, -⟩ | ⟨hx, hne⟩
        · simp
        · simp at hne; simp [hnfv x hx]; exact fun h => hne h.symm
      · intro x hx
        rcases mem_setTask.1 hx with ⟨rfl, -⟩ | ⟨hx, hne⟩
        · exact I.fr t ht
        · exact I.fr x hx
      · intro x hx
        rcases mem_setTask.1 hx with ⟨rfl, -⟩ | ⟨hx, hne⟩
        · intro _; exact hc.2
        · exact I.fvValid x hx
      · intro x hx c h
        rcases mem_setTask.1 hx with ⟨rfl, -⟩ | ⟨hx, hne⟩
        · exact hc.2
        · exact I.kindV x hx c h
      · intro x hx h
        rcases mem_setTask.1 hx with ⟨rfl, -⟩ | ⟨hx, hne⟩
        · exact I.kindN t ht h
        · exact I.kindN x hx h
      · intro x hx h
        rcases mem_setTask.1 hx with ⟨rfl, -⟩ | ⟨hx, hne⟩
        · simp [inDb] at h
        · exact I.rec_ x hx h
      · intro x hx h
        rcases mem_setTask.1 hx with ⟨rfl, -⟩ | ⟨hx, hne⟩
        · exact I.norec t ht (by rw [hp]; rfl)
        · exact I.norec x hx h
      · intro r hr' hf; rw [hnoflag r hr'] at hf; simp at hf
  · exact ⟨inv_move I ht rfl rfl rfl rfl (by rw [hp]; rfl), fun d h => h⟩

theorem store_ok {s : Sys} (I : Inv s) {t : Task} (ht : t ∈ s.tasks) (hp : t.phase = .acquired) :
    Inv { s with db := dbWrite s.db t, tasks := setTask s.tasks { t with phase := .stored } } ∧
      (∀ r ∈ s.db, r ∈ dbWrite s.db t) := by
  have hno := I.norec t ht (by rw [hp]; rfl)
  have hkeep : ∀ r ∈ s.db, r ∈ dbWrite s.db t := by
    intro r hr
    unfold dbWrite
    exact List.mem_cons_of_mem _ (List.mem_filter.2 ⟨hr, by simpa using hno r hr⟩)
  have hmem : ∀ r, r ∈ dbWrite s.db t ↔ r = ⟨t.digest, t.isValid, t.time, t.firstValid⟩ ∨ r ∈ s.db := by
    intro r
    unfold dbWrite
    have hany : (s.db.any fun r => decide (r.digest = t.digest) && r.firstValid) = false := by
      rw [List.any_eq_false]; intro x hx; simp [hno x hx]
    rw [hany, Bool.or_false, List.mem_cons, List.mem_filter]
    constructor
    · rintro (h | ⟨h, _⟩); exact Or.inl h; exact Or.inr h
    · rintro (h | h); exact Or.inl h; exact Or.inr ⟨h, by simpa using hno r h⟩
  refine ⟨?_, hkeep⟩
  refine ⟨?_, I.v0, I.v1, fun d h => exists_setTask (I.hasV d h), fun d h => exists_setTask (I.hasR d h), ?_, ?_, ?_, ?_, ?_,
    ?_, ?_, ?_, ?_, ?_, ?_⟩
  · show ((setTask s.tasks _).map Task.digest).Nodup
    rw [setTask_digests]; exact I.nodup
  · intro x hx
    rcases mem_setTask.1 hx with ⟨rfl, -⟩ | ⟨hx, -⟩
    · exact I.fv t ht
    · exact I.fv x hx
  · intro x hx
    rcases mem_setTask.1 hx with ⟨rfl, -⟩ | ⟨hx, -⟩
    · exact I.fr t ht
    · exact I.fr x hx
  · intro x hx
    rcases mem_setTask.1 hx with ⟨rfl, -⟩ | ⟨hx, -⟩
    · exact I.fvValid t ht
    · exact I.fvValid x hx
  · intro x hx
    rcases mem_setTask.1 hx with ⟨rfl, -⟩ | ⟨hx, -⟩
    · exact I.kindV t ht
    · exact I.kindV x hx
  · intro x hx
    rcases mem_setTask.1 hx with ⟨rfl, -⟩ | ⟨hx, -⟩
    · exact I.kindN t ht
    · exact I.kindN x hx
  · intro d g h
    obtain ⟨h1, r, hr, h2⟩ := I.sg d g h
    exact ⟨h1, r, hkeep r hr, h2⟩
  · intro x hx h
    rcases mem_setTask.1 hx with ⟨rfl, -⟩ | ⟨hx, -⟩
    · exact ⟨_, (hmem _).2 (Or.inl rfl), rfl, rfl⟩
    · obtain ⟨r, hr, h2⟩ := I.rec_ x hx h
      exact ⟨r, hkeep r hr, h2⟩
  · intro x hx h r hr
    rcases mem_setTask.1 hx with ⟨rfl, -⟩ | ⟨hx, hne⟩
    · simp [inDb] at h
    · rcases (hmem r).1 hr with rfl | hr
      · simp at hne; exact fun h => hne h.symm
      · exact I.norec x hx h r hr
  · intro r hr
    rcases (hmem r).1 hr with rfl | hr
    · exact exists_setTask ⟨t, ht, rfl⟩
    · exact exists_setTask (I.dbTask r hr)
  · intro r hr hf
    rcases (hmem r).1 hr with rfl | hr
    · exact ⟨(I.fv t ht).1 hf, I.fvValid t ht hf⟩
    · exact I.flag r hr hf
  · unfold dbWrite
    simp only [List.map_cons, List.nodup_cons]
    refine ⟨?_, (List.filter_sublist.map _).nodup I.dbNodup⟩
    intro hm
    obtain ⟨r, hr, hd⟩ := List.mem_map.1 hm
    have := (List.mem_filter.1 hr).2
    simp at this
    exact this hd

theorem resolve_ok {s : Sys} (I : Inv s) {t : Task} (ht : t ∈ s.tasks) (hp : t.phase = .stored) :
    ∃ l', resolve s.loc t = some (l', { t with phase := .done }) ∧
      Inv { s with loc := l', tasks := setTask s.tasks { t with phase := .done } } ∧ l'.valid = s.loc.valid := by
  have hmove : Inv { s with tasks := setTask s.tasks { t with phase := .done } } :=
    inv_move I ht rfl rfl rfl rfl (by rw [hp]; rfl)
  have hchk : checkValid s.loc t = true := by
    unfold checkValid
    have h1 := I.fv t ht
    have h2 := I.fvValid t ht
    split
    · rename_i h; simpa using h1.1 h.2
    · rename_i h
      simp only [decide_eq_true_eq, ne_eq]
      intro hv
      have := h1.2 hv
      exact h ⟨h2 this, this⟩
  have same : ∀ {o}, resolveFirst s.loc t = some o → o = s.loc → ∃ l', resolve s.loc t = some (l', { t with phase := .done }) ∧
      Inv { s with loc := l', tasks := setTask s.tasks { t with phase := .done } } ∧ l'.valid = s.loc.valid := by
    intro o ho h; subst h
    unfold resolve
    rw [ho]
    simp only [hchk, if_true]
    exact ⟨_, rfl, hmove, rfl⟩
  have hfr := I.fr t ht
  by_cases hf : t.firstResolved = true
  · have hd := hfr.1 hf
    cases hr : s.loc.resolved with
    | none => simp [rdig, hr] at hd
    | some f =>
      cases f with
      | closed => simp [rdig, hr] at hd
      | notValid d =>
        simp [rdig, hr] at hd
        subst hd
        apply same (o := s.loc)
        · unfold resolveFirst
          rw [if_pos hf, hr]
          simp [I.kindN t ht hr]
        · rfl
      | valid d cell =>
        simp [rdig, hr] at hd
        subst hd
        have hiv := I.kindV t ht cell hr
        cases cell with
        | some c =>
          apply same (o := s.loc)
          · unfold resolveFirst
            rw [if_pos hf, hr]
            simp [hiv]
          · rfl
        | none =>
          have hres : resolveFirst s.loc t =
              some ⟨some (.valid t.digest (some (some ⟨t.digest, t.time, none⟩))), s.loc.valid⟩ := by
            unfold resolveFirst
            rw [if_pos hf, hr]
            simp [hiv]
          refine ⟨⟨some (.valid t.digest (some (some ⟨t.digest, t.time, none⟩))), s.loc.valid⟩, ?_, ?_, rfl⟩
          · unfold resolve
            rw [hres]
            have : checkValid ⟨some (.valid t.digest (some (some ⟨t.digest, t.time, none⟩))), s.loc.valid⟩ t = true := hchk
            simp only [this, if_true]
          have hrd : rdig s.loc = some t.digest := by unfold rdig; rw [hr]
          refine ⟨hmove.nodup, by simp, ?_, hmove.hasV, ?_, hmove.fv, ?_, hmove.fvValid, ?_, by simp, ?_, hmove.rec_, hmove.norec,
            hmove.dbTask, hmove.flag, hmove.dbNodup⟩
          · intro d c h
            simp at h
            obtain ⟨rfl, _⟩ := h
            exact I.v1 t.digest _ hr
          · intro d h
            exact hmove.hasR d (by simp only [hrd]; simpa [rdig] using h)
          · intro x hx
            have := hmove.fr x hx
            simp only [hrd] at this
            simpa [rdig] using this
          · intro x hx c h
            simp at h
            exact hmove.kindV x hx none (by simp only [hr]; rw [h.1])
          · intro d g h
            simp at h
            obtain ⟨rfl, rfl⟩ := h
            obtain ⟨r, hr1, hr2, hr3⟩ := I.rec_ t ht (by rw [hp]; rfl)
            exact ⟨rfl, r, hr1, hr2, hr3.trans hiv⟩
  · have hd : rdig s.loc ≠ some t.digest := fun h => hf (hfr.2 h)
    apply same (o := s.loc)
    · unfold resolveFirst
      rw [if_neg hf]
      cases hr : s.loc.resolved with
      | none => rfl
      | some f =>
        cases f with
        | closed => rfl
        | notValid d =>
          have : d ≠ t.digest := by intro h; subst h; exact hd (by unfold rdig; rw [hr])
          simp [this]
        | valid d c =>
          have : d ≠ t.digest := by intro h; subst h; exact hd (by unfold rdig; rw [hr])
          simp [this]
    · rfl

/-- Changes of the cell behind an acquired location. -/
theorem inv_cell {s : Sys} (I : Inv s) {d c c'} (hr : s.loc.resolved = some (.valid d c))
    (hc : ∀ g, c' = some (some g) → ∃ g0, c = some (some g0) ∧ g.digest = g0.digest) :
    Inv { s with loc := ⟨some (.valid d c'), s.loc.valid⟩ } := by
  have hrd : rdig s.loc = some d := by unfold rdig; rw [hr]
  refine ⟨I.nodup, by simp, ?_, I.hasV, ?_, I.fv, ?_, I.fvValid, ?_, by simp, ?_, I.rec_, I.norec, I.dbTask, I.flag, I.dbNodup⟩
  · intro d' c'' h; simp at h; obtain ⟨rfl, -⟩ := h; exact I.v1 d c hr
  · intro d' h; exact I.hasR d' (by rw [hrd]; simpa [rdig] using h)
  · intro x hx
    have := I.fr x hx
    rw [hrd] at this
    simpa [rdig] using this
  · intro x hx c'' h
    simp at h
    exact I.kindV x hx c (by rw [hr, h.1])
  · intro d' g h
    simp at h
    obtain ⟨rfl, h⟩ := h
    obtain ⟨g0, hg0, hg⟩ := hc g h
    subst hg0
    have := I.sg d g0 hr
    exact ⟨by rw [hg]; exact this.1, this.2⟩

theorem sign_ok {s : Sys} (I : Inv s) (round : Nat) (a : Ask) (l : List (Nat × Nat)) :
    Inv { s with loc := (sign round s.loc a).2, signed := l } ∧ (sign round s.loc a).2.valid = s.loc.valid := by
  have base : Inv { s with signed := l } := ⟨I.nodup, I.v0, I.v1, I.hasV, I.hasR, I.fv, I.fr, I.fvValid, I.kindV, I.kindN, I.sg,
    I.rec_, I.norec, I.dbTask, I.flag, I.dbNodup⟩
  unfold sign
  split
  · exact ⟨base, rfl⟩
  · exact ⟨base, rfl⟩
  · exact ⟨base, rfl⟩
  · exact ⟨base, rfl⟩
  · exact ⟨base, rfl⟩
  · rename_i d g hr
    refine ⟨inv_cell base hr ?_, rfl⟩
    intro g' hg'
    simp at hg'
    exact ⟨g, rfl, by rw [← hg']⟩

theorem reject_ok {s : Sys} (I : Inv s) :
    Inv { s with loc := (getOrReject s.loc).2 } ∧ (getOrReject s.loc).2.valid = s.loc.valid := by
  unfold getOrReject
  split
  · rename_i hr
    refine ⟨?_, rfl⟩
    have hrd : rdig s.loc = none := by unfold rdig; rw [hr]
    refine ⟨I.nodup, by simp, by simp, I.hasV, by simp [rdig], I.fv, ?_, I.fvValid, by simp, by simp, by simp, I.rec_, I.norec,
      I.dbTask, I.flag, I.dbNodup⟩
    intro x hx
    have := I.fr x hx
    rw [hrd] at this
    simpa [rdig] using this
  · exact ⟨I, rfl⟩
  · exact ⟨I, rfl⟩
  · rename_i d hr
    exact ⟨inv_cell I hr (by simp), rfl⟩
  · exact ⟨I, rfl⟩
  · rename_i d g hr
    split
    · refine ⟨inv_cell I hr ?_, rfl⟩
      intro g' hg'
      simp at hg'
      exact ⟨g, rfl, by rw [← hg']⟩
    · exact ⟨I, rfl⟩
    · exact ⟨I, rfl⟩

end Tycho.Signing
