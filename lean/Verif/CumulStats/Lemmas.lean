import Verif.CumulStats.QLemmas
import Verif.CumulStats.Spec

/-! Lemmas about the tables and loops of the cumulative statistics. -/
namespace Tycho.CumulStats
open Tycho.Table

/-! ### results -/

abbrev Results := Table Nat Entry

/-- Values of the initial statistics. -/
def iv (r : Results) (p a : Nat) : Nat := match Table.get r p with
  | some e => e.initial.val a
  | none => 0

/-- Values of the remaining statistics. -/
def rv (r : Results) (p a : Nat) : Nat := match Table.get r p with
  | some e => e.remaining.q.val a
  | none => 0

def EntryOk (env : Env) (e : Entry) : Prop := e.initial.Wf ∧ e.remaining.Ok env

/-- An entry changed so that a rollback would give the same. -/
def EntryRel (e e' : Entry) : Prop := SameUndo e.initial e'.initial ∧ SameUndoT e.remaining e'.remaining

theorem EntryRel.refl (e : Entry) : EntryRel e e := ⟨SameUndo.refl _, SameUndo.refl _, rfl⟩

theorem EntryRel.trans {e1 e2 e3 : Entry} (h1 : EntryRel e1 e2) (h2 : EntryRel e2 e3) : EntryRel e1 e3 :=
  ⟨h1.1.trans h2.1, h1.2.1.trans h2.2.1, h2.2.2.trans h1.2.2⟩

/-- Tables with the same keys in the same order and related entries. -/
def ResRel (r r' : Results) : Prop := List.Forall₂ (fun x y => y.1 = x.1 ∧ EntryRel x.2 y.2) r r'

theorem ResRel.refl (r : Results) : ResRel r r := by
  unfold ResRel
  induction r with
  | nil => exact .nil
  | cons x r ih => exact .cons ⟨rfl, EntryRel.refl _⟩ ih

theorem ResRel.trans {r1 r2 r3 : Results} (h1 : ResRel r1 r2) (h2 : ResRel r2 r3) : ResRel r1 r3 := by
  unfold ResRel at *
  induction h1 generalizing r3 with
  | nil => exact h2
  | cons h _ ih =>
    cases h2 with
    | cons h' ht => exact .cons ⟨h'.1.trans h.1, h.2.trans h'.2⟩ (ih ht)

theorem ResRel.keys {r r' : Results} (h : ResRel r r') : r'.map (·.1) = r.map (·.1) := by
  induction h with
  | nil => rfl
  | cons h _ ih => simp [h.1, ih]

theorem ResRel.isSome {r r' : Results} (h : ResRel r r') (p : Nat) : (Table.get r' p).isSome = (Table.get r p).isSome := by
  induction h with
  | nil => rfl
  | cons h _ ih =>
    simp only [Table.get, h.1]
    split
    · rfl
    · exact ih

/-- A table with another value for a key. -/
def setAt (t : Results) (p : Nat) (e : Entry) : Results := t.map (fun x => if x.1 = p then (x.1, e) else x)

theorem setAt_ne {t : Results} {p : Nat} {e : Entry} (h : p ∉ t.map (·.1)) : setAt t p e = t := by
  induction t with
  | nil => rfl
  | cons x t ih =>
    simp only [List.map_cons, List.mem_cons, not_or] at h
    unfold setAt at *
    rw [List.map_cons, ih h.2, if_neg (fun hh => h.1 hh.symm)]

theorem setAt_cons_self {x : Nat × Entry} {t : Results} {e : Entry} (h : x.1 ∉ t.map (·.1)) :
    setAt (x :: t) x.1 e = (x.1, e) :: t := by
  have := setAt_ne (e := e) h
  unfold setAt at *
  rw [List.map_cons, this, if_pos rfl]

theorem modify_eq {t : Results} (hu : Uniq t) {p : Nat} {f : Entry → Option Entry} {e e' : Entry} (hg : Table.get t p = some e)
    (hf : f e = some e') : modify t p f = some (setAt t p e') := by
  induction t with
  | nil => simp [Table.get] at hg
  | cons x t ih =>
    unfold Uniq at hu
    simp only [List.map_cons, List.nodup_cons] at hu
    unfold modify
    unfold Table.get at hg
    split at hg
    · rename_i hx
      simp only [Option.some.injEq] at hg
      subst hg
      rw [if_pos hx, hf]
      rw [← hx, setAt_cons_self hu.1]
      rfl
    · rename_i hx
      rw [if_neg hx, ih hu.2 hg]
      simp [setAt, hx]

theorem get_setAt (t : Results) (p : Nat) (e' : Entry) (k : Nat) :
    Table.get (setAt t p e') k = if k = p then (Table.get t p).map (fun _ => e') else Table.get t k := by
  induction t with
  | nil => simp [setAt, Table.get]
  | cons x t ih =>
    unfold setAt at *
    simp only [List.map_cons, Table.get]
    by_cases hx : x.1 = p
    · rw [if_pos hx]
      simp only [hx]
      by_cases hk : p = k
      · subst hk; simp
      · have hk' : ¬ k = p := fun h => hk h.symm
        simp only [hk, hk', if_false]
        rw [ih]
        simp [hk']
    · rw [if_neg hx]
      simp only [hx, if_false]
      by_cases hk : x.1 = k
      · have : ¬ k = p := fun h => hx (hk.trans h)
        simp [hk, this]
      · simp only [hk, if_false]
        rw [ih]

theorem rel_setAt {t : Results} (hu : Uniq t) {p : Nat} {e e' : Entry} (hg : Table.get t p = some e) (hr : EntryRel e e') :
    ResRel t (setAt t p e') := by
  induction t with
  | nil => exact .nil
  | cons x t ih =>
    have hu' := hu
    unfold Uniq at hu
    simp only [List.map_cons, List.nodup_cons] at hu
    unfold Table.get at hg
    unfold setAt
    rw [List.map_cons]
    split at hg
    · rename_i hx
      simp only [Option.some.injEq] at hg
      subst hg
      refine .cons ⟨by simp [hx], by rw [if_pos hx]; exact hr⟩ ?_
      have := setAt_ne (p := p) (e := e') (t := t) (by rw [← hx]; exact hu.1)
      unfold setAt at this
      rw [this]
      exact ResRel.refl t
    · rename_i hx
      rw [if_neg hx]
      exact .cons ⟨rfl, EntryRel.refl _⟩ (ih hu.2 hg)

theorem uniq_of_keys {r r' : Results} (h : r'.map (·.1) = r.map (·.1)) (hu : Uniq r) : Uniq r' := by
  unfold Uniq at *
  rw [h]; exact hu

theorem ok_setAt {env : Env} {t : Results} (hok : ∀ x ∈ t, EntryOk env x.2) {p : Nat} {e' : Entry} (he : EntryOk env e') :
    ∀ x ∈ setAt t p e', EntryOk env x.2 := by
  intro x hx
  unfold setAt at hx
  obtain ⟨y, hy, rfl⟩ := List.mem_map.mp hx
  split
  · exact he
  · exact hok y hy

theorem ok_get {env : Env} {t : Results} (hok : ∀ x ∈ t, EntryOk env x.2) {p : Nat} {e : Entry} (hg : Table.get t p = some e) :
    EntryOk env e := hok (p, e) (mem_of_get t p e hg)

/-! ### the loop over the accounts of a diff -/

theorem decAll_spec {env : Env} {dst : Nat} : ∀ {l : Accounts} {e : Entry}, Uniq l → (∀ x ∈ l, 0 < x.2) → EntryOk env e →
    (∀ x ∈ l, env.contains dst x.1 = true → x.2 ≤ e.initial.val x.1 ∧ (env.own ≠ dst → x.2 ≤ e.remaining.q.val x.1)) →
    ∃ e', decAll env dst e l = some e' ∧ EntryOk env e' ∧ EntryRel e e' ∧
      (∀ b, e'.initial.val b = e.initial.val b - (if env.contains dst b then countOf l b else 0)) ∧
      (∀ b, e'.remaining.q.val b = e.remaining.q.val b - (if env.own ≠ dst ∧ env.contains dst b = true then countOf l b else 0)) := by
  intro l
  induction l with
  | nil =>
    intro e _ _ hok _
    exact ⟨e, rfl, hok, EntryRel.refl e, fun b => by simp [countOf, Table.get], fun b => by simp [countOf, Table.get]⟩
  | cons x l ih =>
    intro e hu hpos hok hle
    have hu' := uniq_cons hu
    have hpos' : ∀ y ∈ l, 0 < y.2 := fun y hy => hpos y (List.mem_cons_of_mem _ hy)
    have hne : ∀ y ∈ l, y.1 ≠ x.1 := by
      intro y hy hyx
      unfold Uniq at hu
      simp only [List.map_cons, List.nodup_cons] at hu
      exact hu.1 (by rw [← hyx]; exact List.mem_map_of_mem (f := (·.1)) hy)
    unfold decAll
    by_cases hc : env.contains dst x.1 = true
    · rw [if_pos hc]
      obtain ⟨h1, h2⟩ := hle x (by simp) hc
      obtain ⟨i', hi', hv, hw, hun⟩ := decrement_spec hok.1 (hpos x (by simp)) h1
      rw [hi']
      simp only
      by_cases ho : env.own = dst
      · rw [if_pos ho]
        obtain ⟨e', he', hok', hrel, hv1, hv2⟩ := ih (e := { e with initial := i' }) hu' hpos' ⟨hw, hok.2⟩ (by
          intro y hy hcy
          obtain ⟨g1, g2⟩ := hle y (List.mem_cons_of_mem _ hy) hcy
          refine ⟨?_, g2⟩
          simp only
          rw [hv, if_neg (hne y hy)]
          exact g1)
        refine ⟨e', he', hok', ⟨hun.trans hrel.1, hrel.2⟩, ?_, ?_⟩
        · intro b
          rw [hv1, countOf_cons x l b hu]
          simp only
          rw [hv]
          by_cases hb : b = x.1
          · subst hb; simp only [if_true, hc]; omega
          · simp [hb]
        · intro b
          rw [hv2]
          simp [ho]
      · rw [if_neg ho]
        obtain ⟨r', hr', hrv, hrok, hrun⟩ := tracked_decrement hok.2 (hpos x (by simp)) (h2 ho)
        rw [hr']
        simp only
        obtain ⟨e', he', hok', hrel, hv1, hv2⟩ := ih (e := ⟨i', r'⟩) hu' hpos' ⟨hw, hrok⟩ (by
          intro y hy hcy
          obtain ⟨g1, g2⟩ := hle y (List.mem_cons_of_mem _ hy) hcy
          simp only
          rw [hv, if_neg (hne y hy), hrv, if_neg (hne y hy)]
          exact ⟨g1, g2⟩)
        refine ⟨e', he', hok', ⟨hun.trans hrel.1, hrun.1.trans hrel.2.1, hrel.2.2.trans hrun.2⟩, ?_, ?_⟩
        · intro b
          rw [hv1, countOf_cons x l b hu]
          simp only
          rw [hv]
          by_cases hb : b = x.1
          · subst hb; simp only [if_true, hc]; omega
          · simp [hb]
        · intro b
          rw [hv2, countOf_cons x l b hu]
          simp only
          rw [hrv]
          by_cases hb : b = x.1
          · subst hb; simp only [if_true, hc, ne_eq, ho, not_false_eq_true, and_self]; omega
          · simp [hb]
    · rw [if_neg hc]
      obtain ⟨e', he', hok', hrel, hv1, hv2⟩ := ih (e := e) hu' hpos' hok
        (fun y hy hcy => hle y (List.mem_cons_of_mem _ hy) hcy)
      refine ⟨e', he', hok', hrel, ?_, ?_⟩
      · intro b
        rw [hv1, countOf_cons x l b hu]
        by_cases hb : b = x.1
        · subst hb; simp [hc]
        · simp [hb]
      · intro b
        rw [hv2, countOf_cons x l b hu]
        by_cases hb : b = x.1
        · subst hb; simp [hc]
        · simp [hb]

/-! ### the loop over diffs -/

/-- The diff is up to the position for its partition and source. -/
def selId (pt : ProcTo) (id : DiffId) : Bool := match Table.get pt (id.part, id.src) with
  | some k => decide (id.key ≤ k)
  | none => false

/-- Already taken into account in this transaction. -/
def stagedFor (env : Env) (stg : List (Nat × DiffId)) (id : DiffId) (a : Nat) : Bool :=
  stg.any (fun x => decide (x.2 = id) && env.contains x.1 a)

/-- What a diff still adds to the statistics. -/
def eff (env : Env) (stg : List (Nat × DiffId)) (d : Diff) (a : Nat) : Nat :=
  if stagedFor env stg d.id a then 0 else countOf d.stats a

def sumP (E : Diff → Nat → Nat) (ds : List Diff) (p a : Nat) : Nat :=
  (ds.map (fun d => if d.id.part = p then E d a else 0)).sum

theorem sumP_cons (E : Diff → Nat → Nat) (d : Diff) (ds : List Diff) (p a : Nat) :
    sumP E (d :: ds) p a = (if d.id.part = p then E d a else 0) + sumP E ds p a := by
  simp [sumP]

/-- A diff without the accounts of a shard. -/
def cut (env : Env) (dst : Nat) (d : Diff) : Diff := { d with stats := d.stats.filter (fun x => !env.contains dst x.1) }

structure LoopPost (env : Env) (dst : Nat) (pt : ProcTo) (mode : Mode) (res : Results) (stg : List (Nat × DiffId)) (ds : List Diff)
    (E : Diff → Nat → Nat) (R : Nat → Nat → Nat) (res' : Results) (stg' : List (Nat × DiffId)) (ds' : List Diff) : Prop where
  rel : ResRel res res'
  ok : ∀ x ∈ res', EntryOk env x.2
  ivEq : ∀ p a, iv res' p a = R p a + sumP (fun (d : Diff) a => if selId pt d.id = true ∧ env.contains dst a = true then 0 else E d a) ds p a
  rvOwn : ∀ p a, env.contains env.own a = true → rv res' p a = rv res p a
  rvOther : ∀ p a, env.contains env.own a = false → rv res' p a = iv res' p a
  dsEq : ds' = ds.map (fun (d : Diff) => if mode ≠ .staged ∧ selId pt d.id = true then cut env dst d else d)
  stgIff : ∀ x, x ∈ stg' ↔ x ∈ stg ∨ (mode = .staged ∧ ∃ d ∈ ds, selId pt d.id = true ∧ x = (dst, d.id))

theorem stagedFor_cons_ne {env : Env} {stg : List (Nat × DiffId)} {y : Nat × DiffId} {id : DiffId} (h : y.2 ≠ id) (a : Nat) :
    stagedFor env (y :: stg) id a = stagedFor env stg id a := by
  simp [stagedFor, h]

theorem loop_spec {env : Env} (hdis : Disjoint env) {dst : Nat} {pt : ProcTo} {mode : Mode} (hm : mode ≠ .commitRetainOnly) :
    ∀ {ds : List Diff} {res : Results} {stg : List (Nat × DiffId)} {E : Diff → Nat → Nat} {R : Nat → Nat → Nat},
    Uniq res → (∀ x ∈ res, EntryOk env x.2) → (ds.map Diff.id).Nodup →
    (∀ d ∈ ds, Uniq d.stats ∧ (∀ e ∈ d.stats, 0 < e.2) ∧ (Table.get res d.id.part).isSome = true) →
    (∀ d ∈ ds, ∀ a, E d a = eff env stg d a) → (mode ≠ .staged → stg = []) →
    (∀ p a, iv res p a = R p a + sumP E ds p a) →
    (∀ p a, env.contains env.own a = false → rv res p a = iv res p a) →
    ∃ res' stg' ds', processLoop env dst pt mode (res, stg) ds = some ((res', stg'), ds') ∧
      LoopPost env dst pt mode res stg ds E R res' stg' ds' := by
  intro ds
  induction ds with
  | nil =>
    intro res stg E R _ hok _ _ _ _ hiv hrv
    refine ⟨res, stg, [], rfl, ResRel.refl _, hok, ?_, fun _ _ _ => rfl, hrv, rfl, by simp⟩
    intro p a
    rw [hiv]
    rfl
  | cons d ds ih =>
    intro res stg E R hu hok hnd hds hE hstg hiv hrv
    simp only [List.map_cons, List.nodup_cons] at hnd
    have hids : ∀ d' ∈ ds, d.id ≠ d'.id := fun d' hd' h => hnd.1 (by rw [h]; exact List.mem_map_of_mem hd')
    -- what to do when the diff leaves the state as it is
    have skip : ∀ (_ : processOne env dst pt mode (res, stg) d = some ((res, stg), d))
        (_ : ∀ a, (if selId pt d.id = true ∧ env.contains dst a = true then 0 else E d a) = E d a)
        (_ : ¬ (mode ≠ .staged ∧ selId pt d.id = true))
        (_ : mode = .staged → selId pt d.id = true → (dst, d.id) ∈ stg),
        ∃ res' stg' ds', processLoop env dst pt mode (res, stg) (d :: ds) = some ((res', stg'), ds') ∧
          LoopPost env dst pt mode res stg (d :: ds) E R res' stg' ds' := by
      intro hp hz hcut hin
      obtain ⟨res', stg', ds', hl, post⟩ := ih (res := res) (stg := stg) (E := E)
        (R := fun p a => R p a + if d.id.part = p then E d a else 0) hu hok hnd.2
        (fun d' hd' => hds d' (List.mem_cons_of_mem _ hd')) (fun d' hd' => hE d' (List.mem_cons_of_mem _ hd')) hstg
        (by intro p a; rw [hiv, sumP_cons]; omega) hrv
      refine ⟨res', stg', d :: ds', ?_, post.rel, post.ok, ?_, post.rvOwn, post.rvOther, ?_, ?_⟩
      · unfold processLoop
        rw [hp]
        simp only
        rw [hl]
        rfl
      · intro p a
        rw [post.ivEq, sumP_cons, hz]
        omega
      · rw [List.map_cons, if_neg hcut, ← post.dsEq]
      · intro x
        rw [post.stgIff]
        constructor
        · rintro (h | ⟨h, d', hd', h2⟩)
          · exact Or.inl h
          · exact Or.inr ⟨h, d', List.mem_cons_of_mem _ hd', h2⟩
        · rintro (h | ⟨h, d', hd', h2, h3⟩)
          · exact Or.inl h
          · rcases List.mem_cons.mp hd' with rfl | hd'
            · rw [h3]; exact Or.inl (hin h h2)
            · exact Or.inr ⟨h, d', hd', h2, h3⟩
    unfold selId at skip
    unfold processOne at skip
    cases hg : Table.get pt (d.id.part, d.id.src) with
    | none =>
      rw [hg] at skip
      simp only at skip
      exact skip trivial (by simp) (by simp) (by simp)
    | some toKey =>
      rw [hg] at skip
      simp only at skip
      by_cases hk : d.id.key ≤ toKey
      · by_cases hin : mode = .staged ∧ (dst, d.id) ∈ stg
        · refine skip (by rw [if_pos hk, if_pos hin]) ?_ (by simp [hin.1]) (fun _ _ => hin.2)
          intro a
          split
          · rename_i hc
            rw [hE d (by simp), eff, if_pos]
            unfold stagedFor
            rw [List.any_eq_true]
            exact ⟨(dst, d.id), hin.2, by simp [hc.2]⟩
          · rfl
        · -- the diff is taken into account
          clear skip
          have hsel : selId pt d.id = true := by unfold selId; rw [hg]; simpa using hk
          obtain ⟨hus, hpos, hpart⟩ := hds d (by simp)
          obtain ⟨e, he⟩ := Option.isSome_iff_exists.mp hpart
          have hEd : ∀ a, env.contains dst a = true → E d a = countOf d.stats a := by
            intro a hc
            rw [hE d (by simp), eff, if_neg]
            intro hs
            unfold stagedFor at hs
            rw [List.any_eq_true] at hs
            obtain ⟨x, hx, hx2⟩ := hs
            simp only [Bool.and_eq_true, decide_eq_true_eq] at hx2
            have hxd := hdis x.1 dst a hx2.2 hc
            by_cases hmode : mode = .staged
            · exact hin ⟨hmode, by rw [← hxd, ← hx2.1]; exact hx⟩
            · rw [hstg hmode] at hx; simp at hx
          have hge : ∀ a, env.contains dst a = true → countOf d.stats a ≤ e.initial.val a := by
            intro a hc
            have := hiv d.id.part a
            rw [sumP_cons, if_pos rfl, hEd a hc] at this
            unfold iv at this
            rw [he] at this
            simp only at this
            omega
          obtain ⟨e', hdec, heok, herel, hv1, hv2⟩ := decAll_spec (dst := dst) hus hpos (ok_get hok he) (by
            intro x hx hc
            have hcx : countOf d.stats x.1 = x.2 := by
              unfold countOf; rw [get_of_mem d.stats hus x.1 x.2 hx]; rfl
            have h1 := hge x.1 hc
            rw [hcx] at h1
            refine ⟨h1, fun ho => ?_⟩
            have hno : env.contains env.own x.1 = false := by
              cases hoo : env.contains env.own x.1 with
              | false => rfl
              | true => exact absurd (hdis _ _ _ hoo hc) ho
            have := hrv d.id.part x.1 hno
            unfold rv iv at this
            rw [he] at this
            simp only at this
            omega)
          have hens : ensure res d.id.part = res := by unfold ensure; rw [if_pos hpart]
          have hmod := modify_eq hu (p := d.id.part) (f := fun e => decAll env dst e d.stats) he hdec
          have hrel := rel_setAt hu he herel
          have hiv' : ∀ p a, iv (setAt res d.id.part e') p a =
              iv res p a - (if p = d.id.part ∧ env.contains dst a = true then countOf d.stats a else 0) := by
            intro p a
            unfold iv
            rw [get_setAt]
            by_cases hp : p = d.id.part
            · subst hp
              rw [if_pos rfl, he]
              simp only [Option.map_some, hv1, true_and]
            · rw [if_neg hp]
              simp [hp]
          have hrv' : ∀ p a, rv (setAt res d.id.part e') p a =
              rv res p a - (if p = d.id.part ∧ env.own ≠ dst ∧ env.contains dst a = true then countOf d.stats a else 0) := by
            intro p a
            unfold rv
            rw [get_setAt]
            by_cases hp : p = d.id.part
            · subst hp
              rw [if_pos rfl, he]
              simp only [Option.map_some, hv2, true_and]
            · rw [if_neg hp]
              simp [hp]
          generalize hstg2 : (if mode = .staged then (dst, d.id) :: stg else stg) = stg2
          have hstg2ne : ∀ d' ∈ ds, ∀ a, stagedFor env stg2 d'.id a = stagedFor env stg d'.id a := by
            intro d' hd' a
            rw [← hstg2]
            split
            · exact stagedFor_cons_ne (by simpa using hids d' hd') a
            · rfl
          obtain ⟨res', stg', ds', hl, post⟩ := ih (res := setAt res d.id.part e') (stg := stg2) (E := E)
            (R := fun p a => R p a + if d.id.part = p then (if env.contains dst a = true then 0 else E d a) else 0)
            (uniq_of_keys hrel.keys hu) (ok_setAt hok heok) hnd.2
            (fun d' hd' => by
              obtain ⟨g1, g2, g3⟩ := hds d' (List.mem_cons_of_mem _ hd')
              exact ⟨g1, g2, by rw [hrel.isSome]; exact g3⟩)
            (fun d' hd' a => by
              rw [hE d' (List.mem_cons_of_mem _ hd'), eff, eff, hstg2ne d' hd'])
            (fun hmode => by rw [← hstg2, if_neg hmode]; exact hstg hmode)
            (by
              intro p a
              rw [hiv', hiv, sumP_cons]
              by_cases hp : d.id.part = p
              · simp only [hp, if_true, true_and]
                by_cases hc : env.contains dst a = true
                · rw [if_pos hc, if_pos hc, hEd a hc]; omega
                · rw [if_neg hc, if_neg hc]; omega
              · have hp' : ¬ p = d.id.part := fun h => hp h.symm
                simp [hp, hp'])
            (by
              intro p a hno
              rw [hiv', hrv', hrv p a hno]
              by_cases ho : env.own = dst
              · have : env.contains dst a = false := by rw [← ho]; exact hno
                simp [this]
              · simp [ho])
          refine ⟨res', stg', (if mode = .staged then d else cut env dst d) :: ds', ?_, hrel.trans post.rel, post.ok, ?_, ?_,
            post.rvOther, ?_, ?_⟩
          · unfold processLoop processOne
            rw [hg]
            simp only
            rw [if_pos hk, if_neg hin, if_neg hm, hens, hmod, hstg2]
            simp only [Option.map_some]
            rw [hl]
            rfl
          · intro p a
            rw [post.ivEq, sumP_cons]
            simp only [hsel, true_and]
            omega
          · intro p a hown
            rw [post.rvOwn p a hown, hrv', if_neg]
            · omega
            · rintro ⟨_, ho, hc⟩
              exact ho (hdis _ _ _ hown hc)
          · rw [List.map_cons, ← post.dsEq]
            by_cases hmode : mode = .staged
            · simp [hmode]
            · simp [hmode, hsel]
          · intro x
            rw [post.stgIff, ← hstg2]
            by_cases hmode : mode = .staged
            · simp only [hmode, if_true, List.mem_cons, true_and]
              constructor
              · rintro ((h | h) | ⟨d', hd', h2⟩)
                · exact Or.inr ⟨d, Or.inl rfl, hsel, h⟩
                · exact Or.inl h
                · exact Or.inr ⟨d', Or.inr hd', h2⟩
              · rintro (h | ⟨d', hd' | hd', h2, h3⟩)
                · exact Or.inl (Or.inr h)
                · subst hd'; exact Or.inl (Or.inl h3)
                · exact Or.inr ⟨d', hd', h2, h3⟩
            · simp [hmode]
      · exact skip (by rw [if_neg hk]) (by simp [hk]) (by simp [hk]) (by simp [hk])

/-! ### diffs by id -/

/-- The count of an account in the diff with an id. -/
def lk (ds : List Diff) (id : DiffId) (a : Nat) : Nat := match ds.find? (fun d => decide (d.id = id)) with
  | some d => countOf d.stats a
  | none => 0

theorem lk_cons (d : Diff) (ds : List Diff) (id : DiffId) (a : Nat) :
    lk (d :: ds) id a = if d.id = id then countOf d.stats a else lk ds id a := by
  unfold lk
  by_cases h : d.id = id
  · rw [List.find?_cons_of_pos (by simpa using h), if_pos h]
  · rw [List.find?_cons_of_neg (by simpa using h), if_neg h]

theorem lk_eq_zero {ds : List Diff} {id : DiffId} (h : ∀ d ∈ ds, d.id ≠ id) (a : Nat) : lk ds id a = 0 := by
  induction ds with
  | nil => rfl
  | cons d ds ih =>
    rw [lk_cons, if_neg (h d (by simp))]
    exact ih (fun d' hd' => h d' (List.mem_cons_of_mem _ hd'))

theorem lk_mem {ds : List Diff} (hn : (ds.map Diff.id).Nodup) {d : Diff} (hd : d ∈ ds) (a : Nat) : lk ds d.id a = countOf d.stats a := by
  induction ds with
  | nil => simp at hd
  | cons x ds ih =>
    simp only [List.map_cons, List.nodup_cons] at hn
    rw [lk_cons]
    rcases List.mem_cons.mp hd with rfl | hd
    · rw [if_pos rfl]
    · rw [if_neg (fun h => hn.1 (by rw [h]; exact List.mem_map_of_mem hd))]
      exact ih hn.2 hd

theorem countOf_filter (l : Accounts) (p : Nat → Bool) (a : Nat) :
    countOf (l.filter (fun x => p x.1)) a = if p a then countOf l a else 0 := by
  have h := get_del l (fun k => !p k) a
  unfold del at h
  simp only [Bool.not_not] at h
  unfold countOf
  rw [h]
  cases p a <;> simp

theorem countOf_cut (env : Env) (dst : Nat) (d : Diff) (a : Nat) :
    countOf (cut env dst d).stats a = if env.contains dst a then 0 else countOf d.stats a := by
  have := countOf_filter d.stats (fun k => !env.contains dst k) a
  unfold cut
  simp only
  rw [this]
  cases env.contains dst a <;> rfl

/-- The diffs after an update that removes accounts. -/
def cutSel (env : Env) (dst : Nat) (pt : ProcTo) (ds : List Diff) : List Diff :=
  ds.map (fun d => if selId pt d.id = true then cut env dst d else d)

theorem cutSel_ids (env : Env) (dst : Nat) (pt : ProcTo) (ds : List Diff) : (cutSel env dst pt ds).map Diff.id = ds.map Diff.id := by
  unfold cutSel
  rw [List.map_map]
  apply List.map_congr_left
  intro d _
  simp only [Function.comp]
  split <;> rfl

theorem lk_cutSel (env : Env) (dst : Nat) (pt : ProcTo) (ds : List Diff) (id : DiffId) (a : Nat) :
    lk (cutSel env dst pt ds) id a = if selId pt id = true ∧ env.contains dst a = true then 0 else lk ds id a := by
  induction ds with
  | nil => simp [cutSel, lk]
  | cons d ds ih =>
    unfold cutSel at ih ⊢
    rw [List.map_cons, lk_cons, lk_cons, ih]
    by_cases hs : selId pt d.id = true
    · rw [if_pos hs]
      by_cases hd : d.id = id
      · subst hd
        rw [if_pos (by rfl), countOf_cut]
        simp only [if_true, hs, true_and]
      · rw [if_neg (show ¬ (cut env dst d).id = id from hd), if_neg hd]
    · rw [if_neg hs]
      by_cases hd : d.id = id
      · subst hd
        simp [hs]
      · simp [hd]

theorem lk_filter {ds : List Diff} (hn : (ds.map Diff.id).Nodup) (keep : Diff → Bool) (h : ∀ d ∈ ds, keep d = false → d.stats = [])
    (id : DiffId) (a : Nat) : lk (ds.filter keep) id a = lk ds id a := by
  induction ds with
  | nil => rfl
  | cons d ds ih =>
    simp only [List.map_cons, List.nodup_cons] at hn
    have ih := ih hn.2 (fun d' hd' => h d' (List.mem_cons_of_mem _ hd'))
    cases hk : keep d with
    | true => rw [List.filter_cons_of_pos hk, lk_cons, lk_cons, ih]
    | false =>
      rw [List.filter_cons_of_neg (by simp [hk]), ih, lk_cons]
      split
      · rename_i hd
        rw [h d (by simp) hk]
        subst hd
        rw [lk_eq_zero (fun d' hd' hh => hn.1 (by rw [← hh]; exact List.mem_map_of_mem hd'))]
        rfl
      · rfl

theorem lk_dropEmpty {ds : List Diff} (hn : (ds.map Diff.id).Nodup) (pt : ProcTo) (id : DiffId) (a : Nat) :
    lk (dropEmpty pt ds) id a = lk ds id a := by
  apply lk_filter hn
  intro d _ hd
  simp only [Bool.or_eq_false_iff, Bool.not_eq_false'] at hd
  exact List.isEmpty_iff.mp hd.2

theorem lk_append {ds : List Diff} {id : DiffId} (h : ∀ d ∈ ds, d.id ≠ id) (st : Accounts) (id' : DiffId) (a : Nat) :
    lk (ds ++ [⟨id, st⟩]) id' a = if id' = id then countOf st a else lk ds id' a := by
  induction ds with
  | nil =>
    rw [List.nil_append, lk_cons]
    by_cases hi : id' = id
    · subst hi; simp
    · have : ¬ id = id' := fun hh => hi hh.symm
      simp [hi, this]
  | cons d ds ih =>
    rw [List.cons_append, lk_cons, lk_cons, ih (fun d' hd' => h d' (List.mem_cons_of_mem _ hd'))]
    by_cases hi : id' = id
    · subst hi
      rw [if_neg (h d (by simp))]
      simp
    · simp [hi]

/-- Sums over the same diffs in two lists. -/
theorem sum_bridge {A : List Diff} (hA : (A.map Diff.id).Nodup) (G : Diff → Nat) (p : Nat) (f : DiffId → Nat) :
    ∀ {D : List Diff}, (D.map Diff.id).Nodup → (∀ d ∈ D, ∃ r ∈ A, r.id = d.id) →
    (∀ r ∈ A, G r = if r.id ∈ D.map Diff.id then f r.id else 0) →
    (D.map (fun d => if d.id.part = p then f d.id else 0)).sum = (A.map (fun r => if r.id.part = p then G r else 0)).sum := by
  induction A with
  | nil =>
    intro D _ hsub _
    cases D with
    | nil => rfl
    | cons d D => obtain ⟨r, hr, _⟩ := hsub d (by simp); simp at hr
  | cons r A ih =>
    intro D hD hsub hG
    simp only [List.map_cons, List.nodup_cons] at hA
    have hr := hG r (by simp)
    -- remove the id of `r` from D
    have key : (D.map (fun d => if d.id.part = p then f d.id else 0)).sum =
        (if r.id.part = p then G r else 0) +
        ((D.filter (fun d => decide (d.id ≠ r.id))).map (fun d => if d.id.part = p then f d.id else 0)).sum := by
      rw [hr]
      clear hr hG hsub ih hA
      induction D with
      | nil => simp
      | cons d D ihD =>
        simp only [List.map_cons, List.nodup_cons] at hD
        by_cases hd : d.id = r.id
        · rw [List.filter_cons_of_neg (by simp [hd])]
          have hf : D.filter (fun d => decide (d.id ≠ r.id)) = D := by
            rw [List.filter_eq_self]
            intro x hx
            have : x.id ≠ r.id := fun hh => hD.1 (by rw [hd, ← hh]; exact List.mem_map_of_mem hx)
            simpa using this
          rw [hf, List.map_cons, List.sum_cons, hd, List.map_cons, hd, if_pos (List.mem_cons_self)]
        · rw [List.filter_cons_of_pos (by simpa using hd), List.map_cons, List.sum_cons, ihD hD.2]
          have hd' : ¬ r.id = d.id := fun h => hd h.symm
          simp only [List.map_cons, List.mem_cons, hd', false_or, List.sum_cons]
          omega
    rw [key, List.map_cons, List.sum_cons]
    congr 1
    apply ih hA.2
    · exact hD.sublist (List.filter_sublist.map _)
    · intro d hd
      rw [List.mem_filter] at hd
      obtain ⟨r', hr', hid⟩ := hsub d hd.1
      rcases List.mem_cons.mp hr' with rfl | hr'
      · simp [hid] at hd
      · exact ⟨r', hr', hid⟩
    · intro r' hr'
      rw [hG r' (List.mem_cons_of_mem _ hr')]
      have hne : r'.id ≠ r.id := fun h => hA.1 (by rw [← h]; exact List.mem_map_of_mem hr')
      have : r'.id ∈ (D.filter (fun d => decide (d.id ≠ r.id))).map Diff.id ↔ r'.id ∈ D.map Diff.id := by
        constructor
        · intro h
          obtain ⟨d, hd, hid⟩ := List.mem_map.mp h
          exact List.mem_map.mpr ⟨d, (List.mem_filter.mp hd).1, hid⟩
        · intro h
          obtain ⟨d, hd, hid⟩ := List.mem_map.mp h
          exact List.mem_map.mpr ⟨d, List.mem_filter.mpr ⟨hd, by rw [hid]; simpa using hne⟩, hid⟩
      simp only [this]

/-! ### the end of a transaction -/

theorem process_commit (env : Env) (dst : Nat) (pt : ProcTo) (ds : List Diff) :
    process env dst pt .commitRetainOnly [] [] ds = some (([], []), dropEmpty pt (cutSel env dst pt ds)) := by
  have : processLoop env dst pt .commitRetainOnly ([], []) ds = some (([], []), cutSel env dst pt ds) := by
    induction ds with
    | nil => rfl
    | cons d ds ih =>
      have h1 : processOne env dst pt .commitRetainOnly ([], []) d =
          some (([], []), if selId pt d.id = true then cut env dst d else d) := by
        unfold processOne selId
        cases Table.get pt (d.id.part, d.id.src) with
        | none => rfl
        | some k =>
          simp only [decide_eq_true_eq]
          split
          · rw [if_neg (by simp)]
            simp [cut]
          · rfl
      unfold processLoop
      rw [h1]
      simp only
      rw [ih]
      rfl
  unfold process
  rw [this]
  simp

/-- The diffs of a transaction when it is committed. -/
theorem commitLoop_spec (env : Env) : ∀ (ups : Table Nat ProcTo) (ds : List Diff), (ds.map Diff.id).Nodup →
    ((commitLoop env ds ups).map Diff.id).Nodup ∧
    (∀ d' ∈ commitLoop env ds ups, ∃ d ∈ ds, d'.id = d.id ∧ d'.stats.Sublist d.stats) ∧
    (∀ id a, lk (commitLoop env ds ups) id a =
      if ups.any (fun x => selId x.2 id && env.contains x.1 a) then 0 else lk ds id a) := by
  intro ups
  induction ups with
  | nil => intro ds h; exact ⟨h, fun d hd => ⟨d, hd, rfl, List.Sublist.refl _⟩, fun id a => rfl⟩
  | cons x ups ih =>
    intro ds h
    have hcut : ((cutSel env x.1 x.2 ds).map Diff.id).Nodup := by rw [cutSel_ids]; exact h
    have hdrop : ((dropEmpty x.2 (cutSel env x.1 x.2 ds)).map Diff.id).Nodup :=
      hcut.sublist (List.filter_sublist.map _)
    have he : commitLoop env ds (x :: ups) = commitLoop env (dropEmpty x.2 (cutSel env x.1 x.2 ds)) ups := by
      rw [commitLoop, process_commit]
    obtain ⟨h1, h2, h3⟩ := ih _ hdrop
    rw [he]
    refine ⟨h1, ?_, ?_⟩
    · intro d' hd'
      obtain ⟨d, hd, hid, hs⟩ := h2 d' hd'
      have hd := (List.mem_filter.mp hd).1
      unfold cutSel at hd
      obtain ⟨y, hy, rfl⟩ := List.mem_map.mp hd
      refine ⟨y, hy, ?_, ?_⟩
      · rw [hid]; split <;> rfl
      · refine hs.trans ?_
        split
        · exact List.filter_sublist
        · exact List.Sublist.refl _
    · intro id a
      rw [h3, lk_dropEmpty hcut, lk_cutSel, List.any_cons]
      by_cases hu : ups.any (fun x => selId x.2 id && env.contains x.1 a) = true
      · simp [hu]
      · simp only [hu, Bool.false_eq_true, if_false, Bool.or_false, Bool.and_eq_true]

end Tycho.CumulStats
