import Verif.Cert.Inv
import Mathlib.Data.List.Induction
/-! The invariant holds along every history. -/
namespace Tycho.Cert

theorem mem_extend (s : St) (dst src : List Nat) (r : Nat) :
    r ∈ s.extend dst src ↔ r ∈ dst ∨ (r ∈ src ∧ s.alive r = true) := by
  unfold St.extend
  induction src generalizing dst with
  | nil => simp
  | cons i src ih =>
    rw [List.foldl_cons, ih]
    by_cases h1 : i ∈ dst
    · rw [if_pos h1]
      constructor
      · rintro (h | ⟨h, ha⟩)
        · exact Or.inl h
        · exact Or.inr ⟨by simp [h], ha⟩
      · rintro (h | ⟨h, ha⟩)
        · exact Or.inl h
        · rcases List.mem_cons.mp h with rfl | h
          · exact Or.inl h1
          · exact Or.inr ⟨h, ha⟩
    · rw [if_neg h1]
      by_cases h2 : s.alive i = true
      · rw [if_pos h2]
        simp only [List.mem_append, List.mem_cons, List.not_mem_nil, or_false]
        constructor
        · rintro ((h | rfl) | ⟨h, ha⟩)
          · exact Or.inl h
          · exact Or.inr ⟨Or.inl rfl, h2⟩
          · exact Or.inr ⟨Or.inr h, ha⟩
        · rintro (h | ⟨rfl | h, ha⟩)
          · exact Or.inl (Or.inl h)
          · exact Or.inl (Or.inr rfl)
          · exact Or.inr ⟨h, ha⟩
      · rw [if_neg h2]
        constructor
        · rintro (h | ⟨h, ha⟩)
          · exact Or.inl h
          · exact Or.inr ⟨by simp [h], ha⟩
        · rintro (h | ⟨h, ha⟩)
          · exact Or.inl h
          · rcases List.mem_cons.mp h with rfl | h
            · exact absurd ha h2
            · exact Or.inr ⟨h, ha⟩

theorem pends_append (ts : List Task) (t : Task) (i n : Nat) :
    Pends (ts ++ [t]) i n ↔ Pends ts i n ∨ t.Pending i n := by
  unfold Pends
  constructor
  · rintro ⟨x, hx, hp⟩
    rcases List.mem_append.mp hx with h | h
    · exact Or.inl ⟨x, h, hp⟩
    · simp at h; subst h; exact Or.inr hp
  · rintro (⟨x, hx, hp⟩ | hp)
    · exact ⟨x, by simp [hx], hp⟩
    · exact ⟨t, by simp, hp⟩

theorem pends_set_down {ts : List Task} {k : Nat} {t t' : Task} (hk : ts[k]? = some t) {i n : Nat} (h : Pends ts i n) :
    Pends (ts.set k t') i n ∨ t.Pending i n := by
  obtain ⟨x, hx, hp⟩ := h
  obtain ⟨j, hj⟩ := List.mem_iff_getElem?.mp hx
  by_cases hjk : j = k
  · subst hjk
    rw [hk] at hj; cases hj
    exact Or.inr hp
  · left
    refine ⟨x, ?_, hp⟩
    apply List.mem_iff_getElem?.mpr
    exact ⟨j, by rw [List.getElem?_set_ne (Ne.symm hjk)]; exact hj⟩

theorem pends_set_new {ts : List Task} {k : Nat} {t t' : Task} (hk : ts[k]? = some t) {i n : Nat} (h : t'.Pending i n) :
    Pends (ts.set k t') i n := by
  refine ⟨t', ?_, h⟩
  apply List.mem_iff_getElem?.mpr
  refine ⟨k, ?_⟩
  have : k < ts.length := by
    rcases Nat.lt_or_ge k ts.length with h | h
    · exact h
    · rw [List.getElem?_eq_none h] at hk; cases hk
  rw [List.getElem?_set_self this]

theorem pends_set_up {ts : List Task} {k : Nat} {t' : Task} {i n : Nat} (h : Pends (ts.set k t') i n) :
    Pends ts i n ∨ t'.Pending i n := by
  obtain ⟨x, hx, hp⟩ := h
  rcases List.mem_or_eq_of_mem_set hx with h | h
  · exact Or.inl ⟨x, h, hp⟩
  · subst h; exact Or.inr hp

theorem pends_of {ts : List Task} {k : Nat} {t : Task} (hk : ts[k]? = some t) {i n : Nat} (h : t.Pending i n) :
    Pends ts i n := ⟨t, List.mem_of_getElem? hk, h⟩

/-- The invariant of a state after the operations `ops`. -/
def Holds (depth : Nat) (ops : List Op) (s : St) : Prop :=
  Good depth s.nodes s.alive (fun i => Op.certify i ∈ ops) (Pends s.tasks)

theorem good_set {depth : Nat} {nodes : Nat → Node} {alive : Nat → Bool} {C C' : Nat → Prop} {P : Nat → Nat → Prop}
    (g : Good depth nodes alive C P) (h : ∀ q, C q ↔ C' q) : Good depth nodes alive C' P := by
  have : C = C' := funext fun q => propext (h q)
  subst this; exact g

theorem certify_mem {ops : List Op} {o : Op} (h : ∀ i, o ≠ .certify i) (q : Nat) :
    Op.certify q ∈ ops ↔ Op.certify q ∈ ops ++ [o] := by
  constructor
  · intro hq; simp [hq]
  · intro hq
    rcases List.mem_append.mp hq with hq | hq
    · exact hq
    · simp at hq; exact absurd hq.symm (h q)

/-- A step of a traversal that raises a cert. -/
theorem good_task_raise {depth : Nat} {s : St} {C : Nat → Prop} (g : Good depth s.nodes s.alive C (Pends s.tasks))
    {k : Nat} {t : Task} (hk : s.tasks[k]? = some t) (i h : Nat) (t' : Task) (hp : t.Pending i h) (h1 : 1 ≤ h)
    (hdown : ∀ r n, t.Pending r n → 1 ≤ n → t'.Pending r n ∨ (r = i ∧ n ≤ h))
    (hnew : ∀ d, ((s.nodes i).deeper h false).2 = some d →
      (∀ r ∈ d.includes, s.alive r = true → t'.Pending r (h - 1)) ∧
      (∀ r ∈ d.witness, s.alive r = true → t'.Pending r (h - 2)))
    (hup : ∀ r n, t'.Pending r n → 1 ≤ n → t.Pending r n ∨ ∃ d, ((s.nodes i).deeper h false).2 = some d ∧
      ((r ∈ d.includes ∧ n = h - 1) ∨ (r ∈ d.witness ∧ n = h - 2))) :
    Good depth (s.edit i ((s.nodes i).deeper h false).1).nodes s.alive C (Pends (s.tasks.set k t')) := by
  refine good_raise g i h false h1 (fun _ h => h) (g.pend i h (pends_of hk hp) h1) (by simp) (by simp) ?_ ?_ ?_
  · intro r n hP hn
    rcases pends_set_down (t' := t') hk hP with h | h
    · exact Or.inl h
    · rcases hdown r n h hn with h | h
      · exact Or.inl (pends_set_new hk h)
      · exact Or.inr h
  · intro d hd
    obtain ⟨a, b⟩ := hnew d hd
    exact ⟨fun r hr ha => pends_set_new hk (a r hr ha), fun r hr ha => pends_set_new hk (b r hr ha)⟩
  · intro r n hP hn
    rcases pends_set_up hP with h | h
    · exact Or.inl h
    · rcases hup r n h hn with h | h
      · exact Or.inl (pends_of hk h)
      · exact Or.inr h

theorem good_task_work {depth : Nat} {s : St} {C : Nat → Prop} (g : Good depth s.nodes s.alive C (Pends s.tasks))
    {k : Nat} {t : Task} (hk : s.tasks[k]? = some t) (t' : Task)
    (hdown : ∀ r n, t.Pending r n → 1 ≤ n → s.alive r = true → t'.Pending r n)
    (hup : ∀ r n, t'.Pending r n → 1 ≤ n → t.Pending r n) :
    Good depth s.nodes s.alive C (Pends (s.tasks.set k t')) := by
  refine good_work g ?_ ?_
  · intro r n hP hn ha
    rcases pends_set_down (t' := t') hk hP with h | h
    · exact h
    · exact pends_set_new hk (hdown r n h hn ha)
  · intro r n hP hn
    rcases pends_set_up hP with h | h
    · exact h
    · exact pends_of hk (hup r n h hn)

theorem mem_erase_pick {cur : List Nat} {pick i r : Nat} (hi : cur[pick]? = some i) (hr : r ∈ cur) :
    r ∈ cur.eraseIdx pick ∨ r = i := by
  obtain ⟨j, hj⟩ := List.mem_iff_getElem?.mp hr
  by_cases hjp : j = pick
  · subst hjp; rw [hi] at hj; cases hj; exact Or.inr rfl
  · left
    apply List.mem_iff_getElem?.mpr
    rw [List.getElem?_eq_some_iff] at hj
    obtain ⟨hlt, hj⟩ := hj
    rcases Nat.lt_or_gt_of_ne hjp with h | h
    · exact ⟨j, by rw [List.getElem?_eraseIdx_of_lt h]; simp [hlt, hj]⟩
    · refine ⟨j - 1, ?_⟩
      rw [List.getElem?_eraseIdx_of_ge (by omega)]
      rw [show j - 1 + 1 = j by omega]
      simp [hlt, hj]

theorem good_stepTask {depth : Nat} {s : St} {C : Nat → Prop} (g : Good depth s.nodes s.alive C (Pends s.tasks))
    {k : Nat} {t : Task} (hk : s.tasks[k]? = some t) (pick : Nat) :
    Good depth (s.stepTask t pick).1.nodes s.alive C (Pends (s.tasks.set k (s.stepTask t pick).2)) := by
  match t with
  | .direct h (i :: incs) wit cur incl =>
    unfold St.stepTask
    simp only
    by_cases ha : s.alive i = true
    · rw [if_pos ha]
      by_cases h1 : 1 ≤ h
      · cases hres : ((s.nodes i).deeper h false).2 with
        | some d =>
          have heq : (s.nodes i).deeper h false = (((s.nodes i).deeper h false).1, some d) := by rw [← hres]
          rw [heq]
          refine good_task_raise g hk i h _ (Or.inl ⟨by simp, rfl⟩) h1 ?_ ?_ ?_
          · intro r n hp hn
            simp only [Task.Pending, mem_extend, List.mem_cons] at hp ⊢
            rcases hp with ⟨rfl | hp, rfl⟩ | hp | ⟨hp, rfl⟩ | ⟨hp, rfl⟩
            · exact Or.inr ⟨rfl, Nat.le_refl _⟩
            · exact Or.inl (Or.inl ⟨hp, rfl⟩)
            · exact Or.inl (Or.inr (Or.inl hp))
            · exact Or.inl (Or.inr (Or.inr (Or.inl ⟨Or.inl hp, rfl⟩)))
            · exact Or.inl (Or.inr (Or.inr (Or.inr ⟨Or.inl hp, rfl⟩)))
          · intro d' hd'
            rw [hres] at hd'; cases hd'
            simp only [Task.Pending, mem_extend]
            exact ⟨fun r hr ha => Or.inr (Or.inr (Or.inl ⟨Or.inr ⟨hr, ha⟩, trivial⟩)),
              fun r hr ha => Or.inr (Or.inr (Or.inr ⟨Or.inr ⟨hr, ha⟩, trivial⟩))⟩
          · intro r n hp hn
            simp only [Task.Pending, mem_extend, List.mem_cons] at hp ⊢
            rcases hp with ⟨hp, rfl⟩ | hp | ⟨hp | hp, rfl⟩ | ⟨hp | hp, rfl⟩
            · exact Or.inl (Or.inl ⟨Or.inr hp, rfl⟩)
            · exact Or.inl (Or.inr (Or.inl hp))
            · exact Or.inl (Or.inr (Or.inr (Or.inl ⟨hp, rfl⟩)))
            · exact Or.inr ⟨d, hres, Or.inl ⟨hp.1, rfl⟩⟩
            · exact Or.inl (Or.inr (Or.inr (Or.inr ⟨hp, rfl⟩)))
            · exact Or.inr ⟨d, hres, Or.inr ⟨hp.1, rfl⟩⟩
        | none =>
          have heq : (s.nodes i).deeper h false = (((s.nodes i).deeper h false).1, none) := by rw [← hres]
          rw [heq]
          refine good_task_raise g hk i h _ (Or.inl ⟨by simp, rfl⟩) h1 ?_ ?_ ?_
          · intro r n hp hn
            simp only [Task.Pending, List.mem_cons] at hp ⊢
            rcases hp with ⟨rfl | hp, rfl⟩ | hp
            · exact Or.inr ⟨rfl, Nat.le_refl _⟩
            · exact Or.inl (Or.inl ⟨hp, rfl⟩)
            · exact Or.inl (Or.inr hp)
          · intro d' hd'; rw [hres] at hd'; cases hd'
          · intro r n hp hn
            simp only [Task.Pending, List.mem_cons] at hp ⊢
            rcases hp with ⟨hp, rfl⟩ | hp
            · exact Or.inl (Or.inl ⟨Or.inr hp, rfl⟩)
            · exact Or.inl (Or.inr hp)
      · have hz : h = 0 := by omega
        subst hz
        have hres : (s.nodes i).deeper 0 false = (s.nodes i, none) := by
          rcases deeper_cases (s.nodes i) 0 false with ⟨_, he⟩ | ⟨hl, _⟩
          · exact he
          · omega
        rw [hres]
        simp only
        have hed : (s.edit i (s.nodes i)).nodes = s.nodes := by
          funext j; simp only [St.edit]; split
          · rename_i he; subst he; rfl
          · rfl
        rw [hed]
        refine good_task_work g hk _ ?_ ?_
        · intro r n hp hn
          simp only [Task.Pending] at hp
          rcases hp with ⟨_, rfl⟩ | ⟨_, rfl⟩ | ⟨_, rfl⟩ | ⟨_, rfl⟩ <;> omega
        · intro r n hp hn
          simp only [Task.Pending] at hp
          rcases hp with ⟨_, rfl⟩ | ⟨_, rfl⟩ | ⟨_, rfl⟩ | ⟨_, rfl⟩ <;> omega
    · rw [if_neg ha]
      refine good_task_work g hk _ ?_ ?_
      · intro r n hp hn har
        simp only [Task.Pending, List.mem_cons] at hp ⊢
        rcases hp with ⟨rfl | hp, rfl⟩ | hp
        · exact absurd har ha
        · exact Or.inl ⟨hp, rfl⟩
        · exact Or.inr hp
      · intro r n hp hn
        simp only [Task.Pending, List.mem_cons] at hp ⊢
        rcases hp with ⟨hp, rfl⟩ | hp
        · exact Or.inl ⟨Or.inr hp, rfl⟩
        · exact Or.inr hp
  | .direct h [] wit cur incl =>
    unfold St.stepTask
    simp only
    refine good_task_work g hk _ ?_ ?_
    · intro r n hp hn har
      simp only [Task.Pending, mem_extend, List.not_mem_nil, false_and, false_or] at hp ⊢
      rcases hp with ⟨hp, rfl⟩ | ⟨hp, rfl⟩ | ⟨hp, rfl⟩
      · exact Or.inl ⟨Or.inr ⟨hp, har⟩, rfl⟩
      · exact Or.inl ⟨Or.inl hp, rfl⟩
      · exact Or.inr (Or.inl ⟨hp, by omega⟩)
    · intro r n hp hn
      simp only [Task.Pending, mem_extend, List.not_mem_nil, false_and, false_or, or_false] at hp ⊢
      rcases hp with ⟨hp | hp, rfl⟩ | ⟨hp, rfl⟩
      · exact Or.inr (Or.inl ⟨hp, rfl⟩)
      · exact Or.inl ⟨hp.1, rfl⟩
      · exact Or.inr (Or.inr ⟨hp, by omega⟩)
  | .loop h cur incl wit =>
    unfold St.stepTask
    simp only
    by_cases hend : h = 0 ∨ (cur = [] ∧ incl = [] ∧ wit = [])
    · rw [if_pos hend]
      refine good_task_work g hk _ ?_ ?_
      · intro r n hp hn har
        simp only [Task.Pending] at hp ⊢
        rcases hend with rfl | ⟨rfl, rfl, rfl⟩
        · rcases hp with ⟨_, rfl⟩ | ⟨_, rfl⟩ | ⟨_, rfl⟩ <;> omega
        · simp at hp
      · intro r n hp hn; exact hp.elim
    · rw [if_neg hend]
      cases hc : cur[pick]? with
      | some i =>
        have him : i ∈ cur := List.mem_of_getElem? hc
        simp only
        cases hres : ((s.nodes i).deeper h false).2 with
        | some d =>
          have heq : (s.nodes i).deeper h false = (((s.nodes i).deeper h false).1, some d) := by rw [← hres]
          rw [heq]
          refine good_task_raise g hk i h _ (Or.inl ⟨him, rfl⟩) (by omega) ?_ ?_ ?_
          · intro r n hp hn
            simp only [Task.Pending, mem_extend] at hp ⊢
            rcases hp with ⟨hp, rfl⟩ | ⟨hp, rfl⟩ | ⟨hp, rfl⟩
            · rcases mem_erase_pick hc hp with h2 | h2
              · exact Or.inl (Or.inl ⟨h2, rfl⟩)
              · exact Or.inr ⟨h2, Nat.le_refl _⟩
            · exact Or.inl (Or.inr (Or.inl ⟨Or.inl hp, rfl⟩))
            · exact Or.inl (Or.inr (Or.inr ⟨Or.inl hp, rfl⟩))
          · intro d' hd'
            rw [hres] at hd'; cases hd'
            simp only [Task.Pending, mem_extend]
            exact ⟨fun r hr ha => Or.inr (Or.inl ⟨Or.inr ⟨hr, ha⟩, trivial⟩),
              fun r hr ha => Or.inr (Or.inr ⟨Or.inr ⟨hr, ha⟩, trivial⟩)⟩
          · intro r n hp hn
            simp only [Task.Pending, mem_extend] at hp ⊢
            rcases hp with ⟨hp, rfl⟩ | ⟨hp | hp, rfl⟩ | ⟨hp | hp, rfl⟩
            · exact Or.inl (Or.inl ⟨List.mem_of_mem_eraseIdx hp, rfl⟩)
            · exact Or.inl (Or.inr (Or.inl ⟨hp, rfl⟩))
            · exact Or.inr ⟨d, hres, Or.inl ⟨hp.1, rfl⟩⟩
            · exact Or.inl (Or.inr (Or.inr ⟨hp, rfl⟩))
            · exact Or.inr ⟨d, hres, Or.inr ⟨hp.1, rfl⟩⟩
        | none =>
          have heq : (s.nodes i).deeper h false = (((s.nodes i).deeper h false).1, none) := by rw [← hres]
          rw [heq]
          refine good_task_raise g hk i h _ (Or.inl ⟨him, rfl⟩) (by omega) ?_ ?_ ?_
          · intro r n hp hn
            simp only [Task.Pending] at hp ⊢
            rcases hp with ⟨hp, rfl⟩ | hp
            · rcases mem_erase_pick hc hp with h2 | h2
              · exact Or.inl (Or.inl ⟨h2, rfl⟩)
              · exact Or.inr ⟨h2, Nat.le_refl _⟩
            · exact Or.inl (Or.inr hp)
          · intro d' hd'; rw [hres] at hd'; cases hd'
          · intro r n hp hn
            simp only [Task.Pending] at hp ⊢
            rcases hp with ⟨hp, rfl⟩ | hp
            · exact Or.inl (Or.inl ⟨List.mem_of_mem_eraseIdx hp, rfl⟩)
            · exact Or.inl (Or.inr hp)
      | none =>
        simp only
        by_cases hcur : cur = []
        · rw [if_pos hcur]
          subst hcur
          refine good_task_work g hk _ ?_ ?_
          · intro r n hp hn har
            simp only [Task.Pending, List.not_mem_nil, false_and, false_or] at hp ⊢
            rcases hp with ⟨hp, rfl⟩ | ⟨hp, rfl⟩
            · exact Or.inl ⟨hp, rfl⟩
            · exact Or.inr (Or.inl ⟨hp, by omega⟩)
          · intro r n hp hn
            simp only [Task.Pending, List.not_mem_nil, false_and, or_false] at hp ⊢
            rcases hp with ⟨hp, rfl⟩ | ⟨hp, rfl⟩
            · exact Or.inr (Or.inl ⟨hp, rfl⟩)
            · exact Or.inr (Or.inr ⟨hp, by omega⟩)
        · rw [if_neg hcur]
          exact good_task_work g hk _ (fun _ _ hp _ _ => hp) (fun _ _ hp _ => hp)
  | .done =>
    unfold St.stepTask
    exact good_task_work g hk _ (fun _ _ hp _ _ => hp) (fun _ _ hp _ => hp)

theorem spawn_nodes (s : St) (h : Nat) (d : Deps) : (s.spawn h d).nodes = s.nodes ∧ (s.spawn h d).alive = s.alive := by
  unfold St.spawn; split <;> exact ⟨rfl, rfl⟩

theorem pends_spawn (s : St) (h : Nat) (d : Deps) (i n : Nat) (hn : 1 ≤ n) :
    Pends (s.spawn h d).tasks i n ↔ Pends s.tasks i n ∨ (i ∈ d.includes ∧ n = h) ∨ (i ∈ d.witness ∧ n = h - 1) := by
  unfold St.spawn
  split
  · rename_i hz
    subst hz
    constructor
    · exact Or.inl
    · rintro (hh | ⟨_, rfl⟩ | ⟨_, rfl⟩)
      · exact hh
      · omega
      · omega
  · simp only [pends_append, Task.Pending, List.not_mem_nil, false_and, or_false]

theorem holds_certify {depth : Nat} {ops : List Op} {s : St} (g : Holds depth ops s) (i : Nat) :
    Holds depth (ops ++ [.certify i]) (s.certify depth i) := by
  have hC : ∀ q, Op.certify q ∈ ops ++ [Op.certify i] ↔ Op.certify q ∈ ops ∨ (q = i ∧ true = true) := by
    intro q; simp
  have hj : ∃ p c, Op.certify p ∈ ops ++ [Op.certify i] ∧ Leads (fun j => (s.nodes j).known) p i c ∧
      depth + 1 + c = depth + 1 := ⟨i, 0, by simp, .here, rfl⟩
  unfold Holds St.certify at *
  cases hres : ((s.nodes i).deeper (depth + 1) true).2 with
  | some d =>
    have heq : (s.nodes i).deeper (depth + 1) true = (((s.nodes i).deeper (depth + 1) true).1, some d) := by rw [← hres]
    rw [heq]
    simp only
    rw [(spawn_nodes _ _ _).1, (spawn_nodes _ _ _).2]
    refine good_raise g i (depth + 1) true (by omega) (by intro q hq; simp [hq]) hj hC (by simp) ?_ ?_ ?_
    · intro r n hP hn
      exact Or.inl ((pends_spawn _ _ _ _ _ hn).mpr (Or.inl hP))
    · intro d' hd'
      rw [hres] at hd'; cases hd'
      rcases deeper_cases (s.nodes i) (depth + 1) true with ⟨_, he⟩ | ⟨_, _, ⟨_, he⟩ | ⟨_, h2, he⟩⟩
      · rw [he] at hres; cases hres
      · rw [he] at hres; cases hres
      · refine ⟨fun r hr ha => (pends_spawn _ _ _ _ _ (by omega)).mpr (Or.inr (Or.inl ⟨hr, by omega⟩)), ?_⟩
        intro r hr ha
        rw [he] at hres
        cases hres
        unfold Deps.refs at hr
        simp only at hr
        by_cases h3 : depth + 1 > 2
        · exact (pends_spawn _ _ _ _ _ (by omega)).mpr (Or.inr (Or.inr ⟨by unfold Deps.refs; exact hr, by omega⟩))
        · rw [if_neg h3] at hr; simp at hr
    · intro r n hP hn
      rcases (pends_spawn _ _ _ _ _ hn).mp hP with h | h | h
      · exact Or.inl h
      · exact Or.inr ⟨d, hres, Or.inl ⟨h.1, by omega⟩⟩
      · exact Or.inr ⟨d, hres, Or.inr ⟨h.1, by omega⟩⟩
  | none =>
    have heq : (s.nodes i).deeper (depth + 1) true = (((s.nodes i).deeper (depth + 1) true).1, none) := by rw [← hres]
    rw [heq]
    simp only
    refine good_raise g i (depth + 1) true (by omega) (by intro q hq; simp [hq]) hj hC (by simp) ?_ ?_ ?_
    · intro r n hP hn; exact Or.inl hP
    · intro d' hd'; rw [hres] at hd'; cases hd'
    · intro r n hP hn; exact Or.inl hP

/-- Changing only flags that do not matter. -/
theorem good_flags {depth : Nat} {nodes nodes' : Nat → Node} {alive : Nat → Bool} {C : Nat → Prop} {P : Nat → Nat → Prop}
    (g : Good depth nodes alive C P) (hh : ∀ q, (nodes' q).word.height = (nodes q).word.height)
    (ht : ∀ q, (nodes' q).word.top = (nodes q).word.top) (hk : ∀ q, (nodes' q).known = (nodes q).known)
    (ho : ∀ q, (nodes' q).word.completed = true → (nodes' q).word.started = true) :
    Good depth nodes' alive C P := by
  have hkf : (fun j => (nodes' j).known) = fun j => (nodes j).known := funext hk
  refine ⟨?_, ?_, ?_, ?_, ?_, ?_, ho⟩
  · intro q hq; rw [hkf]; rw [hh] at hq ⊢; exact g.low q hq
  · intro q h hq h1; rw [hkf]; exact g.pend q h hq h1
  · intro q d r h1 h2 h3 h4; rw [hk] at h1; rw [hh] at h4 ⊢; rw [hh]; exact g.incl q d r h1 h2 h3 h4
  · intro q d r h1 h2 h3 h4; rw [hk] at h1; rw [hh] at h4 ⊢; rw [hh]; exact g.wit q d r h1 h2 h3 h4
  · intro q; rw [ht]; exact g.top q
  · intro q hq; rw [hh]; exact g.full q hq

theorem holds_setFinish {depth : Nat} {s : St} {C : Nat → Prop} (g : Good depth s.nodes s.alive C (Pends s.tasks))
    (i : Nat) (d : Deps) :
    Good depth (s.setFinish i d).nodes (s.setFinish i d).alive C (Pends (s.setFinish i d).tasks) := by
  unfold St.setFinish
  simp only
  by_cases hc : ((s.nodes i).word.started && !(s.nodes i).word.completed) = true
  swap
  · rw [if_neg hc]; exact g
  rw [if_pos hc]
  simp only [Bool.and_eq_true, Bool.not_eq_true'] at hc
  have hki : (s.nodes i).known = none := by simp [Node.known, hc.2]
  -- the new nodes
  let nodes' : Nat → Node := fun j => if j = i then ⟨{ (s.nodes i).word with completed := true }, d⟩ else s.nodes j
  have hh : ∀ q, (nodes' q).word.height = (s.nodes q).word.height := by
    intro q; simp only [nodes']; split
    · rename_i he; subst he; rfl
    · rfl
  have ht : ∀ q, (nodes' q).word.top = (s.nodes q).word.top := by
    intro q; simp only [nodes']; split
    · rename_i he; subst he; rfl
    · rfl
  have hkn : ∀ q e, (s.nodes q).known = some e → (nodes' q).known = some e := by
    intro q e he
    simp only [nodes']
    split
    · rename_i hq; subst hq; rw [hki] at he; cases he
    · exact he
  have hki' : (nodes' i).known = some d := by simp [nodes', Node.known]
  have hkne : ∀ q, q ≠ i → (nodes' q).known = (s.nodes q).known := by
    intro q hq; simp [nodes', hq]
  have hpath : ∀ p q c, Leads (fun j => (s.nodes j).known) p q c → Leads (fun j => (nodes' j).known) p q c :=
    fun p q c h => path_mono hkn (fun _ h => h) h
  have key : ∀ P' : Nat → Nat → Prop, (∀ r n, Pends s.tasks r n → 1 ≤ n → P' r n) →
      (∀ r n, P' r n → 1 ≤ n → Pends s.tasks r n ∨ (r ∈ d.includes ∧ n + 1 = (s.nodes i).word.height) ∨
        (r ∈ d.witness ∧ n + 2 = (s.nodes i).word.height)) →
      (2 ≤ (s.nodes i).word.height → ∀ r ∈ d.includes, P' r ((s.nodes i).word.height - 1)) →
      (3 ≤ (s.nodes i).word.height → ∀ r ∈ d.witness, P' r ((s.nodes i).word.height - 2)) →
      Good depth nodes' s.alive C P' := by
    intro P' h1 h2 h3 h4
    refine ⟨?_, ?_, ?_, ?_, ?_, ?_, ?_⟩
    · intro q hq
      rw [hh] at hq ⊢
      obtain ⟨p, c, hp, hl, he⟩ := g.low q hq
      exact ⟨p, c, hp, hpath _ _ _ hl, he⟩
    · intro q n hq hn
      rcases h2 q n hq hn with h | ⟨hm, he⟩ | ⟨hm, he⟩
      · obtain ⟨p, c, hp, hl, he⟩ := g.pend q n h hn
        exact ⟨p, c, hp, hpath _ _ _ hl, he⟩
      · obtain ⟨p, c, hp, hl, he2⟩ := g.low i (by omega)
        exact ⟨p, c + 1, hp, .inc (hpath _ _ _ hl) hki' hm trivial, by omega⟩
      · obtain ⟨p, c, hp, hl, he2⟩ := g.low i (by omega)
        exact ⟨p, c + 2, hp, .wit (hpath _ _ _ hl) hki' hm trivial, by omega⟩
    · intro q e r hk hr hm hq
      rw [hh] at hq ⊢; rw [hh]
      by_cases hqi : q = i
      · subst hqi
        rw [hki'] at hk; cases hk
        exact Or.inr ⟨_, Nat.le_refl _, h3 hq r hm⟩
      · rw [hkne q hqi] at hk
        rcases g.incl q e r hk hr hm hq with h | ⟨n, hn, hP⟩
        · exact Or.inl h
        · exact Or.inr ⟨n, hn, h1 r n hP (by omega)⟩
    · intro q e r hk hr hm hq
      rw [hh] at hq ⊢; rw [hh]
      by_cases hqi : q = i
      · subst hqi
        rw [hki'] at hk; cases hk
        exact Or.inr ⟨_, Nat.le_refl _, h4 hq r hm⟩
      · rw [hkne q hqi] at hk
        rcases g.wit q e r hk hr hm hq with h | ⟨n, hn, hP⟩
        · exact Or.inl h
        · exact Or.inr ⟨n, hn, h1 r n hP (by omega)⟩
    · intro q; rw [ht]; exact g.top q
    · intro q hq; rw [hh]; exact g.full q hq
    · intro q hq
      by_cases hqi : q = i
      · subst hqi; simp only [nodes', if_true]; exact hc.1
      · simp only [nodes', if_neg hqi] at hq ⊢; exact g.order q hq
  by_cases hgt : (s.nodes i).word.height > 1
  · rw [if_pos hgt]
    rw [(spawn_nodes _ _ _).1, (spawn_nodes _ _ _).2]
    apply key
    · intro r n hP hn
      exact (pends_spawn _ _ _ _ _ hn).mpr (Or.inl hP)
    · intro r n hP hn
      rcases (pends_spawn _ _ _ _ _ hn).mp hP with h | ⟨h, he⟩ | ⟨h, he⟩
      · exact Or.inl h
      · exact Or.inr (Or.inl ⟨h, by omega⟩)
      · refine Or.inr (Or.inr ⟨?_, by omega⟩)
        unfold Deps.refs at h
        simp only at h
        split at h
        · exact h
        · simp at h
    · intro _ r hr
      exact (pends_spawn _ _ _ _ _ (by omega)).mpr (Or.inr (Or.inl ⟨hr, rfl⟩))
    · intro h3 r hr
      refine (pends_spawn _ _ _ _ _ (by omega)).mpr (Or.inr (Or.inr ⟨?_, by omega⟩))
      unfold Deps.refs
      simp only
      rw [if_pos (by omega)]; exact hr
  · rw [if_neg hgt]
    apply key
    · intro r n hP hn; exact hP
    · intro r n hP hn; exact Or.inl hP
    · intro h; omega
    · intro h; omega

theorem holds_step {depth : Nat} {ops : List Op} {s : St} (g : Holds depth ops s) (o : Op) :
    Holds depth (ops ++ [o]) (step depth s o) := by
  cases o with
  | certify i => exact holds_certify g i
  | setStart i =>
    refine good_set ?_ (certify_mem (by intro j h; cases h))
    unfold Holds at g
    refine good_flags g ?_ ?_ ?_ ?_ <;> intro q <;> simp only [step, St.setStart, St.edit] <;> split
    all_goals first | (rename_i he; subst he; rfl) | rfl | skip
    · intro _; rfl
    · exact g.order q
  | setFinish i d =>
    exact good_set (holds_setFinish g i d) (certify_mem (by intro j h; cases h))
  | commit i =>
    refine good_set ?_ (certify_mem (by intro j h; cases h))
    unfold Holds at g
    refine good_flags g ?_ ?_ ?_ ?_ <;> intro q <;> simp only [step, St.commit, St.edit] <;> split
    all_goals first | (rename_i he; subst he; rfl) | rfl | skip
    · rename_i he; subst he; exact g.order q
    · exact g.order q
  | drop i =>
    refine good_set ?_ (certify_mem (by intro j h; cases h))
    unfold Holds at g
    simp only [step, St.drop]
    split
    · exact g
    · refine ⟨g.low, g.pend, ?_, ?_, g.top, g.full, g.order⟩
      · intro q d r h1 h2 h3 h4
        refine g.incl q d r h1 ?_ h3 h4
        simp only at h2
        split at h2
        · cases h2
        · exact h2
      · intro q d r h1 h2 h3 h4
        refine g.wit q d r h1 ?_ h3 h4
        simp only at h2
        split at h2
        · cases h2
        · exact h2
  | task k pick =>
    refine good_set ?_ (certify_mem (by intro j h; cases h))
    unfold Holds at g
    simp only [step]
    cases hk : s.tasks[k]? with
    | none => exact g
    | some t =>
      have hal : (s.stepTask t pick).1.alive = s.alive := by
        unfold St.stepTask
        split
        · split
          · split <;> rfl
          · rfl
        · rfl
        · split
          · rfl
          · split
            · split <;> rfl
            · split <;> rfl
        · rfl
      simp only [hal]
      exact good_stepTask g hk pick

theorem run_snoc (depth : Nat) (ops : List Op) (o : Op) : run depth (ops ++ [o]) = step depth (run depth ops) o := by
  simp [run]

theorem holds_run (depth : Nat) (ops : List Op) : Holds depth ops (run depth ops) := by
  induction ops using List.reverseRecOn with
  | nil =>
    refine good_set (good_init depth) ?_
    intro q; simp
  | append_singleton ops o ih => rw [run_snoc]; exact holds_step ih o

end Tycho.Cert
