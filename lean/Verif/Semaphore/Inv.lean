import Verif.Semaphore.Model
import Mathlib.Data.List.Nodup

/-! Invariants of the semaphore. -/
namespace Tycho.Semaphore

/-- What is true of a future, given whether it is in a wait list and whether the semaphore is closed. -/
structure FOk (inq : Prop) (closed : Bool) (f : Fut) : Prop where
  pos : 0 < f.num
  le : f.state ≤ f.num
  nq : f.queued = false → f.pc ≠ .gone → f.state = f.num ∧ (∀ n, f.pc = .polling n → n = f.num) ∧ ∀ a, f.pc ≠ .taken a
  wait : inq → f.queued = true ∧ 0 < f.state ∧ (f.pc = .idle ∨ ∃ n, f.pc = .polling n ∧ f.state ≤ n)
  out : f.queued = true → f.pc ≠ .gone → ¬ inq → f.woken = true ∧ (closed = true ∨ f.state = 0)
  fail : f.pc = .failed → closed = true
  tk : ∀ a, f.pc = .taken a → f.queued = true ∧ ¬ inq ∧ f.state = 0

structure Inv (s : Sys) : Prop where
  ids : (s.futs.map Fut.id).Nodup
  qn : ∀ p, (s.q p).Nodup
  qf : ∀ p, ∀ id ∈ s.q p, ∃ f ∈ s.futs, f.id = id ∧ f.prio = p
  ok : ∀ f ∈ s.futs, FOk (f.id ∈ s.q f.prio) s.closed f
  perm : ∀ p, s.q p ≠ [] → s.permits = 0
  clq : s.closed = true → ∀ p, s.q p = []

/-- The wait lists serve in the order of joining. -/
def Fifo (s : Sys) : Prop := ∀ p, (s.served p ++ s.q p).Sublist (s.joined p)

theorem setq_same {α} (q : Bool → α) (p : Bool) (x : α) : setq q p x p = x := by simp [setq]
theorem setq_ne {α} (q : Bool → α) {p b : Bool} (x : α) (h : b ≠ p) : setq q p x b = q b := by simp [setq, h]

theorem mem_setFut {fs : List Fut} {f x : Fut} : x ∈ setFut fs f ↔
    (x = f ∧ ∃ y ∈ fs, y.id = f.id) ∨ (x ∈ fs ∧ x.id ≠ f.id) := by
  unfold setFut
  rw [List.mem_map]
  constructor
  · rintro ⟨y, hy, rfl⟩
    split
    · rename_i h; exact Or.inl ⟨rfl, y, hy, h⟩
    · rename_i h; exact Or.inr ⟨hy, h⟩
  · rintro (⟨rfl, y, hy, h⟩ | ⟨hx, h⟩)
    · exact ⟨y, hy, if_pos h⟩
    · exact ⟨x, hx, if_neg h⟩

theorem setFut_ids {fs : List Fut} {f : Fut} : (setFut fs f).map Fut.id = fs.map Fut.id := by
  unfold setFut
  rw [List.map_map]
  apply List.map_congr_left
  intro x _
  simp only [Function.comp]
  split
  · rename_i h; exact h.symm
  · rfl

theorem getFut_some {fs : List Fut} {id f} (h : getFut fs id = some f) : f ∈ fs ∧ f.id = id := by
  unfold getFut at h
  exact ⟨List.mem_of_find?_eq_some h, by simpa using List.find?_some h⟩

theorem getFut_of_mem {fs : List Fut} (hn : (fs.map Fut.id).Nodup) {f} (h : f ∈ fs) : getFut fs f.id = some f := by
  unfold getFut
  cases hf : fs.find? fun x => decide (x.id = f.id) with
  | none =>
    rw [List.find?_eq_none] at hf
    exact absurd (hf f h) (by simp)
  | some g =>
    have h1 := List.mem_of_find?_eq_some hf
    have h2 := List.find?_some hf
    simp at h2
    rw [List.inj_on_of_nodup_map hn h1 h h2]

/-- One future changes, and at most its own place in the wait list. -/
theorem inv_upd {s s' : Sys} (I : Inv s) {f f' : Fut} (hf : f ∈ s.futs) (hid : f'.id = f.id) (hpr : f'.prio = f.prio)
    (hfu : s'.futs = setFut s.futs f') (hcl : s'.closed = s.closed)
    (hq : ∀ p id, id ≠ f.id ∨ p ≠ f.prio → (id ∈ s'.q p ↔ id ∈ s.q p))
    (hn : ∀ p, (s'.q p).Nodup) (hok : FOk (f'.id ∈ s'.q f'.prio) s.closed f')
    (hperm : ∀ p, s'.q p ≠ [] → s'.permits = 0) (hclq : s.closed = true → ∀ p, s'.q p = []) : Inv s' := by
  refine ⟨?_, hn, ?_, ?_, hperm, ?_⟩
  · rw [hfu, setFut_ids]; exact I.ids
  · intro p id hm
    by_cases h : id ≠ f.id ∨ p ≠ f.prio
    · obtain ⟨g, hg, h1, h2⟩ := I.qf p id ((hq p id h).1 hm)
      by_cases hgf : g.id = f.id
      · refine ⟨f', ?_, ?_, ?_⟩
        · rw [hfu]; exact mem_setFut.2 (Or.inl ⟨rfl, f, hf, hid.symm⟩)
        · rw [hid, ← hgf, h1]
        · rw [hpr, ← List.inj_on_of_nodup_map I.ids hg hf hgf]; exact h2
      · exact ⟨g, by rw [hfu]; exact mem_setFut.2 (Or.inr ⟨hg, by rw [hid]; exact hgf⟩), h1, h2⟩
    · have h1 : id = f.id := Decidable.byContradiction fun hc => h (Or.inl hc)
      have h2 : p = f.prio := Decidable.byContradiction fun hc => h (Or.inr hc)
      exact ⟨f', by rw [hfu]; exact mem_setFut.2 (Or.inl ⟨rfl, f, hf, hid.symm⟩), by rw [hid, h1], by rw [hpr, h2]⟩
  · intro g hg
    rw [hfu] at hg
    rw [hcl]
    rcases mem_setFut.1 hg with ⟨rfl, -⟩ | ⟨hg, hne⟩
    · exact hok
    · have hm := hq g.prio g.id (Or.inl (by rw [← hid]; exact hne))
      have := I.ok g hg
      rw [← propext hm] at this
      exact this
  · intro h; rw [hcl] at h; exact hclq h

/-- Only the future and counters change. -/
theorem inv_fut {s s' : Sys} (I : Inv s) {f f' : Fut} (hf : f ∈ s.futs) (hid : f'.id = f.id) (hpr : f'.prio = f.prio)
    (hfu : s'.futs = setFut s.futs f') (hcl : s'.closed = s.closed) (hq : s'.q = s.q) (hp : s'.permits ≤ s.permits)
    (hok : FOk (f.id ∈ s.q f.prio) s.closed f') : Inv s' := by
  apply inv_upd I hf hid hpr hfu hcl
  · intro p id _; rw [hq]
  · rw [hq]; exact I.qn
  · rw [hq, hid, hpr]; exact hok
  · intro p h; rw [hq] at h; have := I.perm p h; omega
  · rw [hq]; exact I.clq

theorem inv_counters {s s' : Sys} (I : Inv s) (hfu : s'.futs = s.futs) (hcl : s'.closed = s.closed) (hq : s'.q = s.q)
    (hp : s'.permits ≤ s.permits) : Inv s' := by
  refine ⟨by rw [hfu]; exact I.ids, by rw [hq]; exact I.qn, by rw [hq, hfu]; exact I.qf, by rw [hfu, hcl, hq]; exact I.ok, ?_, ?_⟩
  · intro p h; rw [hq] at h; have := I.perm p h; omega
  · intro h; rw [hcl] at h; rw [hq]; exact I.clq h

/-! ### Giving permits to waiters -/

/-- The head of a wait list. -/
theorem head_fut {s : Sys} (I : Inv s) {p id rest} (h : s.q p = id :: rest) :
    ∃ f, getFut s.futs id = some f ∧ f ∈ s.futs ∧ f.id = id ∧ f.prio = p ∧ id ∉ rest ∧ rest.Nodup ∧
      FOk (f.id ∈ s.q f.prio) s.closed f ∧ 0 < f.state := by
  obtain ⟨f, hf, h1, h2⟩ := I.qf p id (by rw [h]; simp)
  have hn := I.qn p
  rw [h, List.nodup_cons] at hn
  have hok := I.ok f hf
  refine ⟨f, by rw [← h1]; exact getFut_of_mem I.ids hf, hf, h1, h2, hn.1, hn.2, hok, ?_⟩
  exact (hok.wait (by rw [h1, h2, h]; simp)).2.1

/-- The head of a wait list leaves, served. -/
abbrev popped (s : Sys) (p : Bool) (f : Fut) (rest : List Nat) : Sys :=
  { s with q := setq s.q p rest, served := setq s.served p (s.served p ++ [f.id]),
           futs := setFut s.futs { f with state := 0, woken := true } }

/-- What `tryHead` does: nothing to an empty list; a waiter that gets all it needs leaves; otherwise nothing remains to give. -/
theorem tryHead_cases {s : Sys} (I : Inv s) (p : Bool) (rem : Nat) :
    (s.q p = [] ∧ tryHead p s rem = (s, rem, false)) ∨
    ∃ f rest, f ∈ s.futs ∧ s.q p = f.id :: rest ∧ f.prio = p ∧ 0 < f.state ∧
      ((f.state ≤ rem ∧ tryHead p s rem = (popped s p f rest, rem - f.state, true)) ∨
       (rem < f.state ∧ tryHead p s rem = ({ s with futs := setFut s.futs { f with state := f.state - rem } }, 0, false))) := by
  cases hq : s.q p with
  | nil => left; exact ⟨rfl, by unfold tryHead; rw [hq]⟩
  | cons id rest =>
    right
    obtain ⟨f, hget, hf, h1, h2, -, -, -, hpos⟩ := head_fut I hq
    refine ⟨f, rest, hf, by rw [h1], h2, hpos, ?_⟩
    unfold tryHead
    rw [hq]
    simp only [hget]
    by_cases h : f.state ≤ rem
    · left
      refine ⟨h, ?_⟩
      subst h1
      rw [Nat.min_eq_left h, if_pos (by omega)]
    · right
      refine ⟨by omega, ?_⟩
      rw [Nat.min_eq_right (by omega), if_neg (by omega), Nat.sub_self]

/-- `tryHead` keeps the invariant. -/
theorem tryHead_inv {s : Sys} (I : Inv s) (p : Bool) (rem : Nat) : Inv (tryHead p s rem).1 := by
  rcases tryHead_cases I p rem with ⟨-, h⟩ | ⟨f, rest, hf, hq, hp, hpos, ⟨hle, h⟩ | ⟨hlt, h⟩⟩
  · rw [h]; exact I
  · rw [h]
    have hnd := I.qn p
    rw [hq, List.nodup_cons] at hnd
    have ok := I.ok f hf
    apply inv_upd (s' := popped s p f rest) (f := f) (f' := { f with state := 0, woken := true }) I hf rfl rfl rfl rfl
    · intro b id hb
      by_cases hbp : b = p
      · subst hbp
        simp only [setq_same, hq, List.mem_cons]
        rcases hb with hb | hb
        · simp [hb]
        · exact absurd hp.symm hb
      · simp only [setq_ne _ _ hbp]
    · intro b
      by_cases hbp : b = p
      · subst hbp; simp only [setq_same]; exact hnd.2
      · simp only [setq_ne _ _ hbp]; exact I.qn b
    · have hnot : ¬ f.id ∈ setq s.q p rest f.prio := by rw [hp, setq_same]; exact hnd.1
      have hw := ok.wait (by rw [hp, hq]; simp)
      refine ⟨ok.pos, by simp, ?_, fun h => absurd h hnot, fun _ _ _ => ⟨rfl, Or.inr rfl⟩, ok.fail, ?_⟩
      · intro h; simp [hw.1] at h
      · intro a ha; exact ⟨hw.1, hnot, rfl⟩
    · intro b hb
      show s.permits = 0
      exact I.perm p (by rw [hq]; simp)
    · intro hc b
      have := I.clq hc p
      rw [hq] at this; simp at this
  · rw [h]
    have ok := I.ok f hf
    have hin : f.id ∈ s.q f.prio := by rw [hp, hq]; simp
    have hw := ok.wait hin
    show Inv { s with futs := setFut s.futs { f with state := f.state - rem } }
    refine inv_fut (f' := { f with state := f.state - rem }) I hf rfl rfl rfl rfl rfl
      (Nat.le_refl _) ?_
    refine ⟨ok.pos, ?_, ?_, ?_, fun _ _ h => absurd hin h, ok.fail, ?_⟩
    · have := ok.le; simp; omega
    · intro h; simp [hw.1] at h
    · intro _
      refine ⟨hw.1, by simp; omega, ?_⟩
      rcases hw.2.2 with h | ⟨n, h, hn⟩
      · exact Or.inl h
      · exact Or.inr ⟨n, h, by simp; omega⟩
    · intro a ha
      exact absurd hin (ok.tk a ha).2.1

/-- What a future owns: permits given to its node, and permits it has taken itself. -/
def owned (f : Fut) : Nat :=
  match f.pc with
  | .gone => 0
  | .taken a => f.num - f.state + a
  | _ => f.num - f.state

def ownedSum (fs : List Fut) : Nat := (fs.map owned).sum

theorem setFut_of_not_mem {fs : List Fut} {f : Fut} (h : f.id ∉ fs.map Fut.id) : setFut fs f = fs := by
  unfold setFut
  conv => rhs; rw [← List.map_id fs]
  apply List.map_congr_left
  intro x hx
  rw [if_neg]
  · rfl
  · intro he; exact h (List.mem_map.2 ⟨x, hx, he⟩)

theorem ownedSum_set {fs : List Fut} (hn : (fs.map Fut.id).Nodup) {f f' : Fut} (hf : f ∈ fs) (hid : f'.id = f.id) :
    ownedSum (setFut fs f') + owned f = ownedSum fs + owned f' := by
  induction fs with
  | nil => simp at hf
  | cons x xs ih =>
    rw [List.map_cons, List.nodup_cons] at hn
    rcases List.mem_cons.1 hf with rfl | hf
    · have h1 : setFut (f :: xs) f' = f' :: setFut xs f' := by
        unfold setFut; simp [hid]
      have h2 : setFut xs f' = xs := setFut_of_not_mem (by rw [hid]; exact hn.1)
      rw [h1, h2]
      unfold ownedSum
      simp only [List.map_cons, List.sum_cons]
      omega
    · have hne : x.id ≠ f'.id := by
        intro h; exact hn.1 (List.mem_map.2 ⟨f, hf, by rw [h, hid]⟩)
      have h1 : setFut (x :: xs) f' = x :: setFut xs f' := by
        unfold setFut; simp [hne]
      have := ih hn.2 hf
      rw [h1]
      unfold ownedSum at this ⊢
      simp only [List.map_cons, List.sum_cons]
      omega

/-- Everything there is. -/
def total (s : Sys) : Nat := s.permits + ownedSum s.futs + s.held + s.flight.sum + s.lost

theorem ownedSum_of {fs : List Fut} {f f' : Fut} (hn : (fs.map Fut.id).Nodup) (hf : f ∈ fs) (hid : f'.id = f.id) {k : Nat}
    (h : owned f' = owned f + k) : ownedSum (setFut fs f') = ownedSum fs + k := by
  have := ownedSum_set hn hf hid
  omega

/-- Fields that giving permits does not touch. -/
structure Frame (s s' : Sys) : Prop where
  permits : s'.permits = s.permits
  closed : s'.closed = s.closed
  held : s'.held = s.held
  flight : s'.flight = s.flight
  lost : s'.lost = s.lost
  created : s'.created = s.created
  joined : s'.joined = s.joined

theorem Frame.refl (s : Sys) : Frame s s := ⟨rfl, rfl, rfl, rfl, rfl, rfl, rfl⟩
theorem Frame.trans {a b c : Sys} (h : Frame a b) (g : Frame b c) : Frame a c :=
  ⟨g.1.trans h.1, g.2.trans h.2, g.3.trans h.3, g.4.trans h.4, g.5.trans h.5, g.6.trans h.6, g.7.trans h.7⟩

/-- Served waiters of a class leave from its front. -/
def Moves (s s' : Sys) : Prop := ∀ p, ∃ l, s'.served p = s.served p ++ l ∧ s.q p = l ++ s'.q p

theorem Moves.refl (s : Sys) : Moves s s := fun _ => ⟨[], by simp⟩
theorem Moves.trans {a b c : Sys} (h : Moves a b) (g : Moves b c) : Moves a c := by
  intro p
  obtain ⟨l, h1, h2⟩ := h p
  obtain ⟨m, g1, g2⟩ := g p
  exact ⟨l ++ m, by rw [g1, h1, List.append_assoc], by rw [h2, g2, List.append_assoc]⟩

theorem tryHead_frame {s : Sys} (I : Inv s) (p : Bool) (rem : Nat) :
    Frame s (tryHead p s rem).1 ∧ Moves s (tryHead p s rem).1 ∧
    ownedSum (tryHead p s rem).1.futs + (tryHead p s rem).2.1 = ownedSum s.futs + rem := by
  rcases tryHead_cases I p rem with ⟨-, h⟩ | ⟨f, rest, hf, hq, hp, hpos, ⟨hle, h⟩ | ⟨hlt, h⟩⟩
  · rw [h]; exact ⟨Frame.refl s, Moves.refl s, rfl⟩
  · rw [h]
    have ok := I.ok f hf
    have hw := ok.wait (by rw [hp, hq]; simp)
    refine ⟨⟨rfl, rfl, rfl, rfl, rfl, rfl, rfl⟩, ?_, ?_⟩
    · intro b
      by_cases hb : b = p
      · subst hb; exact ⟨[f.id], by simp [setq_same], by simp [setq_same, hq]⟩
      · exact ⟨[], by simp [setq_ne _ _ hb]⟩
    · have ho : owned { f with state := 0, woken := true } = owned f + f.state := by
        have := ok.le
        rcases hw.2.2 with hpc | ⟨n, hpc, -⟩ <;> (unfold owned; simp only [hpc]; omega)
      rw [ownedSum_of (f' := _) I.ids hf (by rfl) ho]
      simp only
      omega
  · rw [h]
    have ok := I.ok f hf
    have hw := ok.wait (by rw [hp, hq]; simp)
    refine ⟨⟨rfl, rfl, rfl, rfl, rfl, rfl, rfl⟩, fun b => ⟨[], by simp⟩, ?_⟩
    have ho : owned { f with state := f.state - rem } = owned f + rem := by
      have := ok.le
      rcases hw.2.2 with hpc | ⟨n, hpc, -⟩ <;> (unfold owned; simp only [hpc]; omega)
    rw [ownedSum_of (f' := _) I.ids hf (by rfl) ho]
    simp only
    omega

/-- When `tryHead` takes nobody out and something is left, the list is empty; when it takes an ordinary waiter ... -/
theorem tryHead_false {s : Sys} (I : Inv s) (p : Bool) (rem : Nat) (h : (tryHead p s rem).2.2 = false) :
    (tryHead p s rem).1.q = s.q ∧ (0 < (tryHead p s rem).2.1 → s.q p = []) ∧ (tryHead p s rem).1.served = s.served ∧
      (tryHead p s rem).2.1 ≤ rem := by
  rcases tryHead_cases I p rem with ⟨hq, h'⟩ | ⟨f, rest, hf, hq, hp, hpos, ⟨hle, h'⟩ | ⟨hlt, h'⟩⟩
  · rw [h']; exact ⟨rfl, fun _ => hq, rfl, Nat.le_refl _⟩
  · rw [h'] at h; simp at h
  · rw [h']; exact ⟨rfl, fun h => by simp at h, rfl, by simp⟩

theorem serve_ok (cap : Nat) {s : Sys} (I : Inv s) (rem : Nat) :
    Inv (serve cap s rem).1 ∧ Frame s (serve cap s rem).1 ∧ Moves s (serve cap s rem).1 ∧
    ownedSum (serve cap s rem).1.futs + (serve cap s rem).2.1 = ownedSum s.futs + rem ∧
    ((serve cap s rem).2.2 = true → 0 < (serve cap s rem).2.1 → ∀ p, (serve cap s rem).1.q p = []) ∧
    ((serve cap s rem).1.served false ≠ s.served false → (serve cap s rem).1.q true = []) := by
  induction cap generalizing s rem with
  | zero => exact ⟨I, Frame.refl s, Moves.refl s, rfl, by simp [serve], by simp [serve]⟩
  | succ cap ih =>
    have I1 := tryHead_inv I true rem
    obtain ⟨f1, m1, o1⟩ := tryHead_frame I true rem
    have e1 := tryHead_false I true rem
    have c1 := tryHead_cases I true rem
    unfold serve
    simp only
    generalize tryHead true s rem = a at I1 f1 m1 o1 e1 c1
    split
    · rename_i ha
      obtain ⟨h1, h2, h3, h4, h5, h6⟩ := ih I1 a.2.1
      refine ⟨h1, f1.trans h2, m1.trans h3, by omega, h5, ?_⟩
      intro hne
      apply h6
      rcases c1 with ⟨-, h'⟩ | ⟨f, rest, -, -, -, -, ⟨-, h'⟩ | ⟨-, h'⟩⟩
      · rw [h'] at ha; simp at ha
      · rw [h']; rw [h'] at hne; simpa [setq] using hne
      · rw [h'] at ha; simp at ha
    · rename_i ha
      have ha : a.2.2 = false := by simpa using ha
      obtain ⟨q1, z1, s1, l1⟩ := e1 ha
      have I2 := tryHead_inv I1 false a.2.1
      obtain ⟨f2, m2, o2⟩ := tryHead_frame I1 false a.2.1
      have e2 := tryHead_false I1 false a.2.1
      have c2 := tryHead_cases I1 false a.2.1
      generalize tryHead false a.1 a.2.1 = b at I2 f2 m2 o2 e2 c2
      split
      · rename_i hb
        obtain ⟨h1, h2, h3, h4, h5, h6⟩ := ih I2 b.2.1
        refine ⟨h1, f1.trans (f2.trans h2), m1.trans (m2.trans h3), by omega, h5, ?_⟩
        intro _
        -- an ordinary waiter was taken out: something was left, so no priority waiter was there
        have hq : s.q true = [] := by
          apply z1
          rcases c2 with ⟨-, h'⟩ | ⟨f, rest, -, -, -, hpos, ⟨hle, h'⟩ | ⟨-, h'⟩⟩
          · rw [h'] at hb; simp at hb
          · omega
          · rw [h'] at hb; simp at hb
        have hq2 : b.1.q true = [] := by
          obtain ⟨l, -, hl⟩ := m2 true
          rw [q1, hq] at hl
          exact (List.append_eq_nil_iff.1 hl.symm).2
        obtain ⟨l, -, hl⟩ := h3 true
        rw [hq2] at hl
        exact (List.append_eq_nil_iff.1 hl.symm).2
      · rename_i hb
        have hb : b.2.2 = false := by simpa using hb
        obtain ⟨q2, z2, s2, l2⟩ := e2 hb
        refine ⟨I2, f1.trans f2, m1.trans m2, by simp only; omega, ?_, ?_⟩
        · intro _ hpos p
          simp only at hpos ⊢
          cases p with
          | true => rw [q2, q1]; exact z1 (by omega)
          | false => rw [q2]; exact z2 hpos
        · intro h; simp only at h; rw [s2, s1] at h; exact absurd rfl h

/-- What one critical section of `add_permits_locked` does. -/
structure Added (s : Sys) (rem : Nat) (s' : Sys) : Prop where
  inv : Inv s'
  closed : s'.closed = s.closed
  held : s'.held = s.held
  lost : s'.lost = s.lost
  created : s'.created = s.created
  joined : s'.joined = s.joined
  moves : Moves s s'
  total : total s' = total s + rem
  prio : s'.served false ≠ s.served false → s'.q true = []

theorem addSection_ok {s : Sys} (I : Inv s) {rem : Nat} (hmax : total s + rem ≤ maxPermits) :
    ∃ s', addSection s rem = some s' ∧ Added s rem s' := by
  unfold addSection
  split
  · rename_i h; subst h
    exact ⟨s, rfl, I, rfl, rfl, rfl, rfl, rfl, Moves.refl s, rfl, fun h => absurd rfl h⟩
  · obtain ⟨h1, h2, h3, h4, h5, h6⟩ := serve_ok wakeCap I rem
    simp only
    generalize serve wakeCap s rem = r at h1 h2 h3 h4 h5 h6
    split
    · rename_i hpos
      split
      · rename_i he
        have hq := h5 he hpos
        have hp := h2.permits
        rw [if_pos]
        · refine ⟨_, rfl, ?_, h2.closed, h2.held, h2.lost, h2.created, h2.joined, h3, ?_, h6⟩
          · exact ⟨h1.ids, h1.qn, h1.qf, h1.ok, fun p hne => absurd (hq p) hne, h1.clq⟩
          · unfold total; simp only [h2.permits, h2.held, h2.flight, h2.lost]; omega
        · unfold total at hmax; rw [hp]; omega
      · refine ⟨_, rfl, ?_, h2.closed, h2.held, h2.lost, h2.created, h2.joined, h3, ?_, h6⟩
        · exact inv_counters h1 rfl rfl rfl (Nat.le_refl _)
        · unfold total; simp only [h2.permits, h2.held, h2.flight, h2.lost, List.sum_cons]; omega
    · refine ⟨_, rfl, h1, h2.closed, h2.held, h2.lost, h2.created, h2.joined, h3, ?_, h6⟩
      unfold total; simp only [h2.permits, h2.held, h2.flight, h2.lost]; omega

end Tycho.Semaphore
