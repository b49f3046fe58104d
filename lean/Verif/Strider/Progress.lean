import Verif.Strider.Handles
import Mathlib.Tactic.ByContra

/-! Downloads and progress. -/
namespace Tycho.Strider
open Tycho.Table

/-! ### Which blocks are downloaded -/

/-- `l` are the blocks from `top` down to the first one that is committed or the initial state of the shard
(not included), or that follows a split or merge (included). -/
inductive Below (w : World) (st : Store) : BlockId → List BlockId → Prop
  | stop (top) : (top.seqno = 0 ∨ st.isCommitted w top = true) → Below w st top []
  | joint (top i) : top.seqno ≠ 0 → st.isCommitted w top = false → w.shardBlock top = some i →
    (i.afterSplit || i.afterMerge) = true → Below w st top [top]
  | next (top i seqno hash l) : top.seqno ≠ 0 → st.isCommitted w top = false → w.shardBlock top = some i →
    (i.afterSplit || i.afterMerge) = false → i.prev = .single seqno hash → Below w st ⟨top.shard, seqno, hash⟩ l →
    Below w st top (top :: l)

/-- The oldest block of the list follows a split or merge. -/
def EndsJoint (w : World) (l : List BlockId) : Prop :=
  ∃ b i, l.getLast? = some b ∧ w.shardBlock b = some i ∧ (i.afterSplit || i.afterMerge) = true

theorem endsJoint_cons (w : World) (b : BlockId) (i : ShardBlock) (l : List BlockId) (hb : w.shardBlock b = some i)
    (hi : (i.afterSplit || i.afterMerge) = false) : EndsJoint w (b :: l) ↔ EndsJoint w l := by
  cases l with
  | nil =>
    constructor
    · rintro ⟨x, j, h1, h2, h3⟩
      simp only [List.getLast?_singleton, Option.some.injEq] at h1
      subst h1
      rw [hb] at h2; cases h2
      rw [hi] at h3; cases h3
    · rintro ⟨x, j, h1, _⟩; cases h1
  | cons y l => unfold EndsJoint; rw [List.getLast?_cons_cons]

theorem download_fuel (w : World) (st : Store) (fuel : Nat) (top : BlockId) (l : List BlockId) :
    download w st (fuel + 1) top = some l ↔ Below w st top l ∧ (l.length ≤ fuel ∨ (EndsJoint w l ∧ l.length ≤ fuel + 1)) := by
  induction fuel generalizing top l with
  | zero =>
    unfold download
    split
    · rename_i h
      constructor
      · intro h1; cases h1; exact ⟨.stop _ h, .inl (Nat.le_refl _)⟩
      · rintro ⟨h1, h2⟩
        cases h1 with
        | stop => rfl
        | joint _ i h3 h4 => exact absurd h (by simp [h3, h4])
        | next _ i s h' l h3 h4 => exact absurd h (by simp [h3, h4])
    · rename_i h
      cases hb : w.shardBlock top with
      | none =>
        dsimp only
        constructor
        · intro h1; cases h1
        · rintro ⟨h1, h2⟩
          cases h1 with
          | stop _ h3 => exact absurd h3 h
          | joint _ i h3 h4 h5 => rw [hb] at h5; cases h5
          | next _ i s h' l h3 h4 h5 => rw [hb] at h5; cases h5
      | some i =>
        dsimp only
        by_cases hj : (i.afterSplit || i.afterMerge) = true
        · rw [if_pos hj]
          constructor
          · intro h1; cases h1
            refine ⟨.joint _ i (fun h1 => h (.inl h1)) (by simpa using fun h1 => h (.inr h1)) hb hj, .inr ⟨⟨top, i, rfl, hb, hj⟩, Nat.le_refl _⟩⟩
          · rintro ⟨h1, h2⟩
            cases h1 with
            | stop _ h3 => exact absurd h3 h
            | joint _ i h3 h4 h5 => rfl
            | next _ i' s h' l h3 h4 h5 h6 => rw [hb] at h5; cases h5; rw [hj] at h6; cases h6
        · rw [if_neg hj]
          simp only [Bool.not_eq_true] at hj
          have hno : ¬ (Below w st top l ∧ (l.length ≤ 0 ∨ (EndsJoint w l ∧ l.length ≤ 0 + 1))) := by
            rintro ⟨h1, h2⟩
            cases h1 with
            | stop _ h3 => exact absurd h3 h
            | joint _ i h3 h4 h5 h6 => rw [hb] at h5; cases h5; rw [hj] at h6; cases h6
            | next _ i' s h' l h3 h4 h5 h6 h7 h8 =>
              rcases h2 with h2 | ⟨h2, h2'⟩
              · simp at h2
              · rw [endsJoint_cons w top i' l h5 h6] at h2
                simp only [List.length_cons] at h2'
                have : l = [] := List.eq_nil_of_length_eq_zero (by omega)
                subst this
                obtain ⟨_, _, h9, _⟩ := h2; cases h9
          cases i.prev with
          | afterMerge a1 a2 a3 a4 => exact ⟨fun h1 => (nomatch h1), fun h1 => absurd h1 hno⟩
          | single sq hs => exact ⟨fun h1 => by simp at h1, fun h1 => absurd h1 hno⟩
  | succ n ih =>
    unfold download
    split
    · rename_i h
      constructor
      · intro h1; cases h1; exact ⟨.stop _ h, .inl (Nat.zero_le _)⟩
      · rintro ⟨h1, h2⟩
        cases h1 with
        | stop => rfl
        | joint _ i h3 h4 => exact absurd h (by simp [h3, h4])
        | next _ i s h' l h3 h4 => exact absurd h (by simp [h3, h4])
    · rename_i h
      cases hb : w.shardBlock top with
      | none =>
        dsimp only
        constructor
        · intro h1; cases h1
        · rintro ⟨h1, h2⟩
          cases h1 with
          | stop _ h3 => exact absurd h3 h
          | joint _ i h3 h4 h5 => rw [hb] at h5; cases h5
          | next _ i s h' l h3 h4 h5 => rw [hb] at h5; cases h5
      | some i =>
        dsimp only
        by_cases hj : (i.afterSplit || i.afterMerge) = true
        · rw [if_pos hj]
          constructor
          · intro h1; cases h1
            refine ⟨.joint _ i (fun h1 => h (.inl h1)) (by simpa using fun h1 => h (.inr h1)) hb hj,
              .inr ⟨⟨top, i, rfl, hb, hj⟩, by simp⟩⟩
          · rintro ⟨h1, h2⟩
            cases h1 with
            | stop _ h3 => exact absurd h3 h
            | joint _ i h3 h4 h5 => rfl
            | next _ i' s h' l h3 h4 h5 h6 => rw [hb] at h5; cases h5; rw [hj] at h6; cases h6
        · rw [if_neg hj]
          simp only [Bool.not_eq_true] at hj
          cases hp : i.prev with
          | afterMerge a1 a2 a3 a4 =>
            constructor
            · intro h1; cases h1
            · rintro ⟨h1, h2⟩
              cases h1 with
              | stop _ h3 => exact absurd h3 h
              | joint _ i h3 h4 h5 h6 => rw [hb] at h5; cases h5; rw [hj] at h6; cases h6
              | next _ i' s h' l h3 h4 h5 h6 h7 => rw [hb] at h5; cases h5; rw [hp] at h7; cases h7
          | single sq hs =>
            dsimp only
            rw [if_neg (by omega), Option.map_eq_some_iff]
            constructor
            · rintro ⟨l', h1, rfl⟩
              obtain ⟨h2, h3⟩ := (ih _ l').1 h1
              refine ⟨.next _ i sq hs l' (fun h1 => h (.inl h1)) (by simpa using fun h1 => h (.inr h1)) hb hj hp h2, ?_⟩
              rw [endsJoint_cons w top i l' hb hj]
              simp only [List.length_cons]
              rcases h3 with h3 | ⟨h3, h4⟩
              · exact .inl (by omega)
              · exact .inr ⟨h3, by omega⟩
            · rintro ⟨h1, h2⟩
              cases h1 with
              | stop _ h3 => exact absurd h3 h
              | joint _ i h3 h4 h5 h6 => rw [hb] at h5; cases h5; rw [hj] at h6; cases h6
              | next _ i' s h' l' h3 h4 h5 h6 h7 h8 =>
                rw [hb] at h5; cases h5
                rw [hp] at h7; cases h7
                refine ⟨l', (ih _ l').2 ⟨h8, ?_⟩, rfl⟩
                rw [endsJoint_cons w top i l' hb hj] at h2
                simp only [List.length_cons] at h2
                rcases h2 with h2 | ⟨h2, h2'⟩
                · exact .inl (by omega)
                · exact .inr ⟨h2, by omega⟩

/-- Exactly which blocks are downloaded for a top block, and exactly when that works: there are at most 31 new
blocks, or 32 if the oldest one follows a split or merge. -/
theorem download_exact (w : World) (st : Store) (top : BlockId) (l : List BlockId) :
    download w st maxDepth top = some l ↔
      Below w st top l ∧ (l.length ≤ 31 ∨ (EndsJoint w l ∧ l.length = 32)) := by
  show download w st (31 + 1) top = some l ↔ _
  rw [download_fuel]
  constructor
  · rintro ⟨h1, h2 | ⟨h2, h3⟩⟩
    · exact ⟨h1, .inl h2⟩
    · by_cases h : l.length ≤ 31
      · exact ⟨h1, .inl h⟩
      · exact ⟨h1, .inr ⟨h2, by omega⟩⟩
  · rintro ⟨h1, h2 | ⟨h2, h3⟩⟩
    · exact ⟨h1, .inl h2⟩
    · exact ⟨h1, .inr ⟨h2, by omega⟩⟩

theorem downloadAll_exact (w : World) (st : Store) (tops : List BlockId) (ls : List (List BlockId)) :
    downloadAll w st tops = some ls ↔ List.Forall₂ (fun t l => download w st maxDepth t = some l) tops ls := by
  induction tops generalizing ls with
  | nil =>
    constructor
    · intro h; cases h; exact .nil
    · intro h; cases h; rfl
  | cons t ts ih =>
    unfold downloadAll
    constructor
    · intro h
      split at h
      · cases h
      · rename_i l hl
        split at h
        · cases h
        · rename_i ls' hls
          cases h
          exact .cons hl ((ih ls').1 hls)
    · intro h
      cases h with
      | cons h1 h2 => rw [h1]; dsimp only; rw [(ih _).2 h2]

/-! ### Progress -/

/-- The node neither stops nor loses data. -/
def Smooth (tr : List Event) : Prop := ∀ e ∈ tr, e ≠ .stop ∧ e ≠ .lose ∧ e ≠ .start

theorem exec_trans (w : World) (s0 s1 s2 : State) (t1 t2 : List Event) (h1 : Exec w s0 t1 s1) (h2 : Exec w s1 t2 s2) :
    Exec w s0 (t2 ++ t1) s2 := by
  induction h2 with
  | init => exact h1
  | step tr s e s' _ hs ih => exact .step _ s e s' ih hs

theorem smooth_append (t1 t2 : List Event) (h1 : Smooth t1) (h2 : Smooth t2) : Smooth (t2 ++ t1) := by
  intro e he
  rcases List.mem_append.1 he with he | he
  · exact h2 e he
  · exact h1 e he

theorem smooth_one (e : Event) (h : e ≠ .stop ∧ e ≠ .lose ∧ e ≠ .start) : Smooth [e] := by
  intro x hx; simp only [List.mem_singleton] at hx; subst hx; exact h

def Task.work (t : Task) : Nat :=
  5 * t.todo.length + (match t.prep with | none => 0 | some (_, false) => 4 | some (_, true) => 3) +
    (match t.cur with | none => 0 | some (_, .handling) => 2 | some (_, .joining) => 1)

def tasksWork (ts : List Task) : Nat := (ts.map Task.work).sum

theorem tasksWork_split (l l' : List Task) (t t' : Task) (h : t'.work < t.work) :
    tasksWork (l ++ t' :: l') < tasksWork (l ++ t :: l') := by
  simp only [tasksWork, List.map_append, List.map_cons, List.sum_append, List.sum_cons]
  omega

/-- Something can always be done in an unfinished task. -/
theorem task_can_step (w : World) (s : State) (r : Run) (c : McRun) (l l' : List Task) (t : Task) (hr : s.run = some r)
    (hc : r.cur = some c) (ht : c.tasks = some (l ++ t :: l')) (hf : t.finished ≠ true) :
    ∃ e s' t', Step w s e s' ∧ (e ≠ .stop ∧ e ≠ .lose ∧ e ≠ .start) ∧ t'.work < t.work ∧
      s'.run = some { r with cur := some { c with tasks := some (l ++ t' :: l') } } ∧ s'.store.last w = s.store.last w := by
  rcases t with ⟨todo, prep, cur⟩
  cases cur with
  | some x =>
    obtain ⟨b, g⟩ := x
    cases g with
    | handling =>
      exact ⟨_, _, _, .handled s r c l _ l' b hr hc ht rfl, by simp, by simp [Task.work], rfl, rfl⟩
    | joining =>
      refine ⟨_, _, _, .commit s r c l _ l' b hr hc ht rfl, by simp, by simp [Task.work], rfl, ?_⟩
      show (s.store.commitShard b).last w = _
      unfold Store.commitShard
      split <;> rfl
  | none =>
    cases prep with
    | some x =>
      obtain ⟨b, d⟩ := x
      cases d with
      | false =>
        exact ⟨_, _, _, .prepared s r c l _ l' b hr hc ht rfl, by simp, by simp [Task.work], rfl, (save_same w s.store b).last⟩
      | true =>
        exact ⟨_, _, _, .handle s r c l _ l' b hr hc ht rfl rfl, by simp, by simp [Task.work], rfl, rfl⟩
    | none =>
      cases todo with
      | nil => exact absurd rfl hf
      | cons b rest =>
        refine ⟨_, _, _, .prep s r c l _ l' b rest hr hc ht rfl rfl, by simp, ?_, rfl, rfl⟩
        simp [Task.work]; omega

theorem finish_tasks (w : World) (n : Nat) (s : State) (r : Run) (c : McRun) (ts : List Task) (hr : s.run = some r)
    (hc : r.cur = some c) (ht : c.tasks = some ts) (hn : tasksWork ts ≤ n) :
    ∃ tr s' ts', Exec w s tr s' ∧ Smooth tr ∧ (∀ t ∈ ts', t.finished = true) ∧
      s'.run = some { r with cur := some { c with tasks := some ts' } } := by
  induction n generalizing s r c ts with
  | zero =>
    by_cases hall : ∀ t ∈ ts, t.finished = true
    · refine ⟨[], s, ts, .init, fun e he => (nomatch he), hall, ?_⟩
      rw [hr]; congr 1; cases r; cases c; cases hc; cases ht; rfl
    · exfalso
      apply hall
      intro t htm
      by_contra hf
      obtain ⟨l, l', rfl⟩ := List.append_of_mem htm
      obtain ⟨_, _, t', _, _, hw, _⟩ := task_can_step w s r c l l' t hr hc ht hf
      have := tasksWork_split l l' t t' hw
      omega
  | succ n ih =>
    by_cases hall : ∀ t ∈ ts, t.finished = true
    · refine ⟨[], s, ts, .init, fun e he => (nomatch he), hall, ?_⟩
      rw [hr]; congr 1; cases r; cases c; cases hc; cases ht; rfl
    · have : ∃ t ∈ ts, t.finished ≠ true := by
        by_contra hno
        exact hall (fun t ht => by by_contra hf; exact hno ⟨t, ht, hf⟩)
      obtain ⟨t, htm, hf⟩ := this
      obtain ⟨l, l', rfl⟩ := List.append_of_mem htm
      obtain ⟨e, s1, t', hstep, he, hw, hr1, _⟩ := task_can_step w s r c l l' t hr hc ht hf
      have hlt := tasksWork_split l l' t t' hw
      obtain ⟨tr, s', ts', h1, h2, h3, h4⟩ := ih s1 _ _ _ hr1 rfl rfl (by omega)
      exact ⟨tr ++ [e], s', ts', exec_trans w s s1 s' [e] tr (.step _ _ _ _ .init hstep) h1,
        smooth_append [e] tr (smooth_one e he) h2, h3, h4⟩

/-- Progress: when the next masterchain block was fetched and its shard blocks can be downloaded, then without
stops it gets committed, and the strider is ready for the next one. Every step of the way is a step of the
strider, so nothing waits for something that does not happen. -/
theorem master_block_completes (w : World) (s : State) (r : Run) (m : BlockId) (ls : List (List BlockId))
    (hr : s.run = some r) (hc : r.cur = none) (hf : r.fetched = some m)
    (hd : downloadAll w s.store (w.mcBlock m).tops = some ls) :
    ∃ tr s', Exec w s tr s' ∧ Smooth tr ∧ s'.store.last w = m ∧ s'.run = some ⟨m, none, none⟩ := by
  -- take, download, prepare
  let c0 : McRun := ⟨m, false, none, .shards⟩
  let s1 : State := { s with run := some ⟨m, none, some c0⟩ }
  have e1 : Step w s _ s1 := .take s r m hr hc hf
  let c1 : McRun := { c0 with tasks := some (ls.map newTask) }
  let s2 : State := s1.setCur ⟨m, none, some c0⟩ (some c1)
  have e2 : Step w s1 _ s2 := .download s1 ⟨m, none, some c0⟩ c0 ls rfl rfl rfl hd
  let c2 : McRun := { c1 with prepared := true }
  let s3 : State := (s2.write (s2.store.save w m)).setCur ⟨m, none, some c1⟩ (some c2)
  have e3 : Step w s2 _ s3 := .mcPrepared s2 ⟨m, none, some c1⟩ c1 rfl rfl rfl
  have x3 : Exec w s [.prepared m, .downloaded m, .prepare (mcCx w m)] s3 :=
    .step _ _ _ _ (.step _ _ _ _ (.step _ _ _ _ .init e1) e2) e3
  obtain ⟨tr, s4, ts, x4, hsm, hfin, hr4⟩ := finish_tasks w _ s3 ⟨m, none, some c2⟩ c2 _ rfl rfl rfl (Nat.le_refl _)
  let c4 : McRun := { c2 with tasks := some ts }
  let s5 : State := s4.setCur ⟨m, none, some c4⟩ (some { c4 with stage := .handling })
  have e5 : Step w s4 _ s5 := .mcHandle s4 ⟨m, none, some c4⟩ c4 ts hr4 rfl rfl hfin rfl rfl
  let s6 : State := s5.setCur ⟨m, none, some { c4 with stage := .handling }⟩ (some { c4 with stage := .joining })
  have e6 : Step w s5 _ s6 := .mcHandled s5 ⟨m, none, some { c4 with stage := .handling }⟩ { c4 with stage := .handling } rfl rfl rfl
  let s7 : State := (s6.write (s6.store.commitMaster m)).setCur ⟨m, none, some { c4 with stage := .joining }⟩ (some { c4 with stage := .cleaning })
  have e7 : Step w s6 _ s7 := .mcCommit s6 ⟨m, none, some { c4 with stage := .joining }⟩ { c4 with stage := .joining } rfl rfl rfl
  let s8 : State := s7.setCur ⟨m, none, some { c4 with stage := .cleaning }⟩ none
  have e8 : Step w s7 _ s8 := .cleanup s7 ⟨m, none, some { c4 with stage := .cleaning }⟩ { c4 with stage := .cleaning } rfl rfl rfl
  have x8 : Exec w s4 [.cleanup m.seqno, .commit m, .handled m, .handle (mcCx w m)] s8 :=
    .step _ _ _ _ (.step _ _ _ _ (.step _ _ _ _ (.step _ _ _ _ .init e5) e6) e7) e8
  refine ⟨_, s8, exec_trans w s s4 s8 _ _ (exec_trans w s s3 s4 _ _ x3 x4) x8, ?_, rfl, rfl⟩
  refine smooth_append _ _ (smooth_append _ _ ?_ hsm) ?_
  · intro e he; simp only [List.mem_cons, List.not_mem_nil, or_false] at he
    rcases he with rfl | rfl | rfl <;> simp
  · intro e he; simp only [List.mem_cons, List.not_mem_nil, or_false] at he
    rcases he with rfl | rfl | rfl | rfl <;> simp

end Tycho.Strider
