import Verif.Strider.Fixed

/-! A concrete chain, executions with a crash and a restart, and what goes wrong if blocks are not saved. -/
namespace Tycho.Strider
open Tycho.Table

/-- Two shards: masterchain block `k` has top blocks `2k` in shard 1 and `k` in shard 2. -/
def exWorld (saves : Bool) : World where
  shardBlock b := if b.hash = 0 ∧ (b.shard = 1 ∨ b.shard = 2) ∧ b.seqno ≠ 0 then some ⟨false, false, .single (b.seqno - 1) 0⟩ else none
  mcBlock m := ⟨decide (m.seqno % 4 = 0), [⟨1, 2 * m.seqno, 0⟩, ⟨2, m.seqno, 0⟩]⟩
  next p m := p.shard = 0 ∧ p.hash = 0 ∧ m = ⟨0, p.seqno + 1, 0⟩
  zerostate := ⟨0, 0, 0⟩
  saves := saves
  intersects a b := decide (a = b)
  up := id
  left := id
  right := id

theorem ex_parents (sv : Bool) (a b : BlockId) : a ∈ parents (exWorld sv) b ↔
    (b.hash = 0 ∧ (b.shard = 1 ∨ b.shard = 2) ∧ b.seqno ≠ 0) ∧ a = ⟨b.shard, b.seqno - 1, 0⟩ := by
  by_cases h : b.hash = 0 ∧ (b.shard = 1 ∨ b.shard = 2) ∧ b.seqno ≠ 0
  · simp [parents, exWorld, h]
  · simp [parents, exWorld, h]

theorem ex_anc (sv : Bool) (s n : Nat) (hs : s = 1 ∨ s = 2) (a : BlockId) :
    Anc (exWorld sv) a ⟨s, n, 0⟩ ↔ a.hash = 0 ∧ a.shard = s ∧ a.seqno ≤ n := by
  constructor
  · intro h
    generalize hb : (⟨s, n, 0⟩ : BlockId) = b at h
    induction h generalizing n with
    | refl => subst hb; exact ⟨rfl, rfl, Nat.le_refl _⟩
    | step p b _ hp ih =>
      subst hb
      obtain ⟨_, rfl⟩ := (ex_parents sv _ _).1 hp
      obtain ⟨h1, h2, h3⟩ := ih (n - 1) rfl
      exact ⟨h1, h2, by omega⟩
  · rintro ⟨h1, h2, h3⟩
    induction n with
    | zero =>
      have : a = ⟨s, 0, 0⟩ := by cases a; simp_all
      rw [this]; exact .refl _
    | succ n ih =>
      by_cases h : a.seqno = n + 1
      · have : a = ⟨s, n + 1, 0⟩ := by cases a; simp_all
        rw [this]; exact .refl _
      · exact .step a ⟨s, n, 0⟩ _ (ih (by omega)) ((ex_parents sv _ _).2 ⟨⟨rfl, hs, by simp⟩, by simp⟩)

theorem ex_covered (sv : Bool) (m b : BlockId) : Covered (exWorld sv) m b ↔
    b.seqno ≠ 0 ∧ b.hash = 0 ∧ ((b.shard = 1 ∧ b.seqno ≤ 2 * m.seqno) ∨ (b.shard = 2 ∧ b.seqno ≤ m.seqno)) := by
  unfold Covered
  have : (exWorld sv).mcBlock m = ⟨decide (m.seqno % 4 = 0), [⟨1, 2 * m.seqno, 0⟩, ⟨2, m.seqno, 0⟩]⟩ := rfl
  rw [this]
  simp only [List.mem_cons, List.not_mem_nil, or_false]
  constructor
  · rintro ⟨h0, t, rfl | rfl, h⟩
    · obtain ⟨h1, h2, h3⟩ := (ex_anc sv 1 _ (.inl rfl) b).1 h
      exact ⟨h0, h1, .inl ⟨h2, h3⟩⟩
    · obtain ⟨h1, h2, h3⟩ := (ex_anc sv 2 _ (.inr rfl) b).1 h
      exact ⟨h0, h1, .inr ⟨h2, h3⟩⟩
  · rintro ⟨h0, h1, ⟨h2, h3⟩ | ⟨h2, h3⟩⟩
    · exact ⟨h0, _, .inl rfl, (ex_anc sv 1 _ (.inl rfl) b).2 ⟨h1, h2, h3⟩⟩
    · exact ⟨h0, _, .inr rfl, (ex_anc sv 2 _ (.inr rfl) b).2 ⟨h1, h2, h3⟩⟩

theorem ex_blocks (sv : Bool) : BlocksOk (exWorld sv) := by
  refine ⟨?_, ?_⟩
  · intro b a ha
    obtain ⟨h, rfl⟩ := (ex_parents sv _ _).1 ha
    simp only; omega
  · intro b i hi ls lh rs rh hp
    simp only [exWorld] at hi
    split at hi
    · cases hi; cases hp
    · cases hi

theorem ex_next (sv : Bool) (p m : BlockId) (h : (exWorld sv).next p m) : ValidNext (exWorld sv) p m := by
  obtain ⟨hp, hh, rfl⟩ := h
  have htops : ∀ (q t : BlockId), t ∈ ((exWorld sv).mcBlock q).tops ↔ t = ⟨1, 2 * q.seqno, 0⟩ ∨ t = ⟨2, q.seqno, 0⟩ := by
    intro q t; simp [exWorld]
  refine ⟨rfl, rfl, ?_, ?_, ?_, ?_, ?_, ?_⟩
  · intro t ht; rcases (htops _ _).1 ht with rfl | rfl <;> simp
  · simp [exWorld]
  · intro t ht h0
    rw [ex_covered]
    rcases (htops _ _).1 ht with rfl | rfl
    · exact ⟨h0, rfl, .inl ⟨rfl, by simp only; omega⟩⟩
    · exact ⟨h0, rfl, .inr ⟨rfl, by simp only; omega⟩⟩
  · rintro b ⟨h1, h2⟩ a ha hca
    rw [ex_covered] at h1 h2 hca
    obtain ⟨_, rfl⟩ := (ex_parents sv _ _).1 ha
    rw [htops]
    simp only [BlockId.mk.injEq, and_true, true_and] at h1 h2 hca ⊢
    omega
  · intro t ht hc
    rw [ex_covered] at hc
    exfalso
    rcases (htops _ _).1 ht with rfl | rfl
    · simp only at hc; omega
    · simp only at hc; omega
  · intro b i _ hi hsm
    simp only [exWorld] at hi
    split at hi
    · cases hi; cases hsm
    · cases hi

theorem ex_fixed (sv : Bool) : FixedShards (exWorld sv) := by
  refine ⟨?_, ?_, ?_⟩
  · intro b i hi
    simp only [exWorld] at hi
    split at hi
    · cases hi; exact ⟨rfl, _, _, rfl⟩
    · cases hi
  · intro q; simp [exWorld]
  · intro p m _ x; simp [exWorld]

/-- The hypotheses of the theorems are met. -/
theorem ex_world : WorldOk (exWorld true) :=
  ⟨ex_blocks true, ex_next true, heights_fixed_shards _ (ex_blocks true) (ex_next true) (ex_fixed true), rfl⟩

def exStart : State := ⟨⟨none, []⟩, none, []⟩

theorem ex_init (sv : Bool) : InitOk (exWorld sv) exStart := by
  refine ⟨rfl, rfl, ?_, ?_, ?_⟩
  · intro t ht
    simp [exWorld, exStart, Store.last] at ht
    rcases ht with rfl | rfl <;> simp
  · intro t ht h0
    simp [exWorld, exStart, Store.last] at ht
    rcases ht with rfl | rfl <;> simp at h0
  · intro b hb hs
    unfold Store.isCommitted at hb
    rw [if_neg hs] at hb
    exact absurd hb (by simp [exStart, Table.get])

/-! An executable form of the steps, to write executions down. -/

inductive Act where
  | start | stop | fetch (m : BlockId) | take | mcPrepared | download | prep (i : Nat) | prepared (i : Nat) | handle (i : Nat)
  | handled (i : Nat) | commit (i : Nat) | mcHandle | mcHandled | mcCommit | cleanup

def exSet (s : State) (r : Run) (c : McRun) (i : Nat) (t : Task) : State :=
  s.setCur r (some { c with tasks := c.tasks.map (fun ts => ts.take i ++ t :: ts.drop (i + 1)) })

def exAct (w : World) (s : State) (a : Act) : Option (Event × State) :=
  match a, s.run with
  | .start, none => some (.start, { s with run := some ⟨s.store.last w, none, none⟩ })
  | .stop, some _ => some (.stop, { s with run := none })
  | .fetch m, some r =>
    if r.fetched = none ∧ r.prev.shard = 0 ∧ r.prev.hash = 0 ∧ m = ⟨0, r.prev.seqno + 1, 0⟩ then
      some (.fetched m, { s with run := some { r with fetched := some m } }) else none
  | .take, some r =>
    match r.cur, r.fetched with
    | none, some m => some (.prepare (mcCx w m), { s with run := some ⟨m, none, some ⟨m, false, none, .shards⟩⟩ })
    | _, _ => none
  | a, some r =>
    match r.cur with
    | none => none
    | some c =>
      match a with
      | .mcPrepared =>
        if c.prepared = false then
          some (.prepared c.id, (s.write (s.store.save w c.id)).setCur r (some { c with prepared := true })) else none
      | .download =>
        match c.tasks, downloadAll w s.store (w.mcBlock c.id).tops with
        | none, some ls => some (.downloaded c.id, s.setCur r (some { c with tasks := some (ls.map newTask) }))
        | _, _ => none
      | .prep i =>
        match c.tasks.bind (fun ts => ts[i]?) with
        | some t =>
          match t.prep, t.todo with
          | none, b :: rest => some (.prepare (shardCx w c.id b), exSet s r c i { t with prep := some (b, false), todo := rest })
          | _, _ => none
        | none => none
      | .prepared i =>
        match c.tasks.bind (fun ts => ts[i]?) with
        | some t =>
          match t.prep with
          | some (b, false) => some (.prepared b, exSet (s.write (s.store.save w b)) r c i { t with prep := some (b, true) })
          | _ => none
        | none => none
      | .handle i =>
        match c.tasks.bind (fun ts => ts[i]?) with
        | some t =>
          match t.prep, t.cur with
          | some (b, true), none => some (.handle (shardCx w c.id b), exSet s r c i { t with prep := none, cur := some (b, .handling) })
          | _, _ => none
        | none => none
      | .handled i =>
        match c.tasks.bind (fun ts => ts[i]?) with
        | some t =>
          match t.cur with
          | some (b, .handling) => some (.handled b, exSet s r c i { t with cur := some (b, .joining) })
          | _ => none
        | none => none
      | .commit i =>
        match c.tasks.bind (fun ts => ts[i]?) with
        | some t =>
          match t.cur with
          | some (b, .joining) => some (.commit b, exSet (s.write (s.store.commitShard b)) r c i { t with cur := none })
          | _ => none
        | none => none
      | .mcHandle =>
        match c.tasks with
        | some ts =>
          if ts.all Task.finished = true ∧ c.prepared = true ∧ c.stage = .shards then
            some (.handle (mcCx w c.id), s.setCur r (some { c with stage := .handling })) else none
        | none => none
      | .mcHandled => if c.stage = .handling then some (.handled c.id, s.setCur r (some { c with stage := .joining })) else none
      | .mcCommit =>
        if c.stage = .joining then
          some (.commit c.id, (s.write (s.store.commitMaster c.id)).setCur r (some { c with stage := .cleaning })) else none
      | .cleanup => if c.stage = .cleaning then some (.cleanup c.id.seqno, s.setCur r none) else none
      | _ => none
  | _, _ => none

theorem exSet_eq (s : State) (r : Run) (c : McRun) (i : Nat) (t t' : Task) (h : c.tasks.bind (fun ts => ts[i]?) = some t) :
    ∃ l l', c.tasks = some (l ++ t :: l') ∧
      exSet s r c i t' = s.setCur r (some { c with tasks := some (l ++ t' :: l') }) := by
  rcases c with ⟨id, pr, tasks, st⟩
  cases tasks with
  | none => cases h
  | some ts =>
    simp only [Option.bind_some] at h
    obtain ⟨hl, ht⟩ := List.getElem?_eq_some_iff.1 h
    refine ⟨ts.take i, ts.drop (i + 1), ?_, rfl⟩
    simp only [Option.some.injEq]
    rw [← ht, List.getElem_cons_drop, List.take_append_drop]

theorem exAct_step (sv : Bool) (s s' : State) (a : Act) (e : Event) (h : exAct (exWorld sv) s a = some (e, s')) :
    Step (exWorld sv) s e s' := by
  unfold exAct at h
  split at h
  · rename_i hr; cases h; exact .start s hr
  · rename_i r hr; cases h; exact .stop s r hr
  · rename_i m r hr
    split at h
    · rename_i hc; cases h; exact .fetch s r m hr hc.1 hc.2
    · cases h
  · rename_i r hr
    split at h
    · rename_i m h1 h2; cases h; exact .take s r m hr h1 h2
    · cases h
  · rename_i r _ _ _ hr
    split at h
    · cases h
    · rename_i c hc
      split at h
      · split at h
        · rename_i hp; cases h; exact .mcPrepared s r c hr hc hp
        · cases h
      · split at h
        · rename_i ls h1 h2; cases h; exact .download s r c ls hr hc h1 h2
        · cases h
      · split at h
        · rename_i t ht
          split at h
          · rename_i b rest h1 h2
            cases h
            obtain ⟨l, l', e1, e2⟩ := exSet_eq s r c _ t { t with prep := some (b, false), todo := rest } ht
            rw [e2]
            exact .prep s r c l t l' b rest hr hc e1 h1 h2
          · cases h
        · cases h
      · split at h
        · rename_i t ht
          split at h
          · rename_i b h1
            cases h
            obtain ⟨l, l', e1, e2⟩ := exSet_eq (s.write (s.store.save (exWorld sv) b)) r c _ t { t with prep := some (b, true) } ht
            rw [e2]
            exact .prepared s r c l t l' b hr hc e1 h1
          · cases h
        · cases h
      · split at h
        · rename_i t ht
          split at h
          · rename_i b h1 h2
            cases h
            obtain ⟨l, l', e1, e2⟩ := exSet_eq s r c _ t { t with prep := none, cur := some (b, .handling) } ht
            rw [e2]
            exact .handle s r c l t l' b hr hc e1 h1 h2
          · cases h
        · cases h
      · split at h
        · rename_i t ht
          split at h
          · rename_i b h1
            cases h
            obtain ⟨l, l', e1, e2⟩ := exSet_eq s r c _ t { t with cur := some (b, .joining) } ht
            rw [e2]
            exact .handled s r c l t l' b hr hc e1 h1
          · cases h
        · cases h
      · split at h
        · rename_i t ht
          split at h
          · rename_i b h1
            cases h
            obtain ⟨l, l', e1, e2⟩ := exSet_eq (s.write (s.store.commitShard b)) r c _ t { t with cur := none } ht
            rw [e2]
            exact .commit s r c l t l' b hr hc e1 h1
          · cases h
        · cases h
      · split at h
        · rename_i ts ht
          split at h
          · rename_i hx; cases h
            exact .mcHandle s r c ts hr hc ht (by simpa using hx.1) hx.2.1 hx.2.2
          · cases h
        · cases h
      · split at h
        · rename_i hx; cases h; exact .mcHandled s r c hr hc hx
        · cases h
      · split at h
        · rename_i hx; cases h; exact .mcCommit s r c hr hc hx
        · cases h
      · split at h
        · rename_i hx; cases h; exact .cleanup s r c hr hc hx
        · cases h
      · cases h
  · cases h

def exRun (w : World) : List Act → State → List Event → Option (List Event × State)
  | [], s, tr => some (tr, s)
  | a :: as, s, tr =>
    match exAct w s a with
    | some (e, s') => exRun w as s' (e :: tr)
    | none => none

theorem exRun_exec (sv : Bool) (s0 : State) (as : List Act) (s : State) (tr : List Event) (tr' : List Event) (s' : State)
    (hx : Exec (exWorld sv) s0 tr s) (h : exRun (exWorld sv) as s tr = some (tr', s')) : Exec (exWorld sv) s0 tr' s' := by
  induction as generalizing s tr with
  | nil => cases h; exact hx
  | cons a as ih =>
    unfold exRun at h
    split at h
    · rename_i e s1 h1
      exact ih s1 _ (.step _ _ _ _ hx (exAct_step sv s s1 a e h1)) h
    · cases h

/-- One block of task `i`. -/
def exBlock (i : Nat) : List Act := [.prep i, .prepared i, .handle i, .handled i, .commit i]

/-- The node stops after the first shard block, starts again and finishes the masterchain block. -/
def exCrash : List Act :=
  [.start, .fetch ⟨0, 1, 0⟩, .take, .download, .prep 0, .prepared 0, .prep 1, .handle 0, .handled 0, .prep 0, .commit 0, .stop] ++
  [.start, .fetch ⟨0, 1, 0⟩, .take, .mcPrepared, .download] ++ exBlock 1 ++ exBlock 0 ++
  [.mcHandle, .mcHandled, .mcCommit, .cleanup]

def exResult (sv : Bool) (as : List Act) : Option (List BlockId × BlockId) :=
  (exRun (exWorld sv) as exStart []).map (fun x => ((commits x.1).reverse, x.2.store.last (exWorld sv)))

/-- Every block is committed once: block 1 of shard 1 before the stop, the others after it. -/
example : exResult true exCrash = some ([⟨1, 1, 0⟩, ⟨2, 1, 0⟩, ⟨1, 2, 0⟩, ⟨0, 1, 0⟩], ⟨0, 1, 0⟩) := by decide +kernel

/-- Finding: if the subscriber does not save blocks (no handle), `commit_shard` only warns, and the same execution
handles and commits block 1 of shard 1 twice. The hypothesis `saves` is needed. -/
example : exResult false (exCrash.take 17 ++ exBlock 1 ++ exBlock 0 ++ exBlock 0) =
    some ([⟨1, 1, 0⟩, ⟨2, 1, 0⟩, ⟨1, 1, 0⟩, ⟨1, 2, 0⟩], ⟨0, 0, 0⟩) := by decide +kernel

theorem without_saving_not_once : ∃ tr s, Exec (exWorld false) exStart tr s ∧ .lose ∉ tr ∧ ¬ (commits tr).Nodup := by
  have h : (exRun (exWorld false) (exCrash.take 17 ++ exBlock 1 ++ exBlock 0) exStart []).isSome = true := by decide +kernel
  obtain ⟨⟨tr, s⟩, hx⟩ := Option.isSome_iff_exists.1 h
  have hc : (exRun (exWorld false) (exCrash.take 17 ++ exBlock 1 ++ exBlock 0) exStart []).map
      (fun x => (decide (.lose ∉ x.1), decide (commits x.1).Nodup)) = some (true, false) := by decide +kernel
  rw [hx] at hc
  simp only [Option.map_some, Option.some.injEq, Prod.mk.injEq, decide_eq_true_eq, decide_eq_false_iff_not] at hc
  exact ⟨tr, s, exRun_exec false exStart _ exStart [] tr s .init hx, hc.1, hc.2⟩

/-- The execution above satisfies the hypotheses of the theorems. -/
example : ∃ tr s, Exec (exWorld true) exStart tr s ∧ .lose ∉ tr ∧ .stop ∈ tr ∧ s.store.last (exWorld true) = ⟨0, 1, 0⟩ ∧
    (commits tr).Nodup := by
  have h : (exRun (exWorld true) exCrash exStart []).isSome = true := by decide +kernel
  obtain ⟨⟨tr, s⟩, hx⟩ := Option.isSome_iff_exists.1 h
  have hc : (exRun (exWorld true) exCrash exStart []).map
      (fun x => (decide (.lose ∉ x.1), decide (.stop ∈ x.1), decide (x.2.store.last (exWorld true) = ⟨0, 1, 0⟩))) =
      some (true, true, true) := by decide +kernel
  rw [hx] at hc
  simp only [Option.map_some, Option.some.injEq, Prod.mk.injEq, decide_eq_true_eq] at hc
  have hex := exRun_exec true exStart _ exStart [] tr s .init hx
  exact ⟨tr, s, hex, hc.1, hc.2.1, hc.2.2, (committed_exactly_once _ ex_world exStart (ex_init true) tr s hex hc.1).1⟩

/-- A block for progress: with 31 new blocks it works, with 32 it does not. -/
def exDeep (n : Nat) : World :=
  { exWorld true with mcBlock := fun _ => ⟨false, [⟨1, n, 0⟩]⟩ }

example : (download (exDeep 31) ⟨none, []⟩ maxDepth ⟨1, 31, 0⟩).map List.length = some 31 := by decide +kernel
example : download (exDeep 32) ⟨none, []⟩ maxDepth ⟨1, 32, 0⟩ = none := by decide +kernel

end Tycho.Strider
