import Verif.AnchorCache.Updates
/-!
The switch of genesis: which genesis the mempool runs on, and how the cache is closed before a switch and cut by it.
-/
namespace Tycho.AnchorCache

/-- `GenesisInfo::overrides` and `start_round_aligned` (consensus_config_ext.rs:137-141); `overrides` is a strict order in
tycho-types, which is not in the repository. -/
structure Gen where
  overrides : Nat → Nat → Bool
  start : Nat → Nat

/-- A strict order. -/
structure Gen.Strict (e : Gen) : Prop where
  irrefl : ∀ a, e.overrides a a = false
  trans : ∀ a b c, e.overrides a b = true → e.overrides b c = true → e.overrides a c = true

/-- `StdSessionKeeper` (session_keeper.rs:13-19) with the cache of `MempoolAdapterStdImpl` (mod.rs:22-31); a session is
given by its genesis, the configuration by the genesis in it. -/
structure Keeper where
  cfg : Option Nat
  queue : Queue
  session : Option Nat
  expect : Option Nat
  cache : Cache
  deriving Repr, DecidableEq

/-- `is_some_and(|x| seqno >= x)` (session_keeper.rs:44, 83). -/
def reached (expect : Option Nat) (seqno : Nat) : Bool :=
  match expect with
  | none => false
  | some n => decide (n ≤ seqno)

/-- `check_expect_genesis_change` if there is a session (session_keeper.rs:41-64). -/
def Keeper.checkWith (k : Keeper) (e : Gen) (x : Ctx) (g : Nat) : Keeper :=
  if e.overrides x.genesis g = false then k
  else if reached k.expect x.seqno then k
  else { k with expect := some x.seqno, cache := k.cache.close (e.start x.genesis) }

/-- `check_expect_genesis_change` (session_keeper.rs:33-65). -/
def Keeper.check (k : Keeper) (e : Gen) (x : Ctx) : Keeper :=
  match k.session with
  | none => k
  | some g => k.checkWith e x g

/-- The reopening in `has_session_after_update` (session_keeper.rs:80-119). -/
def Keeper.reopenFor (k : Keeper) (e : Gen) (x : Ctx) (g : Nat) : Keeper :=
  if reached k.expect x.seqno then
    { k with expect := none, cache := (k.cache.reopen (e.overrides x.genesis g)).1 }
  else k

/-- The decision about the session (session_keeper.rs:121-157), with the start of the new one (mod.rs:73-79). -/
def Keeper.switchTo (k : Keeper) (e : Gen) (x : Ctx) (g : Nat) : Keeper :=
  if x.genesis = g then k
  else if e.overrides x.genesis g = false then k
  else { k with session := some x.genesis, cfg := some x.genesis }

/-- The genesis of the first session (session_keeper.rs:167-205): the configured one if it overrides the block's. -/
def startGenesis (e : Gen) (cfg : Option Nat) (x : Ctx) : Nat :=
  match cfg with
  | some c => if e.overrides c x.genesis then c else x.genesis
  | none => x.genesis

/-- `process_state_update` (mod.rs:60-83, session_keeper.rs:67-207). Simplified: the `ensure`s on a configured genesis and
on peer sets hold, and the session starts. -/
def Keeper.process (k : Keeper) (e : Gen) (x : Ctx) : Keeper :=
  match k.session with
  | none => { k with session := some (startGenesis e k.cfg x), cfg := some (startGenesis e k.cfg x) }
  | some g => (k.reopenFor e x g).switchTo e x g

/-- `handle_mc_state_update` (adapter_impl.rs:14-41). -/
def Keeper.update (k : Keeper) (e : Gen) (x : Ctx) : Keeper :=
  ({ k.check e x with queue := (k.queue.push x).1 } : Keeper) |> fun k' =>
    ((k.queue.push x).2.toList).foldl (fun k y => k.process e y) k'

/-- What `handle_signed_mc_block` does with the answer of the queue. -/
def Keeper.signWith (k : Keeper) (e : Gen) : Option (Queue × List Ctx) → Keeper
  | none => k
  | some (q, l) => l.foldl (fun k y => k.process e y) { k with queue := q }

/-- `handle_signed_mc_block` (adapter_impl.rs:43-52). -/
def Keeper.sign (k : Keeper) (e : Gen) (n : Nat) : Keeper := k.signWith e (k.queue.sign n)

/-- What happens to the adapter. -/
inductive KOp where
  | update (x : Ctx)
  | sign (n : Nat)
  | anchor (a : Anchor)
  | clear (before : Nat)
  deriving Repr, DecidableEq

/-- The queue's part of it. -/
def KOp.queueOp : KOp → List QOp
  | .update x => [.push x]
  | .sign n => [.sign n]
  | _ => []

/-- One operation. -/
def Keeper.step (k : Keeper) (e : Gen) : KOp → Keeper
  | .update x => k.update e x
  | .sign n => k.sign e n
  | .anchor a => { k with cache := (k.cache.push a).1 }
  | .clear b => { k with cache := k.cache.clear b }

/-- A history. -/
def Keeper.run (k : Keeper) (e : Gen) (l : List KOp) : Keeper := l.foldl (fun k a => k.step e a) k

/-- The start (session_keeper.rs:22-30), with a genesis from the global configuration perhaps. -/
def Keeper.new (cfg : Option Nat) : Keeper := ⟨cfg, .new, none, none, .new⟩

/-! ### Which genesis -/

/-- The genesis to start with at the first update `x`: the configured one when there is one and it overrides that of
the block, and otherwise that of the block. -/
def specFirst (e : Gen) (cfg : Option Nat) (x : Ctx) : Nat :=
  (cfg.filter (fun c => e.overrides c x.genesis)).getD x.genesis

/-- The genesis to run on after the given updates. -/
def specSession (e : Gen) (cfg : Option Nat) : List Ctx → Option Nat
  | [] => none
  | x :: l => some (l.foldl (fun g y => if e.overrides y.genesis g then y.genesis else g) (specFirst e cfg x))

theorem startGenesis_eq (e : Gen) (cfg : Option Nat) (x : Ctx) : startGenesis e cfg x = specFirst e cfg x := by
  cases cfg with
  | none => rfl
  | some c => by_cases h : e.overrides c x.genesis = true <;> simp [startGenesis, specFirst, Option.filter, h]

theorem specSession_snoc (e : Gen) (cfg : Option Nat) (l : List Ctx) (y : Ctx) :
    specSession e cfg (l ++ [y]) =
      match specSession e cfg l with
      | none => some (specFirst e cfg y)
      | some g => some (if e.overrides y.genesis g then y.genesis else g) := by
  cases l with
  | nil => rfl
  | cons x l => simp [specSession, List.foldl_append]

theorem reopenFor_session (k : Keeper) (e : Gen) (x : Ctx) (g : Nat) :
    (k.reopenFor e x g).session = k.session ∧ (k.reopenFor e x g).cfg = k.cfg ∧ (k.reopenFor e x g).queue = k.queue := by
  unfold Keeper.reopenFor
  split <;> exact ⟨rfl, rfl, rfl⟩

theorem process_queue (k : Keeper) (e : Gen) (x : Ctx) : (k.process e x).queue = k.queue := by
  unfold Keeper.process
  split
  · rfl
  · unfold Keeper.switchTo
    split
    · exact (reopenFor_session _ _ _ _).2.2
    · split <;> exact (reopenFor_session _ _ _ _).2.2

theorem foldl_process_queue (e : Gen) (l : List Ctx) : ∀ k : Keeper,
    (l.foldl (fun k y => k.process e y) k).queue = k.queue := by
  induction l with
  | nil => exact fun _ => rfl
  | cons x l ih => exact fun k => (ih _).trans (process_queue k e x)

theorem process_session (k : Keeper) (e : Gen) (he : e.Strict) (cfg : Option Nat) (o : List Ctx) (x : Ctx)
    (hs : k.session = specSession e cfg o) (hc : k.session = none → k.cfg = cfg) :
    (k.process e x).session = specSession e cfg (o ++ [x]) ∧ ((k.process e x).session ≠ none) := by
  rw [specSession_snoc, ← hs]
  unfold Keeper.process
  cases hk : k.session with
  | none =>
    simp only [hc hk]
    exact ⟨by rw [startGenesis_eq], by simp⟩
  | some g =>
    simp only
    unfold Keeper.switchTo
    split
    · rename_i hg
      rw [(reopenFor_session _ _ _ _).1, hk, hg, he.irrefl]
      simp
    · split
      · rename_i h1 h2
        rw [(reopenFor_session _ _ _ _).1, hk, h2]
        simp
      · rename_i h1 h2
        simp only [Bool.not_eq_false] at h2
        rw [h2]
        simp

theorem foldl_process_session (e : Gen) (he : e.Strict) (cfg : Option Nat) (l : List Ctx) : ∀ (k : Keeper) (o : List Ctx),
    k.session = specSession e cfg o → (k.session = none → k.cfg = cfg) →
    (l.foldl (fun k y => k.process e y) k).session = specSession e cfg (o ++ l) ∧
      ((l.foldl (fun k y => k.process e y) k).session = none → (l.foldl (fun k y => k.process e y) k).cfg = cfg) := by
  induction l with
  | nil => exact fun k o hs hc => ⟨by simpa using hs, hc⟩
  | cons x l ih =>
    intro k o hs hc
    obtain ⟨h1, h2⟩ := process_session k e he cfg o x hs hc
    have := ih (k.process e x) (o ++ [x]) h1 (fun h => absurd h h2)
    rw [List.append_assoc] at this
    exact this

theorem check_parts (k : Keeper) (e : Gen) (x : Ctx) :
    (k.check e x).session = k.session ∧ (k.check e x).cfg = k.cfg ∧ (k.check e x).queue = k.queue := by
  unfold Keeper.check
  split
  · exact ⟨rfl, rfl, rfl⟩
  · unfold Keeper.checkWith
    split
    · exact ⟨rfl, rfl, rfl⟩
    · split <;> exact ⟨rfl, rfl, rfl⟩

/-- The queue's history that an adapter's history makes. -/
def queueHist (l : List KOp) : Hist := Hist.new.run (l.flatMap KOp.queueOp)

theorem queueHist_snoc (l : List KOp) (a : KOp) : queueHist (l ++ [a]) = (queueHist l).run a.queueOp := by
  unfold queueHist Hist.run
  rw [List.flatMap_append, List.foldl_append]
  simp

theorem run_snoc (k : Keeper) (e : Gen) (l : List KOp) (a : KOp) : k.run e (l ++ [a]) = (k.run e l).step e a := by
  unfold Keeper.run
  rw [List.foldl_append]
  rfl

theorem snoc_induction {α : Type} {P : List α → Prop} (h0 : P []) (h1 : ∀ l a, P l → P (l ++ [a])) : ∀ l, P l := by
  intro l
  rw [← List.reverse_reverse l]
  induction l.reverse with
  | nil => exact h0
  | cons a l ih =>
    rw [List.reverse_cons]
    exact h1 _ _ ih

theorem keeper_follows (e : Gen) (he : e.Strict) (cfg : Option Nat) (l : List KOp) :
    ((Keeper.new cfg).run e l).queue = (queueHist l).q ∧
    ((Keeper.new cfg).run e l).session = specSession e cfg (queueHist l).out ∧
    (((Keeper.new cfg).run e l).session = none → ((Keeper.new cfg).run e l).cfg = cfg) := by
  induction l using snoc_induction with
  | h0 => exact ⟨rfl, rfl, fun _ => rfl⟩
  | h1 l a ih =>
    rw [run_snoc, queueHist_snoc]
    have hq := qinv_run (l.flatMap KOp.queueOp) qinv_new
    change QInv (queueHist l) at hq
    generalize (Keeper.new cfg).run e l = k at *
    generalize queueHist l = h at *
    obtain ⟨h1, h2, h3⟩ := ih
    cases a with
    | update x =>
      obtain ⟨c1, c2, c3⟩ := check_parts k e x
      have hs := foldl_process_session e he cfg ((k.queue.push x).2.toList)
        { k.check e x with queue := (k.queue.push x).1 } h.out (by simp only; rw [c1]; exact h2)
        (by simp only; rw [c1, c2]; exact h3)
      refine ⟨?_, ?_, ?_⟩
      · change Keeper.queue (List.foldl _ _ _) = (h.q.push x).1
        rw [foldl_process_queue, h1]
      · change Keeper.session (List.foldl _ _ _) = specSession e cfg (h.out ++ (h.q.push x).2.toList)
        rw [← h1]
        exact hs.1
      · exact hs.2
    | sign n =>
      have : ∃ q r, h.q.sign n = some (q, r) := by
        by_cases hn : h.q.signed < n
        · exact ⟨_, _, sign_spec hq n hn⟩
        · exact ⟨h.q, [], by unfold Queue.sign; rw [if_neg hn]⟩
      obtain ⟨q, r, hr⟩ := this
      have e1 : k.step e (.sign n) = r.foldl (fun k y => k.process e y) { k with queue := q } := by
        change k.signWith e (k.queue.sign n) = _
        rw [h1, hr]
        rfl
      have e2 : h.run (KOp.sign n).queueOp = { h with q := q, signs := h.signs ++ [n], out := h.out ++ r } := by
        simp [KOp.queueOp, Hist.run, Hist.step, hr]
      rw [e1, e2]
      have hs := foldl_process_session e he cfg r { k with queue := q } h.out h2 h3
      exact ⟨foldl_process_queue _ _ _, hs.1, hs.2⟩
    | anchor a => exact ⟨h1, h2, h3⟩
    | clear b => exact ⟨h1, h2, h3⟩

/-- **Only signed blocks decide the genesis.** After any history of updates, signatures, anchors and clean-ups, the mempool
runs on the genesis that the signed blocks it was told about give one after another: the configured or first one, replaced
by each that overrides it; without such a block it does not run. -/
theorem genesis_from_signed_blocks (e : Gen) (he : e.Strict) (cfg : Option Nat) (l : List KOp) :
    ((Keeper.new cfg).run e l).session = specSession e cfg (queueHist l).out :=
  (keeper_follows e he cfg l).2.1

/-! ### Closed while a switch is expected -/

/-- The cache is closed exactly while a switch is expected. -/
def ClosedIff (k : Keeper) : Prop := k.cache.off.isSome = k.expect.isSome

theorem reopen_off (c : Cache) (d : Bool) : (c.reopen d).1.off = none := by
  unfold Cache.reopen
  split
  · assumption
  · split <;> rfl

theorem process_closed {k : Keeper} (h : ClosedIff k) (e : Gen) (x : Ctx) : ClosedIff (k.process e x) := by
  have hr : ∀ g, ClosedIff (k.reopenFor e x g) := by
    intro g
    unfold Keeper.reopenFor
    split
    · unfold ClosedIff
      simp only [reopen_off]
      try rfl
    · exact h
  unfold Keeper.process
  split
  · exact h
  · rename_i g _
    unfold Keeper.switchTo
    split
    · exact hr g
    · split <;> exact hr g

theorem foldl_closed (e : Gen) (l : List Ctx) : ∀ {k : Keeper}, ClosedIff k →
    ClosedIff (l.foldl (fun k y => k.process e y) k) := by
  induction l with
  | nil => exact fun h => h
  | cons x l ih => exact fun h => ih (process_closed h e x)

theorem check_closed {k : Keeper} (h : ClosedIff k) (e : Gen) (x : Ctx) : ClosedIff (k.check e x) := by
  unfold Keeper.check
  split
  · exact h
  · unfold Keeper.checkWith
    split
    · exact h
    · split
      · exact h
      · rfl

theorem push_off (c : Cache) (a : Anchor) : (c.push a).1.off = c.off := by
  unfold Cache.push
  split <;> rfl

theorem step_closed {k : Keeper} (h : ClosedIff k) (e : Gen) (a : KOp) : ClosedIff (k.step e a) := by
  cases a with
  | update x =>
    exact foldl_closed e _ (show ClosedIff { k.check e x with queue := (k.queue.push x).1 } from check_closed h e x)
  | sign n =>
    change ClosedIff (k.signWith e (k.queue.sign n))
    unfold Keeper.signWith
    split
    · exact h
    · rename_i q l _
      exact foldl_closed e _ (show ClosedIff { k with queue := q } from h)
  | anchor a =>
    unfold ClosedIff
    simp only [Keeper.step, push_off]
    exact h
  | clear b => exact h

/-- **The cache is closed exactly while a switch of genesis is expected**, after any history: it is never left closed with
nothing to open it, and the first signed block at or above the expected seqno opens it. -/
theorem closed_iff_expected (e : Gen) (cfg : Option Nat) (l : List KOp) :
    ((Keeper.new cfg).run e l).cache.off.isSome = ((Keeper.new cfg).run e l).expect.isSome ∧
      ∀ x g n, ((Keeper.new cfg).run e l).session = some g → ((Keeper.new cfg).run e l).expect = some n → n ≤ x.seqno →
        (((Keeper.new cfg).run e l).process e x).cache.off = none := by
  have h : ClosedIff ((Keeper.new cfg).run e l) := by
    induction l using snoc_induction with
    | h0 => rfl
    | h1 l a ih => rw [run_snoc]; exact step_closed ih e a
  refine ⟨h, fun x g n hs hx hn => ?_⟩
  generalize (Keeper.new cfg).run e l = k at *
  have hr : (k.reopenFor e x g).cache.off = none := by
    unfold Keeper.reopenFor
    rw [if_pos (by rw [hx]; exact decide_eq_true hn)]
    exact reopen_off _ _
  unfold Keeper.process
  rw [hs]
  simp only
  unfold Keeper.switchTo
  split
  · exact hr
  · split <;> exact hr

/-! ### The cut at a switch -/

/-- What the collator keeps to while a session runs: it does not change its mind about a new genesis that waits for its
signature (neither for the same block nor in favour of yet another one), and does not come back to blocks already told. -/
def KOp.ok (e : Gen) (k : Keeper) : KOp → Prop
  | .update x => ∀ g, k.session = some g →
      (e.overrides x.genesis g = true → k.queue.drained < x.seqno ∧
        ∀ y ∈ k.queue.unsigned, e.overrides y.genesis g = true → y.genesis = x.genesis) ∧
      ∀ y ∈ k.queue.unsigned, y.seqno = x.seqno → e.overrides y.genesis g = true → x.genesis = y.genesis
  | .anchor a => (∃ b ∈ k.cache.anchors, b.id = a.id) ∨ ∀ b ∈ k.cache.anchors, b.id < a.id
  | _ => True

/-- A history of such operations. -/
def keeperOk (e : Gen) (k : Keeper) : List KOp → Prop
  | [] => True
  | a :: l => a.ok e k ∧ keeperOk e (k.step e a) l

/-- Pending updates, the expectation and the closing point agree. -/
def Agree (e : Gen) (pending : List Ctx) (g : Nat) (k : Keeper) : Prop :=
  k.session = some g ∧
    ((k.expect = none ∧ k.cache.off = none ∧ ∀ y ∈ pending, e.overrides y.genesis g = false) ∨
      ∃ u ∈ pending, k.expect = some u.seqno ∧ e.overrides u.genesis g = true ∧
        k.cache.off = some (e.start u.genesis) ∧
        ∀ y ∈ pending, e.overrides y.genesis g = true → u.seqno ≤ y.seqno ∧ y.genesis = u.genesis)

theorem cut_eq {c : Cache} (h : Ordered c.anchors) (x : Nat) (hx : c.off = some x) :
    (c.reopen true).1.anchors = c.anchors.filter (fun a => decide (a.id ≤ x)) :=
  (closed_hides_the_rest c h x hx (.byId 0)).2.2.1

/-- One update is processed. -/
theorem agree_process {e : Gen} (he : e.Strict) {x : Ctx} {rest : List Ctx} {g : Nat} {k : Keeper} (hasc : Asc (x :: rest))
    (hord : Ordered k.cache.anchors) (h : Agree e (x :: rest) g k) :
    (Agree e rest g (k.process e x) ∧ (k.process e x).cache.anchors = k.cache.anchors ∧ e.overrides x.genesis g = false) ∨
      (Agree e rest x.genesis (k.process e x) ∧ e.overrides x.genesis g = true ∧ (k.process e x).expect = none ∧
        (k.process e x).cache.anchors = k.cache.anchors.filter (fun a => decide (a.id ≤ e.start x.genesis))) := by
  obtain ⟨hs, hcase⟩ := h
  obtain ⟨ha1, ha2⟩ := List.pairwise_cons.1 hasc
  have hstay : reached k.expect x.seqno = false → e.overrides x.genesis g = false → k.process e x = k := by
    intro h1 h2
    unfold Keeper.process
    rw [hs]
    simp only
    unfold Keeper.reopenFor
    rw [h1]
    unfold Keeper.switchTo
    simp [h2]
  rcases hcase with ⟨h1, h2, h3⟩ | ⟨u, hu, h1, h2, h3, h4⟩
  · have hx := h3 x List.mem_cons_self
    have := hstay (by rw [h1]; rfl) hx
    rw [this]
    exact Or.inl ⟨⟨hs, Or.inl ⟨h1, h2, fun y hy => h3 y (List.mem_cons_of_mem _ hy)⟩⟩, rfl, hx⟩
  · rcases List.mem_cons.1 hu with hux | hu'
    · subst hux
      right
      have hne : u.genesis ≠ g := by
        intro hh
        rw [hh, he.irrefl] at h2
        cases h2
      have e1 : k.process e u =
          { k with
            expect := none
            cache := (k.cache.reopen true).1
            session := some u.genesis
            cfg := some u.genesis } := by
        unfold Keeper.process
        rw [hs]
        simp only
        unfold Keeper.reopenFor
        rw [h1, h2]
        simp only [reached, Nat.le_refl, decide_true, if_true]
        unfold Keeper.switchTo
        rw [if_neg hne, h2]
        simp
      rw [e1]
      refine ⟨⟨rfl, Or.inl ⟨rfl, reopen_off _ _, ?_⟩⟩, h2, rfl, cut_eq hord _ h3⟩
      intro y hy
      by_contra hc
      simp only [Bool.not_eq_false] at hc
      have := (h4 y (List.mem_cons_of_mem _ hy) (he.trans _ _ _ hc h2)).2
      rw [this, he.irrefl] at hc
      cases hc
    · left
      have hlt := ha1 u hu'
      have hx : e.overrides x.genesis g = false := by
        by_contra hc
        simp only [Bool.not_eq_false] at hc
        have := (h4 x List.mem_cons_self hc).1
        omega
      have := hstay (by rw [h1]; exact decide_eq_false (by omega)) hx
      rw [this]
      exact ⟨⟨hs, Or.inr ⟨u, hu', h1, h2, h3, fun y hy => h4 y (List.mem_cons_of_mem _ hy)⟩⟩, rfl, hx⟩

/-- What an operation may do to the session and the cache: nothing, or a switch with a cut. -/
def SwitchOrStay (e : Gen) (k k' : Keeper) : Prop :=
  (k'.session = k.session ∧ k'.cache.anchors = k.cache.anchors) ∨
    ∃ g g', k.session = some g ∧ k'.session = some g' ∧ e.overrides g' g = true ∧ k'.cache.off = none ∧
      k'.cache.anchors = k.cache.anchors.filter (fun a => decide (a.id ≤ e.start g'))

theorem agree_foldl {e : Gen} (he : e.Strict) (l : List Ctx) : ∀ {rest : List Ctx} {g : Nat} {k : Keeper}, Asc (l ++ rest) →
    Ordered k.cache.anchors → Agree e (l ++ rest) g k →
    SwitchOrStay e k (l.foldl (fun k y => k.process e y) k) ∧
      ∃ g', Agree e rest g' (l.foldl (fun k y => k.process e y) k) := by
  induction l with
  | nil => exact fun _ _ h => ⟨Or.inl ⟨rfl, rfl⟩, _, h⟩
  | cons x l ih =>
    intro rest g k hasc hord h
    have hasc' : Asc (l ++ rest) := (List.pairwise_cons.1 hasc).2
    rcases agree_process he hasc hord h with ⟨h1, h2, h3⟩ | ⟨h1, h2, h3, h4⟩
    · have hord' : Ordered (k.process e x).cache.anchors := by rw [h2]; exact hord
      obtain ⟨i1, i2⟩ := ih hasc' hord' h1
      refine ⟨?_, i2⟩
      change SwitchOrStay e k (l.foldl (fun k y => k.process e y) (k.process e x))
      rcases i1 with ⟨j1, j2⟩ | ⟨g0, g', j1, j2, j3, j4, j5⟩
      · exact Or.inl ⟨by rw [j1, h1.1, h.1], by rw [j2, h2]⟩
      · rw [h1.1] at j1
        injection j1 with j1
        exact Or.inr ⟨g, g', h.1, j2, j1 ▸ j3, j4, by rw [j5, h2]⟩
    · have hord' : Ordered (k.process e x).cache.anchors := by rw [h4]; exact hord.sub List.filter_sublist
      obtain ⟨i1, g', i2⟩ := ih hasc' hord' h1
      have hnone : ∀ y ∈ l ++ rest, e.overrides y.genesis x.genesis = false := by
        rcases h1.2 with ⟨_, _, q⟩ | ⟨u, _, q, _⟩
        · exact q
        · rw [h3] at q; cases q
      have hoff : (k.process e x).cache.off = none := by
        rcases h1.2 with ⟨_, q, _⟩ | ⟨u, _, q, _⟩
        · exact q
        · rw [h3] at q; cases q
      have hrest : ∀ (m : List Ctx) (k' : Keeper), (∀ y ∈ m, e.overrides y.genesis x.genesis = false) →
          k'.session = some x.genesis → k'.expect = none → m.foldl (fun k y => k.process e y) k' = k' := by
        intro m
        induction m with
        | nil => exact fun _ _ _ _ => rfl
        | cons y m ihm =>
          intro k' hm q1 q2
          have : k'.process e y = k' := by
            unfold Keeper.process
            rw [q1]
            simp only
            unfold Keeper.reopenFor
            rw [q2]
            simp only [reached, Bool.false_eq_true, if_false]
            unfold Keeper.switchTo
            simp [hm y List.mem_cons_self]
          simp only [List.foldl_cons]
          rw [this]
          exact ihm k' (fun z hz => hm z (List.mem_cons_of_mem _ hz)) q1 q2
      have hfin := hrest l (k.process e x) (fun y hy => hnone y (List.mem_append_left _ hy)) h1.1 h3
      refine ⟨?_, g', i2⟩
      change SwitchOrStay e k (l.foldl (fun k y => k.process e y) (k.process e x))
      rw [hfin]
      exact Or.inr ⟨g, x.genesis, h.1, h1.1, h2, hoff, h4⟩

/-- What holds between operations. -/
structure KInv (e : Gen) (k : Keeper) : Prop where
  asc : Asc k.queue.unsigned
  above : ∀ y ∈ k.queue.unsigned, k.queue.signed < y.seqno
  drained : k.queue.drained ≤ k.queue.signed
  ord : Ordered k.cache.anchors
  agree : ∃ g, Agree e k.queue.unsigned g k

/-- After the check, the update may be pending. -/
theorem agree_check {e : Gen} (he : e.Strict) {k : Keeper} {g : Nat} (x : Ctx) (hasc : Asc k.queue.unsigned)
    (h : Agree e k.queue.unsigned g k) (hok : (KOp.update x).ok e k) (hd : k.queue.drained < x.seqno) :
    Agree e (insertCtx x k.queue.unsigned) g (k.check e x) := by
  obtain ⟨hs, hcase⟩ := h
  obtain ⟨ok1, ok2⟩ := hok g hs
  refine ⟨by rw [(check_parts k e x).1]; exact hs, ?_⟩
  unfold Keeper.check
  rw [hs]
  simp only
  unfold Keeper.checkWith
  by_cases hov : e.overrides x.genesis g = true
  · rw [if_neg (by simp [hov])]
    right
    by_cases hr : reached k.expect x.seqno = true
    · rw [if_pos hr]
      rcases hcase with ⟨h1, h2, h3⟩ | ⟨u, hu, h1, h2, h3, h4⟩
      · rw [h1] at hr; cases hr
      · rw [h1] at hr
        have hle : u.seqno ≤ x.seqno := of_decide_eq_true hr
        have hG : u.genesis = x.genesis := (ok1 hov).2 u hu h2
        by_cases heq : u.seqno = x.seqno
        · refine ⟨x, (mem_insertCtx hasc x x).2 (Or.inl rfl), by rw [h1, heq], hov, by rw [h3, hG], ?_⟩
          intro y hy hyo
          rcases (mem_insertCtx hasc x y).1 hy with q | ⟨q, _⟩
          · exact ⟨q ▸ Nat.le_refl _, by rw [q]⟩
          · have := h4 y q hyo
            exact ⟨by omega, this.2.trans hG⟩
        · refine ⟨u, (mem_insertCtx hasc x u).2 (Or.inr ⟨hu, heq⟩), h1, h2, h3, ?_⟩
          intro y hy hyo
          rcases (mem_insertCtx hasc x y).1 hy with q | ⟨q, _⟩
          · exact ⟨by rw [q]; exact hle, by rw [q, hG]⟩
          · exact h4 y q hyo
    · rw [if_neg hr]
      refine ⟨x, (mem_insertCtx hasc x x).2 (Or.inl rfl), rfl, hov, rfl, ?_⟩
      intro y hy hyo
      rcases (mem_insertCtx hasc x y).1 hy with q | ⟨q, _⟩
      · exact ⟨q ▸ Nat.le_refl _, by rw [q]⟩
      · refine ⟨?_, (ok1 hov).2 y q hyo⟩
        rcases hcase with ⟨h1, h2, h3⟩ | ⟨u, hu, h1, h2, h3, h4⟩
        · have := h3 y q; rw [this] at hyo; cases hyo
        · have := (h4 y q hyo).1
          rw [h1] at hr
          have : ¬ u.seqno ≤ x.seqno := fun hh => hr (decide_eq_true hh)
          omega
  · simp only [Bool.not_eq_true] at hov
    rw [if_pos hov]
    rcases hcase with ⟨h1, h2, h3⟩ | ⟨u, hu, h1, h2, h3, h4⟩
    · left
      refine ⟨h1, h2, ?_⟩
      intro y hy
      rcases (mem_insertCtx hasc x y).1 hy with q | ⟨q, _⟩
      · rw [q]; exact hov
      · exact h3 y q
    · right
      have hne : u.seqno ≠ x.seqno := by
        intro hh
        have := ok2 u hu hh h2
        rw [this, h2] at hov
        cases hov
      refine ⟨u, (mem_insertCtx hasc x u).2 (Or.inr ⟨hu, hne⟩), h1, h2, h3, ?_⟩
      intro y hy hyo
      rcases (mem_insertCtx hasc x y).1 hy with q | ⟨q, _⟩
      · rw [q, hov] at hyo; cases hyo
      · exact h4 y q hyo

theorem check_anchors (k : Keeper) (e : Gen) (x : Ctx) : (k.check e x).cache.anchors = k.cache.anchors := by
  unfold Keeper.check
  split
  · rfl
  · unfold Keeper.checkWith
    split
    · rfl
    · split <;> rfl

theorem insertCtx_front {x : Ctx} {l : List Ctx} (h : ∀ y ∈ l, x.seqno < y.seqno) : insertCtx x l = x :: l := by
  cases l with
  | nil => rfl
  | cons z l => unfold insertCtx; rw [if_pos (h z List.mem_cons_self)]

theorem filter_le_split {l : List Ctx} (h : Asc l) (n : Nat) :
    l = l.filter (fun x => decide (x.seqno ≤ n)) ++ l.filter (fun x => !decide (x.seqno ≤ n)) := by
  induction l with
  | nil => rfl
  | cons x l ih =>
    obtain ⟨h1, h2⟩ := List.pairwise_cons.1 h
    rw [List.filter_cons, List.filter_cons]
    by_cases hx : x.seqno ≤ n
    · simp only [decide_eq_true hx, if_true, Bool.not_true, Bool.false_eq_true, if_false, List.cons_append]
      rw [← ih h2]
    · simp only [decide_eq_false hx, Bool.false_eq_true, if_false, Bool.not_false, if_true]
      have e1 : l.filter (fun x => decide (x.seqno ≤ n)) = [] := by
        rw [List.filter_eq_nil_iff]
        intro y hy
        have := h1 y hy
        simp only [decide_eq_true_eq]; omega
      have e2 := ih h2
      rw [e1] at e2 ⊢
      rw [List.nil_append] at e2 ⊢
      rw [← e2]

/-- One operation. -/
theorem kinv_step {e : Gen} (he : e.Strict) {k : Keeper} (h : KInv e k) (a : KOp) (hok : a.ok e k) :
    KInv e (k.step e a) ∧ ((∀ b, a ≠ .anchor b) → (∀ b, a ≠ .clear b) → SwitchOrStay e k (k.step e a)) := by
  obtain ⟨g, hg⟩ := h.agree
  cases a with
  | update x =>
    obtain ⟨c1, c2, c3⟩ := check_parts k e x
    have hca := check_anchors k e x
    have hord : Ordered (k.check e x).cache.anchors := by rw [hca]; exact h.ord
    -- the update is stale or returned again
    have hstale : x.seqno ≤ k.queue.drained → k.check e x = k := by
      intro hle
      unfold Keeper.check
      rw [hg.1]
      simp only
      unfold Keeper.checkWith
      by_cases hov : e.overrides x.genesis g = true
      · have := ((hok g hg.1).1 hov).1
        omega
      · simp only [Bool.not_eq_true] at hov
        rw [if_pos hov]
    have hzero : x.seqno ≤ k.queue.drained → k.process e x = k := by
      intro hle
      have hov : e.overrides x.genesis g = false := by
        by_contra hc
        simp only [Bool.not_eq_false] at hc
        have := ((hok g hg.1).1 hc).1
        omega
      have hr : reached k.expect x.seqno = false := by
        rcases hg.2 with ⟨h1, _⟩ | ⟨u, hu, h1, _⟩
        · rw [h1]; rfl
        · rw [h1]
          have := h.above u hu
          have := h.drained
          exact decide_eq_false (by omega)
      unfold Keeper.process
      rw [hg.1]
      simp only
      unfold Keeper.reopenFor
      rw [hr]
      unfold Keeper.switchTo
      simp [hov]
    change KInv e (List.foldl _ { k.check e x with queue := (k.queue.push x).1 } (k.queue.push x).2.toList) ∧
      (_ → _ → SwitchOrStay e k (List.foldl _ { k.check e x with queue := (k.queue.push x).1 } (k.queue.push x).2.toList))
    unfold Queue.push
    split
    · rename_i h1
      simp only [Option.toList_none, List.foldl_nil]
      rw [hstale (by omega)]
      exact ⟨h, fun _ _ => Or.inl ⟨rfl, rfl⟩⟩
    · split
      · rename_i h1 h2
        simp only
        rw [hstale (by omega)]
        split
        · simp only [Option.toList_some, List.foldl_cons, List.foldl_nil]
          have : ({ k with queue := k.queue } : Keeper) = k := rfl
          rw [this, hzero (by omega)]
          exact ⟨h, fun _ _ => Or.inl ⟨rfl, rfl⟩⟩
        · exact ⟨h, fun _ _ => Or.inl ⟨rfl, rfl⟩⟩
      · rename_i h1 h2
        have hagree := agree_check he x h.asc hg hok (by omega)
        split
        · rename_i h3
          have hfront : insertCtx x k.queue.unsigned = x :: k.queue.unsigned :=
            insertCtx_front (fun y hy => by have := h.above y hy; omega)
          rw [hfront] at hagree
          have hasc : Asc (x :: k.queue.unsigned) :=
            List.pairwise_cons.2 ⟨fun y hy => by have := h.above y hy; omega, h.asc⟩
          have hagree' : Agree e ([x] ++ k.queue.unsigned) g
              { k.check e x with queue := { k.queue with drained := x.seqno } } := hagree
          obtain ⟨i1, g', i2⟩ := agree_foldl he [x] hasc (k := { k.check e x with queue := { k.queue with drained := x.seqno } })
            hord hagree'
          simp only [Option.toList_some]
          have hq := foldl_process_queue e [x] { k.check e x with queue := { k.queue with drained := x.seqno } }
          have hsw : SwitchOrStay e k (List.foldl (fun k y => k.process e y)
              { k.check e x with queue := { k.queue with drained := x.seqno } } [x]) := by
            rcases i1 with ⟨j1, j2⟩ | ⟨g0, g1, j1, j2, j3, j4, j5⟩
            · exact Or.inl ⟨j1.trans c1, j2.trans hca⟩
            · exact Or.inr ⟨g0, g1, by rw [← c1]; exact j1, j2, j3, j4, by rw [← hca]; exact j5⟩
          refine ⟨⟨?_, ?_, ?_, ?_, g', ?_⟩, fun _ _ => hsw⟩
          · rw [hq]; exact h.asc
          · rw [hq]; exact h.above
          · rw [hq]; exact h3
          · rcases hsw with ⟨_, j⟩ | ⟨_, _, _, _, _, _, j⟩
            · rw [j]; exact h.ord
            · rw [j]; exact h.ord.sub List.filter_sublist
          · rw [hq]; exact i2
        · rename_i h3
          simp only [Option.toList_none, List.foldl_nil]
          refine ⟨⟨asc_insertCtx h.asc x, ?_, h.drained, hord, g, hagree⟩, fun _ _ => Or.inl ⟨c1, hca⟩⟩
          intro y hy
          rcases (mem_insertCtx h.asc x y).1 hy with q | ⟨q, _⟩
          · rw [q]; simp only; omega
          · exact h.above y q
  | sign n =>
    by_cases hn : k.queue.signed < n
    · have hsp : k.queue.sign n = some (⟨k.queue.unsigned.filter (fun x => !decide (x.seqno ≤ n)),
          lastSeqno k.queue.drained (k.queue.unsigned.filter (fun x => decide (x.seqno ≤ n))), n⟩,
          k.queue.unsigned.filter (fun x => decide (x.seqno ≤ n))) := by
        unfold Queue.sign
        rw [if_pos hn]
        unfold Queue.drain
        have hd := h.drained
        simp only
        rw [if_neg (by omega), if_neg (by omega), if_pos]
        unfold firstOk
        split
        · rfl
        · rename_i x l hx
          have : x ∈ k.queue.unsigned := (List.mem_filter.1 (hx ▸ List.mem_cons_self : x ∈ k.queue.unsigned.filter _)).1
          have := h.above x this
          exact decide_eq_true (by omega)
      have hst : k.step e (.sign n) = (k.queue.unsigned.filter (fun x => decide (x.seqno ≤ n))).foldl
          (fun k y => k.process e y)
          { k with queue := ⟨k.queue.unsigned.filter (fun x => !decide (x.seqno ≤ n)),
            lastSeqno k.queue.drained (k.queue.unsigned.filter (fun x => decide (x.seqno ≤ n))), n⟩ } := by
        change k.signWith e (k.queue.sign n) = _
        rw [hsp]
        rfl
      rw [hst]
      have hsplit := filter_le_split h.asc n
      have hagree : Agree e (k.queue.unsigned.filter (fun x => decide (x.seqno ≤ n)) ++
          k.queue.unsigned.filter (fun x => !decide (x.seqno ≤ n))) g
          { k with queue := ⟨k.queue.unsigned.filter (fun x => !decide (x.seqno ≤ n)),
            lastSeqno k.queue.drained (k.queue.unsigned.filter (fun x => decide (x.seqno ≤ n))), n⟩ } := by
        rw [← hsplit]; exact hg
      obtain ⟨i1, g', i2⟩ := agree_foldl he _ (by rw [← hsplit]; exact h.asc)
        (k := { k with queue := ⟨k.queue.unsigned.filter (fun x => !decide (x.seqno ≤ n)),
            lastSeqno k.queue.drained (k.queue.unsigned.filter (fun x => decide (x.seqno ≤ n))), n⟩ }) h.ord hagree
      refine ⟨⟨?_, ?_, ?_, ?_, g', ?_⟩, fun _ _ => i1⟩
      · rw [foldl_process_queue]; exact h.asc.sublist List.filter_sublist
      · rw [foldl_process_queue]
        intro y hy
        have := (List.mem_filter.1 hy).2
        simpa using this
      · rw [foldl_process_queue]
        have hd := h.drained
        rcases lastSeqno_cases k.queue.drained (k.queue.unsigned.filter (fun x => decide (x.seqno ≤ n))) with ⟨_, q⟩ | ⟨x, hx, _, q⟩
        · simp only; rw [q]; omega
        · simp only; rw [q]
          have := (List.mem_filter.1 hx).2
          simpa using this
      · rcases i1 with ⟨_, j⟩ | ⟨_, _, _, _, _, _, j⟩
        · rw [j]; exact h.ord
        · rw [j]; exact h.ord.sub List.filter_sublist
      · rw [foldl_process_queue]; exact i2
    · have : k.step e (.sign n) = k := by
        change k.signWith e (k.queue.sign n) = _
        unfold Queue.sign
        rw [if_neg hn]
        rfl
      rw [this]
      exact ⟨h, fun _ _ => Or.inl ⟨rfl, rfl⟩⟩
  | anchor a =>
    refine ⟨⟨h.asc, h.above, h.drained, push_ordered h.ord a hok, g, hg.1, ?_⟩, fun hh => absurd rfl (hh a)⟩
    have : (k.step e (.anchor a)).cache.off = k.cache.off := push_off _ _
    rw [this]
    exact hg.2
  | clear b =>
    exact ⟨⟨h.asc, h.above, h.drained, h.ord.sub (List.drop_sublist _ _), g, hg⟩, fun _ hh => absurd rfl (hh b)⟩

/-- An adapter with a session that has just started: nothing is pending, the cache is open. -/
def Keeper.started (g signed drained : Nat) : Keeper := ⟨some g, ⟨[], drained, signed⟩, some g, none, .new⟩

theorem kinv_run {e : Gen} (he : e.Strict) (l : List KOp) : ∀ {k : Keeper}, KInv e k → keeperOk e k l → KInv e (k.run e l) := by
  induction l with
  | nil => exact fun h _ => h
  | cons a l ih => exact fun h hok => ih (kinv_step he h a hok.1).1 hok.2

theorem kinv_started (e : Gen) (g s d : Nat) (h : d ≤ s) : KInv e (.started g s d) :=
  ⟨List.Pairwise.nil, fun _ hy => (List.not_mem_nil hy).elim, h, List.Pairwise.nil, g, rfl,
    Or.inl ⟨rfl, rfl, fun _ hy => (List.not_mem_nil hy).elim⟩⟩

/-- **Nothing of the old genesis after the new start is given out once a switch is known.** After any history in which the
collator keeps its mind: the cache is closed exactly if an update that is not signed yet overrides the running genesis, and
then at the start round of that genesis. -/
theorem closed_at_the_new_start (e : Gen) (he : e.Strict) (g s d : Nat) (hd : d ≤ s) (l : List KOp)
    (hok : keeperOk e (.started g s d) l) :
    ∃ g', ((Keeper.started g s d).run e l).session = some g' ∧
      ((((Keeper.started g s d).run e l).cache.off = none ∧
          ∀ y ∈ ((Keeper.started g s d).run e l).queue.unsigned, e.overrides y.genesis g' = false) ∨
        ∃ u ∈ ((Keeper.started g s d).run e l).queue.unsigned, e.overrides u.genesis g' = true ∧
          ((Keeper.started g s d).run e l).cache.off = some (e.start u.genesis) ∧
          ∀ y ∈ ((Keeper.started g s d).run e l).queue.unsigned, e.overrides y.genesis g' = true →
            y.genesis = u.genesis) := by
  obtain ⟨g', h1, h2⟩ := (kinv_run he l (kinv_started e g s d hd) hok).agree
  refine ⟨g', h1, ?_⟩
  rcases h2 with ⟨_, q1, q2⟩ | ⟨u, hu, _, q1, q2, q3⟩
  · exact Or.inl ⟨q1, q2⟩
  · exact Or.inr ⟨u, hu, q1, q2, fun y hy hyo => (q3 y hy hyo).2⟩

/-- **A switch drops the old future and nothing else.** After any such history, an update or a signature either changes
neither the session nor the anchors, or it switches to a genesis that overrides the running one, opens the cache and leaves
in it exactly the anchors up to the start of that genesis. -/
theorem switch_drops_the_old_future (e : Gen) (he : e.Strict) (g s d : Nat) (hd : d ≤ s) (l : List KOp) (a : KOp)
    (hok : keeperOk e (.started g s d) l) (hop : a.ok e ((Keeper.started g s d).run e l))
    (ha : (∃ x, a = .update x) ∨ ∃ n, a = .sign n) :
    ((((Keeper.started g s d).run e l).step e a).session = ((Keeper.started g s d).run e l).session ∧
      (((Keeper.started g s d).run e l).step e a).cache.anchors = ((Keeper.started g s d).run e l).cache.anchors) ∨
    ∃ g0 g', ((Keeper.started g s d).run e l).session = some g0 ∧
      (((Keeper.started g s d).run e l).step e a).session = some g' ∧ e.overrides g' g0 = true ∧
      (((Keeper.started g s d).run e l).step e a).cache.off = none ∧
      (((Keeper.started g s d).run e l).step e a).cache.anchors =
        ((Keeper.started g s d).run e l).cache.anchors.filter (fun b => decide (b.id ≤ e.start g')) := by
  have h := (kinv_step he (kinv_run he l (kinv_started e g s d hd) hok) a hop).2
  refine h ?_ ?_ <;> rcases ha with ⟨x, rfl⟩ | ⟨n, rfl⟩ <;> intro b hb <;> cases hb

end Tycho.AnchorCache
