import Verif.Archives.Props

/-! Concrete histories: an executable form of the steps, and runs which reach the hypotheses of the theorems and the findings. -/
namespace Tycho.Archives

inductive Act where
  | start
  | prepare (b : Nat)
  | write (b : Nat)
  | spawn
  | read
  | store
  | finish
  | next
  | gcMem (u : Nat)
  | gcEvents
  | gcCas
  | crash
deriving DecidableEq, Repr

def settled (d : Disk) (m : Mem) (a : Nat) : Bool := d.ev.commit a && !decide (a ∈ m.queue) && (match m.task with
  | some (b, _) => !decide (b = a)
  | none => true)

theorem settled_spec {d : Disk} {m : Mem} {a : Nat} (h : settled d m a = true) : Settled d m a := by
  simp only [settled, Bool.and_eq_true, Bool.not_eq_true', decide_eq_false_iff_not] at h
  obtain ⟨⟨h1, h2⟩, h3⟩ := h
  refine ⟨h1, h2, fun p hp => ?_⟩
  rw [hp] at h3
  simp at h3

/-- one step -/
def act (w : World) (s : State) (x : Act) : Option State :=
  match s.mem, x with
  | none, .start => (recover s.disk w.top s.low).map (fun m => { s with mem := some m })
  | none, _ => none
  | some m, .prepare b =>
    if b ∈ w.blocks s.n ∧ (∀ c ∈ m.calls, c.blk ≠ b) ∧ b ∉ m.done then some { s with mem := some (m.prepare s.n (w.key s.n) b) } else none
  | some m, .write b => (m.calls.find? (fun c => decide (c.blk = b))).map (fun c => { s with mem := some (m.wrote c), disk := s.disk.write c })
  | some m, .spawn =>
    match m.queue, m.task with
    | a :: q, none => some { s with mem := some (m.spawn s.disk a q) }
    | _, _ => none
  | some m, .read =>
    match m.task with
    | some (a, .begun) => if s.disk.ids a ≠ [] then some { s with mem := some { m with task := some (a, .read (s.disk.ids a)) } } else none
    | _ => none
  | some m, .store =>
    match m.task with
    | some (a, .read l) => some { s with mem := some { m with task := some (a, .stored) }, disk := { s.disk with cas := upd s.disk.cas a (some (entries l)) } }
    | _ => none
  | some m, .finish =>
    match m.task with
    | some (a, .stored) => some { s with mem := some { m with task := none }, disk := s.disk.finish a }
    | _ => none
  | some m, .next =>
    if m.calls = [] ∧ m.queue = [] ∧ (∀ b ∈ w.blocks s.n, b ∈ m.done) ∧ s.n + 1 < w.top then
      some { s with n := s.n + 1, mem := some { m with done := [], fresh := none } } else none
  | some m, .gcMem u =>
    match gcFrom m.items u with
    | none => none
    | some t =>
      if m.gc = none ∧ (∃ a < t, m.items a = true) ∧ (∀ a < t, m.items a = true → settled s.disk m a = true) then
        some { s with mem := some { m with items := fun a => if a < t then false else m.items a, gc := some (.events t), low := t } } else none
  | some m, .gcEvents =>
    match m.gc with
    | some (.events t) => some { s with mem := some { m with gc := some (.cas t) }, disk := { s.disk with ev := s.disk.ev.drop t }, low := t }
    | _ => none
  | some m, .gcCas =>
    match m.gc with
    | some (.cas t) => some { s with mem := some { m with gc := none }, disk := { s.disk with cas := fun a => if a < t then none else s.disk.cas a } }
    | _ => none
  | some m, .crash => some { s with mem := none, gap := s.gap || m.half }
  | some _, .start => none

theorem act_step {w : World} {s s' : State} {x : Act} (h : act w s x = some s') : Step w s s' := by
  unfold act at h
  split at h
  · rename_i hm
    obtain ⟨m, h1, rfl⟩ := Option.map_eq_some_iff.1 h
    exact .start hm h1
  · cases h
  · rename_i m b hm
    split at h
    · rename_i hc; cases h; exact .prepare hm hc.1 hc.2.1 hc.2.2
    · cases h
  · rename_i m b hm
    obtain ⟨c, h1, rfl⟩ := Option.map_eq_some_iff.1 h
    exact .write hm (List.mem_of_find?_eq_some h1)
  · rename_i m hm
    split at h
    · rename_i a q hq ht; cases h; exact .spawn hm hq ht
    · cases h
  · rename_i m hm
    split at h
    · rename_i a ht
      split at h
      · rename_i hne; cases h; exact .read hm ht hne
      · cases h
    · cases h
  · rename_i m hm
    split at h
    · rename_i a l ht; cases h; exact .store hm ht
    · cases h
  · rename_i m hm
    split at h
    · rename_i a ht; cases h; exact .finish hm ht
    · cases h
  · rename_i m hm
    split at h
    · rename_i hc; cases h; exact .next hm hc.1 hc.2.1 hc.2.2.1 hc.2.2.2
    · cases h
  · rename_i m u hm
    split at h
    · cases h
    · rename_i t hf
      split at h
      · rename_i hc; cases h
        exact .gcMem u hm hc.1 hf hc.2.1 (fun a h1 h2 => settled_spec (hc.2.2 a h1 h2))
      · cases h
  · rename_i m hm
    split at h
    · rename_i t hg; cases h; exact .gcEvents hm hg
    · cases h
  · rename_i m hm
    split at h
    · rename_i t hg; cases h; exact .gcCas hm hg
    · cases h
  · rename_i m hm
    cases h; exact .crash hm
  · cases h

def run (w : World) (s : State) : List Act → Option State
  | [] => some s
  | x :: l => match act w s x with
    | none => none
    | some s' => run w s' l

theorem run_reach {w : World} {s s' : State} {l : List Act} (hs : Reach w s) (h : run w s l = some s') : Reach w s' := by
  induction l generalizing s with
  | nil => cases h; exact hs
  | cons x l ih =>
    simp only [run] at h
    split at h
    · cases h
    · rename_i s1 h1
      exact ih (.step hs (act_step h1)) h

/-- what is seen of the result of a run -/
def after (w : World) (l : List Act) (f : State → α) : Option α := (run w (State.init w) l).map f

def up (f : Mem → α) (s : State) : Option α := s.mem.map f

/-- key blocks 1, 3 and 5; a masterchain block `n` has one shard block -/
def wA : World := ⟨1, fun n => n == 1 || n == 3 || n == 5, fun n => [10 * n, 10 * n + 1], 12⟩

theorem wA_ok : WOk wA where
  nonempty := fun n _ => by simp [wA]
  two := fun n _ _ _ => ⟨10 * n, by simp [wA], 10 * n + 1, by simp [wA], by omega⟩
  top := by decide

/-- a masterchain block with its shard block, the calls in turns -/
def block (n : Nat) : List Act := [.prepare (10 * n), .prepare (10 * n + 1), .write (10 * n + 1), .write (10 * n)]
def commit : List Act := [.spawn, .read, .store, .finish]

example : (List.range 8).map (fun i => arch wA (i + 1)) = [1, 2, 2, 4, 4, 6, 6, 6] := by decide +kernel

/-- archives 1, 2 and 4 are committed at block 7 -/
def long : List Act := [.start] ++ block 1 ++ [.next] ++ block 2 ++ commit ++ [.next] ++ block 3 ++ [.next] ++ block 4 ++ commit ++ [.next] ++
  block 5 ++ [.next] ++ block 6 ++ commit ++ [.next]

example : after wA long (fun s => (s.n, s.disk.cas 2)) = some (7, some [(.block, 21), (.block, 20), (.block, 31), (.block, 30), (.proof, 21), (.proof, 20), (.proof, 31),
    (.proof, 30), (.diff, 21), (.diff, 20), (.diff, 31), (.diff, 30)]) := by decide +kernel
example : after wA long (up (fun m => (List.range 8).map (getArchiveId m.items 12))) = some (some [.notFound, .found 1, .found 2, .found 2, .found 4, .found 4, .tooNew, .tooNew]) := by
  decide +kernel
example : ((List.range 7).map (fun i => estimate (lastKey wA (i + 1)) (i + 1))) = [1, 2, 2, 4, 4, 6, 6] := by decide +kernel

/-- a stop after the write of one call, before the other one; the archive is split in the same way -/
def stopped : List Act := [.start] ++ block 1 ++ [.next, .prepare 20, .write 20, .crash, .start] ++ commit ++ block 2 ++ [.next] ++ block 3 ++ [.next] ++ block 4 ++ commit

example : after wA stopped (fun s => (s.gap, s.disk.cas 1)) = some (false, some [(.block, 11), (.block, 10), (.proof, 11), (.proof, 10), (.diff, 11), (.diff, 10)]) := by
  decide +kernel
example : after wA stopped (fun s => s.disk.cas 2) = some (some [(.block, 20), (.block, 21), (.block, 31), (.block, 30), (.proof, 20), (.proof, 21), (.proof, 31), (.proof, 30),
      (.diff, 20), (.diff, 21), (.diff, 31), (.diff, 30)]) := by decide +kernel

/-- a collection up to 4 removes archive 1 and keeps archive 2 of block 3 -/
example : after wA (long ++ [.gcMem 4, .gcEvents, .gcCas, .crash, .start]) (fun s => ((s.disk.cas 1).isSome, (s.disk.cas 2).isSome, up (fun m => (List.range 8).map (getArchiveId m.items 12)) s)) =
    some (false, true, some [.notFound, .notFound, .found 2, .found 2, .found 4, .found 4, .tooNew, .tooNew]) := by decide +kernel

/-- the hypotheses of the theorems hold in a reachable state -/
example : ∃ s m, Reach wA s ∧ s.mem = some m ∧ m.calls = [] ∧ m.queue = [] ∧ m.task = none ∧ s.gap = false ∧ getArchiveId m.items 12 3 = .found 2 := by
  have h : after wA long (fun s => (up (fun m => decide (m.calls = [] ∧ m.queue = [] ∧ m.task = none ∧ getArchiveId m.items 12 3 = .found 2)) s, s.gap)) = some (some true, false) := by decide +kernel
  unfold after at h
  obtain ⟨s, h1, h2⟩ := Option.map_eq_some_iff.1 h
  obtain ⟨h2, h3⟩ := Prod.mk.inj h2
  obtain ⟨m, h4, h5⟩ := Option.map_eq_some_iff.1 h2
  simp only [decide_eq_true_eq] at h5
  exact ⟨s, m, run_reach .init h1, h4, h5.1, h5.2.1, h5.2.2.1, h3, h5.2.2.2⟩

example : ∃ s, Reach wA s ∧ s.mem = none ∧ s.gap = false ∧ s.n = 7 := by
  have h : after wA (long ++ [.crash]) (fun s => (s.mem.isNone, s.gap, s.n)) = some (true, false, 7) := by decide +kernel
  unfold after at h
  obtain ⟨s, h1, h2⟩ := Option.map_eq_some_iff.1 h
  simp only [Prod.mk.injEq] at h2
  exact ⟨s, run_reach .init h1, by simpa using h2.1, h2.2.1, h2.2.2⟩

/-! ### Findings -/

/-- **finding** a stop between the file and its event: the next start goes well, the event is never written, and after the commit of the next archive the node
does not start any more ("skipped archive commit") -/
def gapRun : List Act := [.start] ++ block 1 ++ [.next] ++ block 2 ++ [.spawn, .read, .store, .crash, .start, .spawn] ++ block 2 ++ [.next] ++ block 3 ++ [.next] ++ block 4 ++ commit ++ [.crash]

theorem gap_blocks_start : ∃ s, Reach wA s ∧ s.mem = none ∧ recover s.disk wA.top s.low = none := by
  have h : after wA gapRun (fun s => (s.mem.isNone, (recover s.disk 12 s.low).isNone)) = some (true, true) := by decide +kernel
  unfold after at h
  obtain ⟨s, h1, h2⟩ := Option.map_eq_some_iff.1 h
  simp only [Prod.mk.injEq] at h2
  exact ⟨s, run_reach .init h1, by simpa using h2.1, by simpa [wA] using h2.2⟩

/-- **finding** two key blocks in a row: an archive is started after the second only, so the estimate for it is wrong -/
example : (List.range 5).map (fun i => arch ⟨1, fun n => n == 2 || n == 3, fun n => [n], 12⟩ (i + 1)) = [1, 1, 1, 4, 4] ∧
    estimate (lastKey ⟨1, fun n => n == 2 || n == 3, fun n => [n], 12⟩ 3) 3 = 3 := by decide +kernel

/-- **finding** a key block which starts an archive and has no shard block: the split after it is lost when the node is stopped -/
def wB : World := ⟨1, fun n => n == 1, fun n => [n], 12⟩

example : arch wB 2 = 2 := by decide +kernel
example : after wB [.start, .prepare 1, .write 1, .next, .prepare 2] (up (fun m => m.calls.map (fun c => c.prep.id))) = some (some [2]) := by decide +kernel
example : after wB [.start, .prepare 1, .write 1, .next, .crash, .start, .prepare 2] (up (fun m => m.calls.map (fun c => c.prep.id))) = some (some [1]) := by decide +kernel

/-- **finding** a collection while a commit of a removed archive runs: its event alone stays, and the node does not start ("invalid archive COMMITTED entry") -/
example : (recover ⟨⟨fun a => a == 2, fun _ => none, fun _ => false, fun a => a == 1⟩, fun _ => [], fun _ => some []⟩ 12 0).isNone = true := by decide +kernel

end Tycho.Archives
