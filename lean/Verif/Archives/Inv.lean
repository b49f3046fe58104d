import Verif.Archives.Prepare

namespace Tycho.Archives

variable {w : World}

/-- Blocks of an archive: what a file must have. -/
def Of (w : World) (a x : Nat) : Prop := ∃ n, w.s ≤ n ∧ arch w n = a ∧ x ∈ w.blocks n

/-- the disk; `st a`: a commit has stored the file of `a` and not its event -/
structure DInv (w : World) (d : Disk) (n low : Nat) (gap : Bool) (st : Nat → Prop) : Prop where
  ns : w.s ≤ n
  lowN : low ≤ arch w n
  lowS : low = 0 ∨ d.ev.started low = true
  startedOf : ∀ a, d.ev.started a = true → low ≤ a ∧ ∃ m, w.s ≤ m ∧ m ≤ n ∧ arch w m = a
  started : ∀ m, w.s ≤ m → m < n → low ≤ arch w m → d.ev.started (arch w m) = true
  commit : ∀ a, d.ev.commit a = true ↔ d.ev.started a = true ∧ ∃ b, a < b ∧ d.ev.started b = true
  committed : ∀ a, d.ev.committed a = true → d.ev.commit a = true ∧ (d.cas a).isSome = true
  inOrder : gap = false → ∀ a b, d.ev.committed b = true → d.ev.started a = true → a < b → d.ev.committed a = true
  noGap : gap = false → ∀ a, low ≤ a → (d.cas a).isSome = true → d.ev.committed a = true ∨ st a
  good : ∀ a c, d.cas a = some c → Good w a c
  idsOf : ∀ a x, x ∈ d.ids a → ∃ m, w.s ≤ m ∧ m ≤ n ∧ arch w m = a ∧ x ∈ w.blocks m
  ids : ∀ a, low ≤ a → d.ev.committed a = false → ∀ m, w.s ≤ m → m < n → arch w m = a → ∀ x ∈ w.blocks m, x ∈ d.ids a
  overOf : ∀ a x, d.ev.over a = some x → low ≤ a ∧ ∃ m, w.s ≤ m ∧ m ≤ n ∧ w.key m = true ∧ arch w m = a ∧ x = m + 1
  over : w.s < n → w.key (n - 1) = true → w.key n = false → low ≤ arch w (n - 1) → d.ev.over (arch w (n - 1)) = some n

def stOf (m : Mem) (a : Nat) : Prop := m.task = some (a, .stored)

structure MInv (w : World) (d : Disk) (n low : Nat) (gap : Bool) (m : Mem) : Prop where
  lowLe : low ≤ m.low
  lowS : m.low = 0 ∨ d.ev.started m.low = true
  itemsOf : ∀ a, m.items a = true → m.low ≤ a ∧ ∃ k, w.s ≤ k ∧ k ≤ n ∧ arch w k = a
  items : ∀ a, d.ev.started a = true → m.low ≤ a → m.items a = true
  pending : ∀ a, m.items a = true → d.ev.started a = true ∨ (a = arch w n ∧ ∃ c ∈ m.calls, c.prep.isNew = true)
  over : OverOk w n m.items m.over
  overKey : w.key n = true → m.calls ≠ [] ∨ m.done ≠ [] → m.over = some (n + 1)
  entered : m.calls ≠ [] ∨ m.done ≠ [] → m.items (arch w n) = true
  freshNew : m.fresh ≠ none → arch w n = n
  callsNodup : (m.calls.map (·.blk)).Nodup
  callsDone : ∀ c ∈ m.calls, c.blk ∉ m.done
  callId : ∀ c ∈ m.calls, c.blk ∈ w.blocks n ∧ c.prep.id = arch w n
  callNew : ∀ c ∈ m.calls, c.prep.isNew = true → arch w n = n ∧ d.ev.started n = false ∧ m.fresh = some c.blk ∧
    (w.s < n → c.prep.commit = some (arch w (n - 1)))
  callCommit : ∀ c ∈ m.calls, ∀ a, c.prep.commit = some a → c.prep.isNew = true ∧ w.s < n ∧ a = arch w (n - 1)
  callOver : ∀ c ∈ m.calls, ∀ x, c.prep.over = some x → w.key n = true ∧ x = n + 1
  callOver' : ∀ c ∈ m.calls, w.key n = true → c.prep.isNew = false → c.prep.over = some (n + 1)
  doneIds : ∀ x ∈ m.done, x ∈ d.ids (arch w n)
  doneOver : w.key n = true → ∀ x ∈ m.done, d.ev.over (arch w n) = some (n + 1) ∨ m.fresh = some x
  queue : ∀ a ∈ m.queue, m.low ≤ a ∧ d.ev.commit a = true ∧ d.ev.committed a = false
  sorted : m.queue.Pairwise (· < ·)
  task : ∀ a p, m.task = some (a, p) → m.low ≤ a ∧ d.ev.commit a = true ∧ d.ev.committed a = false ∧ ∀ q ∈ m.queue, a < q
  taskRead : ∀ a l, m.task = some (a, .read l) → ∀ x, x ∈ l ↔ Of w a x
  taskStored : ∀ a, m.task = some (a, .stored) → (d.cas a).isSome = true
  taskNone : ∀ a p, m.task = some (a, p) → p ≠ .stored → d.cas a = none
  known : ∀ a, d.ev.commit a = true → d.ev.committed a = false → a ∈ m.queue ∨ (∃ p, m.task = some (a, p)) ∨ (d.cas a).isSome = true
  gcEvents : ∀ t, m.gc = some (.events t) → t = m.low
  gcCas : ∀ t, m.gc = some (.cas t) → t ≤ low

/-- **hypothesis on the chain**: a key block which is the first one of its archive has a shard block -/
def TwoBlocks (w : World) : Prop := ∀ n, w.s ≤ n → w.key n = true → arch w n = n → ∃ x ∈ w.blocks n, ∃ y ∈ w.blocks n, x ≠ y

structure WOk (w : World) : Prop where
  nonempty : ∀ n, w.s ≤ n → w.blocks n ≠ []
  two : TwoBlocks w
  top : w.s < w.top

structure Inv (w : World) (s : State) : Prop where
  top : s.n < w.top
  disk : DInv w s.disk s.n s.low s.gap (fun a => ∃ m, s.mem = some m ∧ stOf m a)
  mem : ∀ m, s.mem = some m → MInv w s.disk s.n s.low s.gap m

/-- there is no started archive above that of the current block -/
theorem started_le {d : Disk} {n low : Nat} {gap : Bool} {st : Nat → Prop} (h : DInv w d n low gap st) {a : Nat} (ha : d.ev.started a = true) : a ≤ arch w n := by
  obtain ⟨_, m, h1, h2, rfl⟩ := h.startedOf a ha
  exact arch_mono h1 h2

/-- an archive to be committed is complete -/
theorem commit_lt {d : Disk} {n low : Nat} {gap : Bool} {st : Nat → Prop} (h : DInv w d n low gap st) {a : Nat} (ha : d.ev.commit a = true) : a < arch w n := by
  obtain ⟨_, b, h1, h2⟩ := (h.commit a).1 ha
  exact Nat.lt_of_lt_of_le h1 (started_le h h2)

theorem complete {n a k : Nat} (hk : w.s ≤ k) (hn : w.s ≤ n) (h : arch w k = a) (ha : a < arch w n) : k < n := by
  by_cases hlt : k < n
  · exact hlt
  · have := arch_mono (w := w) hn (show n ≤ k by omega)
    omega

/-- ids of a complete archive are exactly its blocks -/
theorem ids_exact {d : Disk} {n low : Nat} {gap : Bool} {st : Nat → Prop} (h : DInv w d n low gap st) {a : Nat} (hl : low ≤ a) (hc : d.ev.commit a = true)
    (hn : d.ev.committed a = false) (x : Nat) : x ∈ d.ids a ↔ Of w a x := by
  constructor
  · intro hx
    obtain ⟨m, h1, _, h3, h4⟩ := h.idsOf a x hx
    exact ⟨m, h1, h3, h4⟩
  · rintro ⟨k, h1, h2, h3⟩
    exact h.ids a hl hn k h1 (complete h1 h.ns h2 (commit_lt h hc)) h2 x h3

end Tycho.Archives
