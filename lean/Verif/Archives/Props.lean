import Verif.Archives.Step

/-! Theorems on archives. The chain `w` is any: where it starts, which blocks are key blocks, how many shard blocks there are. -/
namespace Tycho.Archives

variable {w : World}

/-- **C88** every stored archive file has exactly the blocks of its archive (`arch`, a function of the chain), all parts of each, once; and all of them are applied. -/
theorem archives_good (ok : WOk w) {s : State} (h : Reach w s) {a : Nat} {c : List (Ty × Nat)} (hc : s.disk.cas a = some c) : Good w a c :=
  (reach_inv ok h).disk.good a c hc

/-- **C88** the ids of blocks which a commit reads are those of the archive: none is missing, and the archive is not empty -/
theorem commit_reads_all (ok : WOk w) {s : State} (h : Reach w s) {m : Mem} (hm : s.mem = some m) {a : Nat} (ht : m.task = some (a, .begun)) :
    s.disk.ids a ≠ [] ∧ ∀ x, x ∈ s.disk.ids a ↔ ∃ n, w.s ≤ n ∧ arch w n = a ∧ x ∈ w.blocks n := by
  have hi := reach_inv ok h
  have hmi := hi.mem m hm
  obtain ⟨g1, g2, g3, _⟩ := hmi.task a _ ht
  have he := ids_exact hi.disk (Nat.le_trans hmi.lowLe g1) g2 g3
  refine ⟨?_, he⟩
  obtain ⟨_, k, h1, h2, h3⟩ := hi.disk.startedOf a ((hi.disk.commit a).1 g2).1
  obtain ⟨x, hx⟩ := List.exists_mem_of_ne_nil _ (ok.nonempty k h1)
  exact List.ne_nil_of_mem ((he x).2 ⟨k, h1, h3, hx⟩)

/-- **C89** the node starts again after a stop at any moment, if it was never stopped between the file of an archive and its event -/
theorem restart (ok : WOk w) {s : State} (h : Reach w s) (hg : s.gap = false) (hm : s.mem = none) : ∃ m, Step w s { s with mem := some m } := by
  have hi := reach_inv ok h
  have hd := hi.disk
  rw [hg] at hd
  obtain ⟨r, hr⟩ := recAll_some hd w.top
  exact ⟨_, Step.start hm (by unfold recover; rw [hr])⟩

/-- **C90** what the query says: an archive it finds is the one of the block -/
theorem found_arch (ok : WOk w) {s : State} (h : Reach w s) {m : Mem} (hm : s.mem = some m) {q a : Nat}
    (hf : getArchiveId m.items w.top q = .found a) : w.s ≤ q ∧ q < s.n ∧ a = arch w q ∧ m.low ≤ a := by
  have hi := reach_inv ok h
  have hd := hi.disk
  have hmi := hi.mem m hm
  unfold getArchiveId at hf
  split at hf
  · cases hf
  · rename_i last hl
    split at hf
    · rename_i hq
      split at hf
      · rename_i id hp
        split at hf
        · injection hf with hf
          subst hf
          obtain ⟨p1, p2, p3⟩ := prevId_some hp
          obtain ⟨l1, l2, l3⟩ := prevId_some hl
          obtain ⟨g1, k, g2, g3, g4⟩ := hmi.itemsOf id p1
          obtain ⟨f1, j, f2, f3, f4⟩ := hmi.itemsOf last l1
          have hbk := arch_bounds (w := w) k g2
          have hbj := arch_bounds (w := w) j f2
          have hsq : w.s ≤ q := by omega
          have hqn : q < s.n := by omega
          have hle : id ≤ arch w q := by rw [← g4]; exact arch_of_le g2 (by omega)
          refine ⟨hsq, hqn, ?_, g1⟩
          by_contra hne
          have hbq := arch_bounds (w := w) q hsq
          have hst := hd.started q hsq hqn (by have := hmi.lowLe; omega)
          have := p3 _ (show id < arch w q by omega) hbq.2.1
          rw [hmi.items _ hst (by omega)] at this
          cases this
        · cases hf
      · cases hf
    · cases hf

/-- **C90** the archive of a block is found when the next one was started, unless it was removed -/
theorem arch_found (ok : WOk w) {s : State} (h : Reach w s) {m : Mem} (hm : s.mem = some m) {q r : Nat} (hq : w.s ≤ q) (hlow : m.low ≤ arch w q)
    (hlt : arch w q < arch w r) (hr : r < s.n) : getArchiveId m.items w.top q = .found (arch w q) := by
  have hi := reach_inv ok h
  have hd := hi.disk
  have hmi := hi.mem m hm
  have hqr : q < r := by
    by_contra hx
    by_cases hrs : w.s ≤ r
    · have := arch_mono (w := w) hrs (show r ≤ q by omega); omega
    · have : r - w.s = 0 := by omega
      have h2 : arch w r = w.s := by unfold arch; rw [this]; rfl
      have := (arch_bounds (w := w) q hq).1
      omega
  have hbq := arch_bounds (w := w) q hq
  have hbr := arch_bounds (w := w) r (by omega)
  have hir : m.items (arch w r) = true := hmi.items _ (hd.started r (by omega) hr (by have := hmi.lowLe; omega)) (by omega)
  have hiq : m.items (arch w q) = true := hmi.items _ (hd.started q hq (by omega) (by have := hmi.lowLe; omega)) hlow
  have hp : prevId m.items q = some (arch w q) := by
    refine prevId_eq hiq hbq.2.1 (fun x h1 h2 => ?_)
    by_contra hx
    obtain ⟨_, k, g1, g2, g3⟩ := hmi.itemsOf x (by simpa using hx)
    have := arch_of_le (w := w) g1 (show arch w k ≤ q by omega)
    omega
  unfold getArchiveId
  split
  · rename_i hl
    have := prevId_none hl (arch w r) (by have := hi.top; omega)
    rw [hir] at this; cases this
  · rename_i last hl
    obtain ⟨l1, l2, l3⟩ := prevId_some hl
    have hge : arch w r ≤ last := by
      by_contra hx
      have := l3 (arch w r) (by omega) (by have := hi.top; omega)
      rw [hir] at this; cases this
    split
    · rw [hp]; simp only; rw [if_pos hbq.2.2]
    · rename_i hnl
      exfalso
      have := arch_of_le (w := w) (m := r) (n := q) (by omega) (by omega)
      omega

/-- **C90** nothing is found only for blocks before the first one and for removed archives -/
theorem not_found (ok : WOk w) {s : State} (h : Reach w s) {m : Mem} (hm : s.mem = some m) {q : Nat} (hq : getArchiveId m.items w.top q = .notFound) :
    q < w.s ∨ arch w q < m.low := by
  have hi := reach_inv ok h
  have hd := hi.disk
  have hmi := hi.mem m hm
  by_contra hx
  simp only [not_or, Nat.not_lt] at hx
  obtain ⟨hsq, hlow⟩ := hx
  have hbq := arch_bounds (w := w) q hsq
  unfold getArchiveId at hq
  split at hq
  · cases hq
  · rename_i last hl
    split at hq
    · rename_i hlt
      obtain ⟨l1, l2, l3⟩ := prevId_some hl
      obtain ⟨f1, j, f2, f3, f4⟩ := hmi.itemsOf last l1
      have hbj := arch_bounds (w := w) j f2
      have hiq : m.items (arch w q) = true := hmi.items _ (hd.started q hsq (by omega) (by have := hmi.lowLe; omega)) hlow
      have hp : prevId m.items q = some (arch w q) := by
        refine prevId_eq hiq hbq.2.1 (fun x h1 h2 => ?_)
        by_contra hx
        obtain ⟨_, k, g1, g2, g3⟩ := hmi.itemsOf x (by simpa using hx)
        have := arch_of_le (w := w) g1 (show arch w k ≤ q by omega)
        omega
      rw [hp] at hq
      simp only at hq
      rw [if_pos hbq.2.2] at hq
      cases hq
    · cases hq

/-- **C89** when no call and no commit is in progress, an archive which is found has its file: after any number of stops, no archive is lost -/
theorem found_file (ok : WOk w) {s : State} (h : Reach w s) {m : Mem} (hm : s.mem = some m) (hc : m.calls = []) (hq : m.queue = []) (ht : m.task = none)
    {q a : Nat} (hf : getArchiveId m.items w.top q = .found a) : ∃ c, s.disk.cas a = some c ∧ Good w a c := by
  have hi := reach_inv ok h
  have hd := hi.disk
  have hmi := hi.mem m hm
  have hst : ∀ b, m.items b = true → s.disk.ev.started b = true := by
    intro b hb
    rcases hmi.pending b hb with g | ⟨_, c, g, _⟩
    · exact g
    · rw [hc] at g; cases g
  have hcom : s.disk.ev.commit a = true := by
    unfold getArchiveId at hf
    split at hf
    · cases hf
    · rename_i last hl
      split at hf
      · rename_i hlt
        split at hf
        · rename_i id hp
          split at hf
          · injection hf with hf
            subst hf
            obtain ⟨p1, p2, _⟩ := prevId_some hp
            exact (hd.commit id).2 ⟨hst _ p1, last, by omega, hst _ (prevId_some hl).1⟩
          · cases hf
        · cases hf
      · cases hf
  have hcas : (s.disk.cas a).isSome = true := by
    cases hcd : s.disk.ev.committed a with
    | true => exact (hd.committed a hcd).2
    | false =>
      rcases hmi.known a hcom hcd with g | ⟨p, g⟩ | g
      · rw [hq] at g; cases g
      · rw [ht] at g; cases g
      · exact g
  obtain ⟨c, hcc⟩ := Option.isSome_iff_exists.1 hcas
  exact ⟨c, hcc, hd.good a c hcc⟩

/-- **C91** a stored file stays as it is, whatever is done, unless archives were removed up to a later one -/
theorem file_kept (ok : WOk w) {s s' : State} (h : Reach w s) (hs : Step w s s') {a : Nat} {c : List (Ty × Nat)} (hc : s.disk.cas a = some c) (hl : s.low ≤ a) :
    s'.disk.cas a = some c := by
  have hi := reach_inv ok h
  cases hs with
  | start hm hr => exact hc
  | prepare hm hb hcc hdn => exact hc
  | write hm hcc => exact hc
  | spawn hm hq ht => exact hc
  | read hm ht hne => exact hc
  | @store m b l hm ht =>
    have := (hi.mem m hm).taskNone b _ ht (by simp)
    have hne : a ≠ b := by rintro rfl; rw [this] at hc; cases hc
    simp only [upd_ne hne]; exact hc
  | finish hm ht => exact hc
  | next hm hcc hq hdn hn => exact hc
  | gcMem u hm hg hf hne hss => exact hc
  | gcEvents hm hg => exact hc
  | @gcCas m t hm hg =>
    have := (hi.mem m hm).gcCas t hg
    simp only; rw [if_neg (by omega)]; exact hc
  | crash hm => exact hc

/-- **C91** `low` rises only by a collection: up to the archive of a block before the bound, so that the archive of every block from `until - 1` is kept -/
theorem gc_bound (ok : WOk w) {s : State} (h : Reach w s) {m : Mem} (hm : s.mem = some m) {u t : Nat} (hf : gcFrom m.items u = some t) {q : Nat}
    (hq : u ≤ q + 1) : w.s ≤ q ∧ t ≤ arch w q := by
  have hi := reach_inv ok h
  have hmi := hi.mem m hm
  obtain ⟨g1, g2, g3⟩ := gcFrom_some hf
  obtain ⟨_, k, h1, h2, h3⟩ := hmi.itemsOf t g1
  have hb := arch_bounds (w := w) k h1
  refine ⟨by omega, ?_⟩
  rw [← h3]; exact arch_of_le h1 (by omega)

/-- **C91** what the query says after a collection, for the blocks it is to keep -/
theorem gc_query (ok : WOk w) {s : State} (h : Reach w s) {m : Mem} (hm : s.mem = some m) {u t : Nat} (hf : gcFrom m.items u = some t) {q : Nat}
    (hq : u ≤ q + 1) : getArchiveId (fun a => if a < t then false else m.items a) w.top q = getArchiveId m.items w.top q := by
  have hi := reach_inv ok h
  have hmi := hi.mem m hm
  obtain ⟨g1, g2, g3⟩ := gcFrom_some hf
  have hp : ∀ k, t ≤ k → prevId (fun a => if a < t then false else m.items a) k = prevId m.items k := by
    intro k hk
    cases hx : prevId m.items k with
    | none => rw [prevId_none hx t hk] at g1; cases g1
    | some b =>
      obtain ⟨e1, e2, e3⟩ := prevId_some hx
      have hb : t ≤ b := by
        by_contra hlt
        rw [e3 t (by omega) hk] at g1; cases g1
      refine prevId_eq (by rw [if_neg (by omega)]; exact e1) e2 (fun x h1 h2 => ?_)
      rw [if_neg (by omega)]; exact e3 x h1 h2
  obtain ⟨_, k, h1, h2, h3⟩ := hmi.itemsOf t g1
  have hb := arch_bounds (w := w) k h1
  have := hi.top
  unfold getArchiveId
  rw [hp w.top (by omega), hp q (by omega)]

/-! ### The estimate -/

/-- the last key block before `n`; `s - 1` if there is none since the start -/
def lastKey (w : World) : Nat → Nat
  | 0 => w.s - 1
  | n + 1 => if w.s ≤ n ∧ w.key n = true then n else lastKey w n

theorem lastKey_le (hs : 1 ≤ w.s) : ∀ n, w.s ≤ n → w.s - 1 ≤ lastKey w n ∧ lastKey w n < n := by
  intro n hn
  induction n with
  | zero => omega
  | succ n ih =>
    simp only [lastKey]
    split
    · omega
    · by_cases h : w.s ≤ n
      · have := ih h; omega
      · have h0 : ∀ k, k ≤ w.s → lastKey w k = w.s - 1 := by
          intro k hk
          induction k with
          | zero => rfl
          | succ k ih' => simp only [lastKey]; rw [if_neg (by omega)]; exact ih' (by omega)
        rw [h0 n (by omega)]; omega

/-- **C92** the estimate is the archive of the block, if the node started after a key block (or at the first block) and no key block follows another one -/
theorem estimate_arch (hs : 1 ≤ w.s) (hk : ∀ n, w.s ≤ n → w.key n = true → w.key (n + 1) = false) :
    ∀ n, w.s ≤ n → estimate (lastKey w n) n = arch w n := by
  have key : ∀ n, w.s ≤ n → arch w n = n - (n - (lastKey w n + 1)) % maxMc := by
    intro n hn
    induction n, hn using Nat.le_induction with
    | base =>
      have := lastKey_le hs w.s (Nat.le_refl _)
      have e : w.s - (lastKey w w.s + 1) = 0 := by omega
      rw [arch_start, e]; simp
    | succ n hn ih =>
      rw [arch_succ hn]
      have hl := lastKey_le hs n hn
      have hb := arch_bounds (w := w) n hn
      cases hkn : w.key n with
      | true =>
        simp only [lastKey, hn, hkn, and_self, if_true, hk n hn hkn, true_or]
        simp
      | false =>
        simp only [lastKey, hkn, Bool.false_eq_true, and_false, if_false, false_and, false_or]
        rw [ih]
        by_cases hc : n - (n - (lastKey w n + 1)) % maxMc + maxMc ≤ n + 1
        · rw [if_pos hc]; simp only [maxMc] at *; omega
        · rw [if_neg hc]; simp only [maxMc] at *; omega
  intro n hn
  have hl := lastKey_le hs n hn
  rw [key n hn]
  unfold estimate
  split
  · rfl
  · have e : n - (lastKey w n + 1) = 0 := by omega
    rw [e]; simp

end Tycho.Archives
