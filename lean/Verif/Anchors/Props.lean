import Verif.Anchors.Model

/-! Properties of the cache of anchors. -/
namespace Tycho.Anchors

/-! ### transactions -/

/-- Operations of a transaction. -/
inductive TxOp where
  | popFront
  | removeLastAbove (ct : Nat)
  | rollback
deriving DecidableEq

def Tx.apply (t : Tx) : TxOp → Tx
  | .popFront => t.popFront.1
  | .removeLastAbove ct => t.removeLastAbove ct
  | .rollback => t.rollback

/-- The same operations on a cache without a transaction; `rollback` goes back to the cache `c0`. -/
def Cache.apply (c0 c : Cache) : TxOp → Cache
  | .popFront => c.popFront.1
  | .removeLastAbove ct => (c.removeLastAbove ct).1
  | .rollback => c0

theorem removedBefore_append (ct : Nat) : ∀ l, removedBefore ct l ++ removeBefore ct l = l
  | [] => rfl
  | [_] => rfl
  | i :: j :: rest => by
    unfold removedBefore removeBefore
    split
    · rw [List.cons_append, removedBefore_append ct (j :: rest)]
    · rfl

theorem splitCacheRev_append (ct : Nat) : ∀ l, (splitCacheRev ct l).1 ++ (splitCacheRev ct l).2 = l
  | [] => rfl
  | x :: rest => by
    unfold splitCacheRev
    split
    · simp [splitCacheRev_append ct rest]
    · rfl

theorem splitHistoryRev_append (ct : Nat) : ∀ l, (splitHistoryRev ct l).1 ++ (splitHistoryRev ct l).2 = l
  | [] => rfl
  | [_] => rfl
  | i :: j :: rest => by
    unfold splitHistoryRev
    split
    · simp [splitHistoryRev_append ct (j :: rest)]
    · rfl

theorem splitCacheRev_snd (ct : Nat) : ∀ l, (splitCacheRev ct l).2 = popAboveRev ct l
  | [] => rfl
  | x :: rest => by
    unfold splitCacheRev popAboveRev
    split
    · exact splitCacheRev_snd ct rest
    · rfl

theorem splitHistoryRev_snd (ct : Nat) : ∀ l, (splitHistoryRev ct l).2 = removeAboveRev ct l
  | [] => rfl
  | [_] => rfl
  | i :: j :: rest => by
    unfold splitHistoryRev removeAboveRev
    split
    · exact splitHistoryRev_snd ct (j :: rest)
    · rfl

theorem undo_popFront (t : Tx) : t.popFront.1.log.foldl Undo.apply t.popFront.1.cache = t.log.foldl Undo.apply t.cache := by
  unfold Tx.popFront
  split
  · rfl
  · rename_i x rest h
    obtain ⟨⟨cache, history, pending⟩, log, committed⟩ := t
    simp only at h
    subst h
    simp only [Cache.popFront, List.foldl_cons, Undo.apply, removedBefore_append]

theorem undo_removeLastAbove (t : Tx) (ct : Nat) :
    (t.removeLastAbove ct).log.foldl Undo.apply (t.removeLastAbove ct).cache = t.log.foldl Undo.apply t.cache := by
  unfold Tx.removeLastAbove
  simp only [List.foldl_cons, Undo.apply]
  rw [← List.reverse_append, splitCacheRev_append, ← List.reverse_append, splitHistoryRev_append, List.reverse_reverse,
    List.reverse_reverse]

/-- What a rollback would give does not change during a transaction. -/
theorem undo_run (ops : List TxOp) : ∀ (t : Tx), (ops.foldl Tx.apply t).log.foldl Undo.apply (ops.foldl Tx.apply t).cache =
    t.log.foldl Undo.apply t.cache := by
  induction ops with
  | nil => intro t; rfl
  | cons op ops ih =>
    intro t
    rw [List.foldl_cons, ih]
    cases op with
    | popFront => exact undo_popFront t
    | removeLastAbove ct => exact undo_removeLastAbove t ct
    | rollback => simp [Tx.apply, Tx.rollback]

theorem committed_run (ops : List TxOp) : ∀ (t : Tx), (ops.foldl Tx.apply t).committed = t.committed := by
  induction ops with
  | nil => intro t; rfl
  | cons op ops ih =>
    intro t
    rw [List.foldl_cons, ih]
    cases op with
    | popFront => simp only [Tx.apply]; unfold Tx.popFront; split <;> rfl
    | removeLastAbove ct => rfl
    | rollback => rfl

/-- **C61.** A transaction that ends without a commit leaves the cache exactly as it was, whatever was done in it; so does a
commit right after a rollback. -/
theorem anchors_rollback_restores (c : Cache) (ops : List TxOp) :
    (ops.foldl Tx.apply (Tx.begin c)).drop = c ∧ (ops.foldl Tx.apply (Tx.begin c)).rollback.commit.drop = c := by
  have h := undo_run ops (Tx.begin c)
  have hc := committed_run ops (Tx.begin c)
  constructor
  · unfold Tx.drop
    rw [hc]
    exact h
  · exact h

theorem popFront_agrees (t : Tx) : t.popFront.1.cache = t.cache.popFront.1 ∧ t.popFront.2 = t.cache.popFront.2 := by
  unfold Tx.popFront
  split
  · rename_i h
    simp [Cache.popFront, h]
  · exact ⟨rfl, rfl⟩

theorem popAboveRev_length (ct : Nat) : ∀ l, (popAboveRev ct l).length < l.length ↔ (splitCacheRev ct l).1 ≠ []
  | [] => by simp [popAboveRev, splitCacheRev]
  | x :: rest => by
    have h1 : ∀ l, (popAboveRev ct l).length ≤ l.length := by
      intro l
      induction l with
      | nil => simp [popAboveRev]
      | cons y ys ih => unfold popAboveRev; split <;> simp; omega
    unfold popAboveRev splitCacheRev
    split
    · have := h1 rest
      simp only [List.length_cons, ne_eq, reduceCtorEq, not_false_eq_true, iff_true]
      omega
    · simp

theorem removeLastAbove_agrees (t : Tx) (ct : Nat) : (t.removeLastAbove ct).cache = (t.cache.removeLastAbove ct).1 := by
  unfold Tx.removeLastAbove Cache.removeLastAbove removeAbove
  simp only [splitCacheRev_snd, splitHistoryRev_snd]
  have h := popAboveRev_length ct t.cache.cache.reverse
  congr 1
  simp only [List.length_reverse] at h ⊢
  by_cases hn : (splitCacheRev ct t.cache.cache.reverse).1 = []
  · rw [hn] at h
    simp only [ne_eq, not_true_eq_false, iff_false] at h
    rw [hn, decide_eq_false h]
    simp
  · rw [decide_eq_true (h.mpr hn)]
    have : (splitCacheRev ct t.cache.cache.reverse).1.isEmpty = false := by
      cases hh : (splitCacheRev ct t.cache.cache.reverse).1 with
      | nil => exact absurd hh hn
      | cons _ _ => rfl
    rw [this]
    simp

/-- **C61.** A transaction that is committed has on the cache the effect of the same operations without a transaction. -/
theorem anchors_commit_applies (c : Cache) (ops : List TxOp) :
    (ops.foldl Tx.apply (Tx.begin c)).commit.drop = ops.foldl (Cache.apply c) c := by
  have key : ∀ (ops : List TxOp) (t : Tx), t.log.foldl Undo.apply t.cache = c →
      (ops.foldl Tx.apply t).cache = ops.foldl (Cache.apply c) t.cache := by
    intro ops
    induction ops with
    | nil => intro t _; rfl
    | cons op ops ih =>
      intro t ht
      rw [List.foldl_cons, List.foldl_cons]
      cases op with
      | popFront =>
        rw [ih (t.apply .popFront) (by rw [← ht]; exact undo_popFront t)]
        simp only [Tx.apply, Cache.apply, (popFront_agrees t).1]
      | removeLastAbove ct =>
        rw [ih (t.apply (.removeLastAbove ct)) (by rw [← ht]; exact undo_removeLastAbove t ct)]
        simp only [Tx.apply, Cache.apply, removeLastAbove_agrees]
      | rollback =>
        rw [ih (t.apply .rollback) (by simpa [Tx.apply, Tx.rollback] using ht)]
        simp only [Tx.apply, Cache.apply, Tx.rollback, ht]
  exact key ops (Tx.begin c) rfl

/-! ### what the cache holds -/

/-- Operations of the collator on the cache. -/
inductive Op where
  | add (a : Anchor) (ourExts : Nat)
  | addInfo (i : Info)
  | popFront
  | removeLastAbove (ct : Nat)
  | clear
deriving DecidableEq

def Cache.run (c : Cache) : Op → Cache
  | .add a n => c.add a n
  | .addInfo i => c.addInfo i
  | .popFront => c.popFront.1
  | .removeLastAbove ct => (c.removeLastAbove ct).1
  | .clear => c.clear

/-- Anchors come in the order of their ids and chain times: each added anchor (or info) is not before the last known info. -/
def Ordered (c : Cache) : Op → Prop
  | .add a _ => ∀ i, c.lastInfo = some i → i.id < a.id ∧ i.ct ≤ a.ct
  | .addInfo j => ∀ i, c.lastInfo = some i → i.id < j.id ∧ i.ct ≤ j.ct
  | _ => True

inductive Reachable : Cache → Prop
  | empty : Reachable .empty
  | step {c : Cache} (op : Op) : Reachable c → Ordered c op → Reachable (c.run op)

/-- Well-formed caches. -/
structure Ok (c : Cache) : Prop where
  pending : c.pending = !c.cache.isEmpty
  own : ∀ x ∈ c.cache, x.id = x.anchor.id ∧ 0 < x.ourExts
  sorted : c.cache.Pairwise (fun x y => x.id < y.id ∧ x.anchor.ct ≤ y.anchor.ct)
  history : c.history.Pairwise (fun i j => i.id < j.id ∧ i.ct ≤ j.ct)
  known : ∀ x ∈ c.cache, Info.ofAnchor x.anchor x.ourExts ∈ c.history

theorem removeBefore_last (ct : Nat) : ∀ l, (removeBefore ct l).getLast? = l.getLast?
  | [] => rfl
  | [_] => rfl
  | i :: j :: rest => by
    unfold removeBefore
    split
    · rw [removeBefore_last ct (j :: rest)]; rfl
    · rfl

theorem removeBefore_suffix (ct : Nat) : ∀ l, removeBefore ct l <:+ l
  | [] => List.suffix_refl _
  | [_] => List.suffix_refl _
  | i :: j :: rest => by
    unfold removeBefore
    split
    · exact (removeBefore_suffix ct (j :: rest)).trans (List.suffix_cons _ _)
    · exact List.suffix_refl _

theorem removeAboveRev_suffix (ct : Nat) : ∀ l, removeAboveRev ct l <:+ l
  | [] => List.suffix_refl _
  | [_] => List.suffix_refl _
  | i :: j :: rest => by
    unfold removeAboveRev
    split
    · exact (removeAboveRev_suffix ct (j :: rest)).trans (List.suffix_cons _ _)
    · exact List.suffix_refl _

theorem removeAbove_prefix (ct : Nat) (l : List Info) : removeAbove ct l <+: l := by
  unfold removeAbove
  have := removeAboveRev_suffix ct l.reverse
  rw [← List.reverse_prefix] at this
  simpa using this

theorem popAboveRev_suffix (ct : Nat) : ∀ l, popAboveRev ct l <:+ l
  | [] => List.suffix_refl _
  | x :: rest => by
    unfold popAboveRev
    split
    · exact (popAboveRev_suffix ct rest).trans (List.suffix_cons _ _)
    · exact List.suffix_refl _

theorem popAboveRev_eq_filter (ct : Nat) : ∀ {l : List Cached}, l.Pairwise (fun x y => y.anchor.ct ≤ x.anchor.ct) →
    popAboveRev ct l = l.filter (fun x => x.anchor.ct ≤ ct)
  | [], _ => rfl
  | x :: rest, h => by
    rw [List.pairwise_cons] at h
    unfold popAboveRev
    by_cases hx : x.anchor.ct > ct
    · rw [if_pos hx, popAboveRev_eq_filter ct h.2, List.filter_cons_of_neg (by simpa using hx)]
    · rw [if_neg hx, List.filter_eq_self.mpr]
      intro y hy
      rcases List.mem_cons.mp hy with rfl | hy
      · simp only [decide_eq_true_eq]; omega
      · have := h.1 y hy
        simp only [decide_eq_true_eq]; omega

theorem find_removeAboveRev (ct : Nat) : ∀ l : List Info,
    (removeAboveRev ct l).head? = (l.find? (fun i => i.ct ≤ ct)).or l.getLast?
  | [] => rfl
  | [i] => by
    simp only [removeAboveRev, List.head?_cons, List.find?_cons, List.find?_nil, List.getLast?_singleton]
    split <;> rfl
  | i :: j :: rest => by
    unfold removeAboveRev
    by_cases h : i.ct > ct
    · have h1 : (i :: j :: rest).find? (fun i => decide (i.ct ≤ ct)) = (j :: rest).find? (fun i => decide (i.ct ≤ ct)) :=
        List.find?_cons_of_neg (by simpa using h)
      rw [if_pos h, find_removeAboveRev ct (j :: rest), h1, List.getLast?_cons_cons]
    · rw [if_neg h, List.find?_cons_of_pos (by simp only [decide_eq_true_eq]; omega)]
      rfl

/-- **C62.** `last_imported_anchor_info_at_ct` gives exactly what `remove_last_imported_above` would leave as the last info, for
any contents of the cache. -/
theorem last_info_at_ct_predicts (c : Cache) (ct : Nat) :
    c.lastInfoAt ct = (c.removeLastAbove ct).1.lastInfo ∧ (c.removeLastAbove ct).2 = (c.removeLastAbove ct).1.lastInfo := by
  refine ⟨?_, rfl⟩
  unfold Cache.lastInfoAt Cache.lastInfo Cache.removeLastAbove removeAbove
  simp only
  rw [List.getLast?_reverse, find_removeAboveRev, List.getLast?_reverse]

theorem mem_removeAboveRev {ct : Nat} {k : Info} (hk : k.ct ≤ ct) : ∀ l : List Info, k ∈ l → k ∈ removeAboveRev ct l
  | [], h => h
  | [_], h => h
  | i :: j :: rest, h => by
    unfold removeAboveRev
    split
    · rename_i hi
      rcases List.mem_cons.mp h with rfl | h
      · omega
      · exact mem_removeAboveRev hk _ h
    · exact h

theorem mem_removeAbove {ct : Nat} {k : Info} (hk : k.ct ≤ ct) {l : List Info} (h : k ∈ l) : k ∈ removeAbove ct l := by
  unfold removeAbove
  rw [List.mem_reverse]
  exact mem_removeAboveRev hk _ (List.mem_reverse.mpr h)

theorem mem_removeBefore {ct : Nat} {k : Info} (hk : ct ≤ k.ct) : ∀ l : List Info, k ∈ l → k ∈ removeBefore ct l
  | [], h => h
  | [_], h => h
  | i :: j :: rest, h => by
    unfold removeBefore
    split
    · rename_i hi
      rcases List.mem_cons.mp h with rfl | h
      · omega
      · exact mem_removeBefore hk _ h
    · exact h

theorem ok_removeLastAbove {c : Cache} (h : Ok c) (ct : Nat) :
    (c.removeLastAbove ct).1.cache = c.cache.filter (fun x => x.anchor.ct ≤ ct) ∧ Ok (c.removeLastAbove ct).1 := by
  have hrev : c.cache.reverse.Pairwise (fun x y => y.anchor.ct ≤ x.anchor.ct) := by
    rw [List.pairwise_reverse]
    exact h.sorted.imp (fun hxy => hxy.2)
  have hcache : (c.removeLastAbove ct).1.cache = c.cache.filter (fun x => x.anchor.ct ≤ ct) := by
    unfold Cache.removeLastAbove
    simp only
    rw [popAboveRev_eq_filter ct hrev, List.filter_reverse, List.reverse_reverse]
  refine ⟨hcache, ?_⟩
  have hhist : (c.removeLastAbove ct).1.history = removeAbove ct c.history := rfl
  constructor
  · unfold Cache.removeLastAbove
    dsimp only
    split
    · rfl
    · rename_i hn
      simp only [decide_eq_true_eq, Nat.not_lt] at hn
      have hs : popAboveRev ct c.cache.reverse = c.cache.reverse := by
        apply (popAboveRev_suffix ct _).eq_of_length_le
        simpa using hn
      rw [hs, List.reverse_reverse]
      exact h.pending
  · rw [hcache]
    intro x hx
    exact h.own x ((List.mem_filter.mp hx).1)
  · rw [hcache]
    exact h.sorted.filter _
  · rw [hhist]
    exact h.history.sublist (removeAbove_prefix ct _).sublist
  · rw [hcache, hhist]
    intro x hx
    have hx2 : x.anchor.ct ≤ ct := by simpa using (List.mem_filter.mp hx).2
    exact mem_removeAbove hx2 (h.known x (List.mem_filter.mp hx).1)

theorem ok_popFront {c : Cache} (h : Ok c) : c.popFront.2 = c.cache.head? ∧ c.popFront.1.cache = c.cache.tail ∧ Ok c.popFront.1 := by
  obtain ⟨cache, history, pending⟩ := c
  cases cache with
  | nil => exact ⟨rfl, rfl, h⟩
  | cons x rest =>
    refine ⟨rfl, rfl, rfl, ?_, ?_, ?_, ?_⟩
    · exact fun y hy => h.own y (List.mem_cons_of_mem _ hy)
    · exact (List.pairwise_cons.mp h.sorted).2
    · exact h.history.sublist (removeBefore_suffix _ _).sublist
    · intro y hy
      have h1 := (List.pairwise_cons.mp h.sorted).1 y hy
      exact mem_removeBefore (by simpa [Info.ofAnchor] using h1.2) _ (h.known y (List.mem_cons_of_mem _ hy))

theorem le_last {l : List Info} (h : l.Pairwise (fun i j => i.id < j.id ∧ i.ct ≤ j.ct)) {i : Info} (hi : i ∈ l) :
    ∃ j, l.getLast? = some j ∧ i.id ≤ j.id ∧ i.ct ≤ j.ct := by
  rcases List.eq_nil_or_concat l with rfl | ⟨l', j, rfl⟩
  · simp at hi
  · rw [List.concat_eq_append] at h hi ⊢
    refine ⟨j, by simp, ?_⟩
    rw [List.pairwise_append] at h
    rcases List.mem_append.mp hi with hi | hi
    · have := h.2.2 i hi j (by simp)
      exact ⟨Nat.le_of_lt this.1, this.2⟩
    · simp only [List.mem_singleton] at hi
      subst hi
      exact ⟨Nat.le_refl _, Nat.le_refl _⟩

theorem ok_addInfo {c : Cache} (h : Ok c) {j : Info} (ho : ∀ i, c.lastInfo = some i → i.id < j.id ∧ i.ct ≤ j.ct) :
    Ok (c.addInfo j) := by
  constructor
  · exact h.pending
  · exact h.own
  · exact h.sorted
  · show (c.history ++ [j]).Pairwise _
    rw [List.pairwise_append]
    refine ⟨h.history, by simp, ?_⟩
    intro i hi k hk
    simp only [List.mem_singleton] at hk
    subst hk
    obtain ⟨l, hl, h1, h2⟩ := le_last h.history hi
    have := ho l hl
    omega
  · intro x hx
    exact List.mem_append_left _ (h.known x hx)

theorem ok_add {c : Cache} (h : Ok c) {a : Anchor} {n : Nat} (ho : ∀ i, c.lastInfo = some i → i.id < a.id ∧ i.ct ≤ a.ct) :
    Ok (c.add a n) := by
  have h' : Ok (c.addInfo (.ofAnchor a n)) := ok_addInfo h ho
  unfold Cache.add
  dsimp only
  split
  · rename_i hn
    constructor
    · simp
    · intro x hx
      rcases List.mem_append.mp hx with hx | hx
      · exact h.own x hx
      · simp only [List.mem_singleton] at hx
        subst hx
        exact ⟨rfl, hn⟩
    · show (c.cache ++ [_]).Pairwise _
      rw [List.pairwise_append]
      refine ⟨h.sorted, by simp, ?_⟩
      intro x hx y hy
      simp only [List.mem_singleton] at hy
      subst hy
      obtain ⟨l, hl, h1, h2⟩ := le_last h.history (h.known x hx)
      have h3 := ho l hl
      have h4 := (h.own x hx).1
      simp only [Info.ofAnchor] at h1 h2
      simp only
      omega
    · exact h'.history
    · intro x hx
      rcases List.mem_append.mp hx with hx | hx
      · exact h'.known x hx
      · simp only [List.mem_singleton] at hx
        subst hx
        exact List.mem_append_right _ (by simp)
  · exact h'

theorem ok_reachable {c : Cache} (h : Reachable c) : Ok c := by
  induction h with
  | empty => exact ⟨rfl, by simp [Cache.empty], by simp [Cache.empty], by simp [Cache.empty], by simp [Cache.empty]⟩
  | step op _ ho ih =>
    cases op with
    | add a n => exact ok_add ih ho
    | addInfo i => exact ok_addInfo ih ho
    | popFront => exact (ok_popFront ih).2.2
    | removeLastAbove ct => exact (ok_removeLastAbove ih ct).2
    | clear => exact ⟨rfl, by simp [Cache.run, Cache.clear], by simp [Cache.run, Cache.clear], by simp [Cache.run, Cache.clear],
        by simp [Cache.run, Cache.clear]⟩

/-- The specification: what the collator expects to be in the cache, as a plain queue of the anchors with externals of its shard. -/
def specQueue : List (Anchor × Nat) → Op → List (Anchor × Nat)
  | q, .add a n => if n = 0 then q else q ++ [(a, n)]
  | q, .addInfo _ => q
  | q, .popFront => q.drop 1
  | q, .removeLastAbove ct => q.filter (fun x => x.1.ct ≤ ct)
  | _, .clear => []

/-- Histories of the cache in which anchors come in order. -/
inductive History : List Op → Cache → Prop
  | empty : History [] .empty
  | step {ops : List Op} {c : Cache} (op : Op) : History ops c → Ordered c op → History (ops ++ [op]) (c.run op)

theorem History.reachable {ops : List Op} {c : Cache} (h : History ops c) : Reachable c := by
  induction h with
  | empty => exact .empty
  | step op _ ho ih => exact .step op ih ho

def Cached.pair (x : Cached) : Anchor × Nat := (x.anchor, x.ourExts)

theorem cache_is_queue {ops : List Op} {c : Cache} (h : History ops c) :
    c.cache.map Cached.pair = ops.foldl specQueue [] := by
  induction h with
  | empty => rfl
  | @step ops c op hh ho ih =>
    rw [List.foldl_append, List.foldl_cons, List.foldl_nil, ← ih]
    have hok := ok_reachable hh.reachable
    cases op with
    | add a n =>
      simp only [Cache.run, Cache.add, specQueue, Cache.addInfo]
      by_cases hn : n = 0
      · rw [if_pos hn, if_neg (by omega)]
      · rw [if_neg hn, if_pos (by omega)]
        simp [Cached.pair]
    | addInfo i => rfl
    | popFront =>
      show c.popFront.1.cache.map _ = _
      rw [(ok_popFront hok).2.1]
      simp [specQueue]
    | removeLastAbove ct =>
      show (c.removeLastAbove ct).1.cache.map _ = _
      rw [(ok_removeLastAbove hok ct).1]
      simp only [specQueue, List.filter_map]
      rfl
    | clear => rfl

/-- **C62.** Whatever the collator did with the cache, the anchors it gives out are those of a plain queue: imported anchors with
externals for the shard, in the order of import and each once, without those taken, cut off or cleared; `pop_front` gives its
head, the pending flag says whether it is not empty, and the check up to an anchor says whether it has an anchor up to this one. -/
theorem anchors_cache_is_queue {ops : List Op} {c : Cache} (h : History ops c) :
    c.popFront.2.map Cached.pair = (ops.foldl specQueue []).head? ∧
    c.hasPending = !(ops.foldl specQueue []).isEmpty ∧
    (∀ n, c.hasPendingUpTo n = true ↔ ∃ x ∈ ops.foldl specQueue [], x.1.id ≤ n) ∧
    (ops.foldl specQueue []).Pairwise (fun x y => x.1.id < y.1.id ∧ x.1.ct ≤ y.1.ct) := by
  have hok := ok_reachable h.reachable
  rw [← cache_is_queue h]
  refine ⟨?_, ?_, ?_, ?_⟩
  · rw [(ok_popFront hok).1, List.head?_map]
  · rw [List.isEmpty_map]
    exact hok.pending
  · intro n
    unfold Cache.hasPendingUpTo
    rw [List.any_eq_true]
    constructor
    · rintro ⟨x, hx, hx2⟩
      simp only [Bool.and_eq_true, decide_eq_true_eq] at hx2
      exact ⟨x.pair, List.mem_map_of_mem hx, by have := (hok.own x hx).1; simp only [Cached.pair]; omega⟩
    · rintro ⟨y, hy, hn⟩
      obtain ⟨x, hx, rfl⟩ := List.mem_map.mp hy
      refine ⟨x, hx, ?_⟩
      have := hok.own x hx
      simp only [Cached.pair] at hn
      simp only [Bool.and_eq_true, decide_eq_true_eq]
      omega
  · rw [List.pairwise_map]
    refine hok.sorted.imp_of_mem ?_
    intro x y hx hy hxy
    have := (hok.own x hx).1
    have := (hok.own y hy).1
    simp only [Cached.pair]
    omega

/-- The last element added to the history by the operations that add one. -/
def lastAdded : Option Info → Op → Option Info
  | _, .add a n => some (.ofAnchor a n)
  | _, .addInfo i => some i
  | o, _ => o

/-- **C62.** As long as nothing is cut off or cleared, the last known info is that of the last anchor imported, no matter how many
anchors were taken; and every anchor still to be taken has its info in the history. -/
theorem last_info_is_last_import {ops : List Op} {c : Cache} (h : History ops c)
    (hn : ∀ op ∈ ops, op ≠ .clear ∧ ∀ ct, op ≠ .removeLastAbove ct) :
    c.lastInfo = ops.foldl lastAdded none ∧ ∀ x ∈ c.cache, Info.ofAnchor x.anchor x.ourExts ∈ c.history := by
  refine ⟨?_, (ok_reachable h.reachable).known⟩
  induction h with
  | empty => rfl
  | @step ops c op hh ho ih =>
    have ih := ih (fun o ho => hn o (by simp [ho]))
    have hop := hn op (by simp)
    rw [List.foldl_append, List.foldl_cons, List.foldl_nil, ← ih]
    cases op with
    | add a n =>
      simp only [Cache.run, Cache.add, lastAdded, Cache.addInfo, Cache.lastInfo]
      split <;> simp
    | addInfo i => simp [Cache.run, lastAdded, Cache.addInfo, Cache.lastInfo]
    | popFront =>
      simp only [Cache.run, lastAdded, Cache.lastInfo]
      unfold Cache.popFront
      split
      · rfl
      · exact removeBefore_last _ _
    | removeLastAbove ct => exact absurd rfl (hop.2 ct)
    | clear => exact absurd rfl hop.1

end Tycho.Anchors
