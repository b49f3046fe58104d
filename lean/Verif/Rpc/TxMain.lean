import Verif.Rpc.TxSysProps
import Mathlib.Data.List.Perm.Subperm
import Mathlib.Data.List.Induction
import Mathlib.Data.List.Nodup

namespace Tycho.Rpc
open Tycho.Table

/-- The transaction is in a block which was added, and its account was not in the blacklist then. -/
def Stored (evs : List Ev) (t : BlockTx) : Prop := ∃ black b mc l, Ev.block black b mc l ∈ evs ∧ t ∈ l ∧ black t.key.acct = false

/-- What is known of transactions of blocks: an account has one transaction with a logical time, and hashes of different transactions differ. -/
structure Proper (evs : List Ev) : Prop where
  key : ∀ a b, Stored evs a → Stored evs b → a.key = b.key → a = b
  hash : ∀ a b, Stored evs a → Stored evs b → a.tx.hash = b.tx.hash → a = b

/-- No message is executed by two transactions. -/
def MessagesOnce (evs : List Ev) : Prop := ∀ a b m, Stored evs a → Stored evs b → a.tx.msg = some m → b.tx.msg = some m → a = b

/-- Fewer than `n` transactions of the account are newer. -/
def AmongNewest (evs : List Ev) (n : Nat) (k : Key) : Prop :=
  ∀ l : List Key, l.Nodup → (∀ x ∈ l, (∃ t, Stored evs t ∧ t.key = x) ∧ x.acct = k.acct ∧ k.lt < x.lt) → l.length < n

/-- Every collection of the history has to keep the transaction: it is not older than the bound, or is among the newest. -/
def ToKeep (evs : List Ev) (k : Key) : Prop := ∀ size keep minLt, Ev.gcBegin size keep minLt ∈ evs → minLt ≤ k.lt ∨ AmongNewest evs keep k

theorem exec_snoc (evs : List Ev) (e : Ev) : Sys.exec (evs ++ [e]) = (Sys.exec evs).next e := by
  unfold Sys.exec; rw [List.foldl_append]; rfl

theorem added_iff (evs : List Ev) (t : BlockTx) : t ∈ (Sys.exec evs).added ↔ Stored evs t := by
  induction evs using List.reverseRecOn with
  | nil => simp [Sys.exec, Sys.init, Stored]
  | append_singleton evs e ih =>
    rw [exec_snoc]
    have hst : Stored (evs ++ [e]) t ↔ Stored evs t ∨ ∃ black b mc l, e = .block black b mc l ∧ t ∈ l ∧ black t.key.acct = false := by
      unfold Stored
      constructor
      · rintro ⟨black, b, mc, l, h1, h2⟩
        rcases List.mem_append.1 h1 with h1 | h1
        · exact .inl ⟨black, b, mc, l, h1, h2⟩
        · exact .inr ⟨black, b, mc, l, (List.mem_singleton.1 h1).symm, h2⟩
      · rintro (⟨black, b, mc, l, h1, h2⟩ | ⟨black, b, mc, l, rfl, h2⟩)
        · exact ⟨black, b, mc, l, List.mem_append_left _ h1, h2⟩
        · exact ⟨black, b, mc, l, by simp, h2⟩
    rw [hst, ← ih]
    cases e with
    | block black b mc l =>
      simp only [Sys.next, List.mem_append, List.mem_filter, Bool.not_eq_true']
      refine or_congr Iff.rfl ?_
      constructor
      · rintro ⟨h1, h2⟩; exact ⟨black, b, mc, l, rfl, h1, h2⟩
      · rintro ⟨_, _, _, _, h, h1, h2⟩; cases h; exact ⟨h1, h2⟩
    | gcBegin size keep minLt =>
      have : ((Sys.exec evs).next (.gcBegin size keep minLt)).added = (Sys.exec evs).added := by
        unfold Sys.next; dsimp only; split <;> rfl
      rw [this]; simp
    | gcStep i =>
      have : ((Sys.exec evs).next (.gcStep i)).added = (Sys.exec evs).added := by
        unfold Sys.next
        dsimp only
        cases (Sys.exec evs).runs[i]? with
        | none => rfl
        | some r => dsimp only; split <;> rfl
      rw [this]; simp
    | gcCancel i => simp [Sys.next]
    | restart => simp [Sys.next]

theorem begun_from (evs : List Ev) (b : Begun) (h : b ∈ (Sys.exec evs).begun) : ∃ size, Ev.gcBegin size b.keep b.minLt ∈ evs := by
  induction evs using List.reverseRecOn with
  | nil => cases h
  | append_singleton evs e ih =>
    rw [exec_snoc] at h
    have hold : b ∈ (Sys.exec evs).begun → ∃ size, Ev.gcBegin size b.keep b.minLt ∈ evs ++ [e] := by
      intro h
      obtain ⟨size, h⟩ := ih h
      exact ⟨size, List.mem_append_left _ h⟩
    cases e with
    | block black bl mc l => exact hold h
    | gcBegin size keep minLt =>
      unfold Sys.next at h
      dsimp only at h
      split at h
      · exact hold h
      · rcases List.mem_cons.1 h with rfl | h
        · exact ⟨size, by simp⟩
        · exact hold h
    | gcStep i =>
      have : ((Sys.exec evs).next (.gcStep i)).begun = (Sys.exec evs).begun := by
        unfold Sys.next
        dsimp only
        cases (Sys.exec evs).runs[i]? with
        | none => rfl
        | some r => dsimp only; split <;> rfl
      rw [this] at h; exact hold h
    | gcCancel i => exact hold h
    | restart => exact hold h

theorem spared_of_toKeep (evs : List Ev) (k : Key) (h : ToKeep evs k) : Spared (Sys.exec evs) k := by
  intro b hb hold
  obtain ⟨size, hsz⟩ := begun_from evs b hb
  rcases h size b.keep b.minLt hsz with h | h
  · have := hold.1; omega
  · have hi := exec_inv evs
    obtain ⟨ho, hs⟩ := hi.snaps b hb
    have hlen := h ((b.snap.filter (fun e => decide (e.1.acct = k.acct) && decide (k.lt < e.1.lt))).map (·.1)) ?_ ?_
    · rw [List.length_map] at hlen
      have h2 := hold.2
      unfold newer at h2
      omega
    · exact List.Nodup.sublist (List.Sublist.map _ List.filter_sublist) (ordered_uniq ho)
    · intro x hx
      obtain ⟨e, he, rfl⟩ := List.mem_map.1 hx
      rw [List.mem_filter] at he
      simp only [Bool.and_eq_true, decide_eq_true_eq] at he
      obtain ⟨t, ht, h3, _⟩ := hs e he.1
      exact ⟨⟨t, (added_iff evs t).1 ht, h3⟩, he.2⟩

theorem consistent_of_proper {evs : List Ev} (h : Proper evs) : Consistent (Sys.exec evs).added :=
  ⟨fun a ha b hb => h.key a b ((added_iff _ _).1 ha) ((added_iff _ _).1 hb), fun a ha b hb => h.hash a b ((added_iff _ _).1 ha) ((added_iff _ _).1 hb)⟩

/-- **A query by hash never returns another transaction**: whatever blocks were added and whatever collections ran, were stopped or are running. -/
theorem get_transaction_sound (evs : List Ev) (hp : Proper evs) (h : Nat) (v : Tx) (hg : (Sys.exec evs).db.getTransaction h = some v) :
    v.hash = h ∧ ∃ t, Stored evs t ∧ t.tx = v := by
  have hi := exec_inv evs
  unfold Db.getTransaction at hg
  split at hg
  · cases hg
  · rename_i info hinfo
    obtain ⟨t, ht, h1, h2⟩ := hi.hash _ _ hinfo
    obtain ⟨t', ht', h3, h4⟩ := hi.rows _ (mem_of_get _ _ _ hg)
    have := (consistent_of_proper hp).key t ht t' ht' (h2.trans h3.symm)
    subst this
    refine ⟨?_, t, (added_iff _ _).1 ht, h4⟩
    dsimp only at h4
    rw [← h4]; exact h1

/-- **Transactions to keep are found**, by their hash, by the hash of the incoming message and among transactions of the account, while collections run
and after any of them was stopped at any iteration. -/
theorem kept_found (evs : List Ev) (hp : Proper evs) (t : BlockTx) (hs : Stored evs t) (hk : ToKeep evs t.key) :
    (Sys.exec evs).db.getTransaction t.tx.hash = some t.tx ∧ (t.key, t.tx) ∈ (Sys.exec evs).db.txs ∧
    (MessagesOnce evs → ∀ m, t.tx.msg = some m → (Sys.exec evs).db.getDst m = some t.tx) := by
  have hi := exec_inv evs
  have hc := consistent_of_proper hp
  have ht := (added_iff evs t).2 hs
  have hsp := spared_of_toKeep evs t.key hk
  have hrow := hi.keepRow hc t ht hsp
  have hget := get_of_mem _ (ordered_uniq hi.ordered) _ _ hrow
  refine ⟨?_, hrow, fun hmo m hm => ?_⟩
  · obtain ⟨i, h1, h2⟩ := hi.keepHash hc t ht hsp
    unfold Db.getTransaction
    rw [h1]
    dsimp only
    rw [h2]; exact hget
  · have := hi.keepMsg hc (fun a ha b hb m => hmo a b m ((added_iff _ _).1 ha) ((added_iff _ _).1 hb)) t ht hsp m hm
    unfold Db.getDst
    rw [this]
    exact hget

/-- A query by the message returns a transaction with this message. -/
theorem get_dst_sound (evs : List Ev) (hp : Proper evs) (m : Nat) (v : Tx) (hg : (Sys.exec evs).db.getDst m = some v) :
    v.msg = some m ∧ ∃ t, Stored evs t ∧ t.tx = v := by
  have hi := exec_inv evs
  unfold Db.getDst at hg
  split at hg
  · cases hg
  · rename_i k hk
    obtain ⟨t, ht, h1, h2⟩ := hi.msg _ _ hk
    obtain ⟨t', ht', h3, h4⟩ := hi.rows _ (mem_of_get _ _ _ hg)
    have := (consistent_of_proper hp).key t ht t' ht' (h2.trans h3.symm)
    subst this
    refine ⟨?_, t, (added_iff _ _).1 ht, h4⟩
    dsimp only at h4
    rw [← h4]; exact h1

theorem between_mem (t : Rows) (a b : Key) (e : Key × Tx) : e ∈ between t a b ↔ e ∈ t ∧ e.1.before a = false ∧ e.1.before b = true := by
  unfold between
  rw [List.mem_filter]
  cases e.1.before a <;> simp

/-- **Transactions of an account**: rows of the account with logical times in the (inclusive) range, in the order of logical time. Logical times are less
than `2^64 - 2`. -/
theorem get_transactions_exact (evs : List Ev) (acct : Nat) (s e : Option Nat) (rev : Bool)
    (hlt : ∀ t, Stored evs t → t.key.lt < u64Max - 1) :
    (∀ k v, (k, v) ∈ (Sys.exec evs).db.getTransactions acct s e rev ↔
      (k, v) ∈ (Sys.exec evs).db.txs ∧ k.acct = acct ∧ (∀ x, s = some x → x ≤ k.lt) ∧ (∀ x, e = some x → k.lt ≤ x)) ∧
    ((Sys.exec evs).db.getTransactions acct s e rev).Pairwise (fun a b => if rev then b.1.lt < a.1.lt else a.1.lt < b.1.lt) := by
  have hi := exec_inv evs
  have hrow : ∀ x ∈ (Sys.exec evs).db.txs, x.1.lt < u64Max - 1 := by
    intro x hx
    obtain ⟨t, ht, h1, _⟩ := hi.rows x hx
    rw [← h1]; exact hlt t ((added_iff _ _).1 ht)
  have hord0 := hi.ordered
  clear hi
  generalize (Sys.exec evs).db = d at *
  have hmem : ∀ (a b : Nat) (k : Key) (v : Tx), (k, v) ∈ between d.txs ⟨acct, a⟩ ⟨acct, b⟩ ↔ (k, v) ∈ d.txs ∧ k.acct = acct ∧ a ≤ k.lt ∧ k.lt < b := by
    intro a b k v
    rw [between_mem, before_iff, before_false]
    dsimp only
    constructor
    · rintro ⟨h1, h2, h3⟩; exact ⟨h1, by omega, by omega, by omega⟩
    · rintro ⟨h1, h2, h3, h4⟩; exact ⟨h1, by omega, by omega⟩
  have hpw : ∀ (a b : Nat), (between d.txs ⟨acct, a⟩ ⟨acct, b⟩).Pairwise (fun a b => a.1.lt < b.1.lt) := by
    intro a b
    have h1 : (between d.txs ⟨acct, a⟩ ⟨acct, b⟩).Pairwise (fun a b => a.1.before b.1 = true) := List.Pairwise.filter _ hord0
    refine List.Pairwise.imp_of_mem ?_ h1
    intro x y hx hy hxy
    have h2 := (hmem a b x.1 x.2).1 hx
    have h3 := (hmem a b y.1 y.2).1 hy
    rw [before_iff] at hxy
    omega
  constructor
  · intro k v
    unfold Db.getTransactions
    have hm : ∀ (l : Rows), (k, v) ∈ (if rev = true then l.reverse else l) ↔ (k, v) ∈ l := by intro l; cases rev <;> simp
    dsimp only
    rw [hm]
    split
    · rename_i hes
      rw [hmem]
      constructor
      · rintro ⟨h1, _, h3, _⟩
        have := hrow _ h1
        dsimp only at this h3
        omega
      · rintro ⟨h1, _, h2, h3⟩
        exfalso
        have := hrow _ h1
        dsimp only at this
        cases s with
        | none => exact absurd hes (by simp)
        | some s =>
          have := h2 s rfl
          cases e with
          | none => simp only [Option.getD_some, Option.getD_none] at hes; omega
          | some e =>
            have := h3 e rfl
            simp only [Option.getD_some] at hes; omega
    · rw [hmem]
      refine and_congr_right (fun h1 => and_congr_right (fun _ => ?_))
      have := hrow _ h1
      dsimp only at this
      refine and_congr ?_ ?_
      · cases s <;> simp
      · cases e with
        | none => simp only [Option.getD_none, u64Max] at *; simp; omega
        | some e => simp only [Option.getD_some, u64Max] at *; simp; omega
  · unfold Db.getTransactions
    dsimp only
    cases rev with
    | false =>
      simp only [Bool.false_eq_true, if_false]
      exact hpw _ _
    | true =>
      simp only [if_true]
      exact List.pairwise_reverse.2 (hpw _ _)

/-- **The source transaction**: the latest transaction of the account with a logical time less than that of the message. -/
theorem get_src_exact (evs : List Ev) (acct lt : Nat) (v : Tx) :
    (Sys.exec evs).db.getSrc acct lt = some v ↔ ∃ k, (k, v) ∈ (Sys.exec evs).db.txs ∧ k.acct = acct ∧ k.lt < lt ∧
      ∀ e ∈ (Sys.exec evs).db.txs, e.1.acct = acct → e.1.lt < lt → e.1.lt ≤ k.lt := by
  have hord0 := (exec_inv evs).ordered
  generalize (Sys.exec evs).db = d at *
  have hmem : ∀ (e : Key × Tx), e ∈ between d.txs ⟨acct, 0⟩ ⟨acct, lt⟩ ↔ e ∈ d.txs ∧ e.1.acct = acct ∧ e.1.lt < lt := by
    intro e
    rw [between_mem, before_iff, before_false]
    dsimp only
    constructor
    · rintro ⟨h1, h2, h3⟩; exact ⟨h1, by omega, by omega⟩
    · rintro ⟨h1, h2, h3⟩; exact ⟨h1, by omega, by omega⟩
  have hord : (between d.txs ⟨acct, 0⟩ ⟨acct, lt⟩).Pairwise (fun a b => a.1.before b.1 = true) := List.Pairwise.filter _ hord0
  have hu := ordered_uniq hord0
  unfold Db.getSrc
  generalize between d.txs ⟨acct, 0⟩ ⟨acct, lt⟩ = l at *
  rcases List.eq_nil_or_concat l with rfl | ⟨l', e, rfl⟩
  · simp only [List.getLast?_nil]
    constructor
    · intro h; cases h
    · rintro ⟨k, h1, h2, h3, _⟩
      have := (hmem (k, v)).2 ⟨h1, h2, h3⟩
      cases this
  · obtain ⟨k, w⟩ := e
    have hk := (hmem (k, w)).1 (by simp)
    rw [List.concat_eq_append, List.getLast?_concat]
    dsimp only
    rw [if_neg (by simpa using hk.2.1), get_of_mem _ hu _ _ hk.1]
    have hmax : ∀ e ∈ d.txs, e.1.acct = acct → e.1.lt < lt → e.1.lt ≤ k.lt := by
      intro e h1 h2 h3
      have h4 := (hmem e).2 ⟨h1, h2, h3⟩
      rw [List.concat_eq_append, List.mem_append, List.mem_singleton] at h4
      rcases h4 with h4 | rfl
      · rw [List.concat_eq_append] at hord
        have := (List.pairwise_append.1 hord).2.2 e h4 (k, w) (by simp)
        rw [before_iff] at this
        have hk1 := hk.2.1
        dsimp only at this hk1
        omega
      · exact Nat.le_refl _
    constructor
    · intro h
      cases h
      exact ⟨k, hk.1, hk.2.1, hk.2.2, hmax⟩
    · rintro ⟨k', h1, h2, h3, h4⟩
      have h5 := h4 (k, w) hk.1 hk.2.1 hk.2.2
      have h6 := hmax (k', v) h1 h2 h3
      dsimp only at h5 h6
      have : k' = k := by
        have h7 := hk.2.1
        dsimp only at h7
        cases k; cases k'
        simp only at *
        subst h2 h7
        congr 1
        omega
      subst this
      have h8 := get_of_mem _ hu _ _ h1
      rw [get_of_mem _ hu _ _ hk.1] at h8
      exact h8

/-- A blacklisted account has no transactions in the storage. -/
theorem blacklisted_absent (evs : List Ev) (acct : Nat) (h : ∀ black b mc l, Ev.block black b mc l ∈ evs → black acct = true) :
    ∀ e ∈ (Sys.exec evs).db.txs, e.1.acct ≠ acct := by
  intro e he ha
  obtain ⟨t, ht, h1, _⟩ := (exec_inv evs).rows e he
  obtain ⟨black, b, mc, l, h2, _, h3⟩ := (added_iff evs t).1 ht
  rw [h1, ha, h black b mc l h2] at h3
  cases h3

end Tycho.Rpc
