import Verif.Rpc.TxSys

namespace Tycho.Rpc
open Tycho.Table

/-- What is known of transactions: an account has one transaction with a logical time, and hashes of different transactions differ. -/
structure Consistent (l : List BlockTx) : Prop where
  key : ∀ a ∈ l, ∀ b ∈ l, a.key = b.key → a = b
  hash : ∀ a ∈ l, ∀ b ∈ l, a.tx.hash = b.tx.hash → a = b

/-- a message is executed once -/
def MsgOnce (l : List BlockTx) : Prop := ∀ a ∈ l, ∀ b ∈ l, ∀ m, a.tx.msg = some m → b.tx.msg = some m → a = b

/-- No collection was to remove the transaction. -/
def Spared (s : Sys) (k : Key) : Prop := ∀ b ∈ s.begun, ¬ Old b.snap b.keep b.minLt k

structure SInv (s : Sys) : Prop where
  ordered : Ordered s.db.txs
  rows : ∀ e ∈ s.db.txs, ∃ t ∈ s.added, t.key = e.1 ∧ t.tx = e.2
  hash : ∀ h i, get s.db.byHash h = some i → ∃ t ∈ s.added, t.tx.hash = h ∧ t.key = i.key
  msg : ∀ m k, get s.db.byMsg m = some k → ∃ t ∈ s.added, t.tx.msg = some m ∧ t.key = k
  snaps : ∀ b ∈ s.begun, Ordered b.snap ∧ ∀ e ∈ b.snap, ∃ t ∈ s.added, t.key = e.1 ∧ t.tx = e.2
  runs : ∀ r ∈ s.runs, 0 < r.size ∧ Going r.snap.reverse r.size r.keep r.minLt r.gc ∧ (⟨r.snap, r.keep, r.minLt⟩ : Begun) ∈ s.begun
  keepRow : Consistent s.added → ∀ t ∈ s.added, Spared s t.key → (t.key, t.tx) ∈ s.db.txs
  keepHash : Consistent s.added → ∀ t ∈ s.added, Spared s t.key → ∃ i, get s.db.byHash t.tx.hash = some i ∧ i.key = t.key
  keepMsg : Consistent s.added → MsgOnce s.added → ∀ t ∈ s.added, Spared s t.key → ∀ m, t.tx.msg = some m → get s.db.byMsg m = some t.key

theorem init_inv : SInv Sys.init := by
  refine ⟨List.Pairwise.nil, fun e h => (by cases h), fun h i hh => (by cases hh), fun m k hh => (by cases hh), fun b h => (by cases h), fun r h => (by cases h),
    fun _ t h => (by cases h), fun _ t h => (by cases h), fun _ _ t h => (by cases h)⟩

theorem putTx_inv {s : Sys} (hi : SInv s) (b mc : Nat) (t : BlockTx) : SInv { s with db := s.db.putTx b mc t, added := s.added ++ [t] } := by
  have hsub : ∀ {P : BlockTx → Prop}, (∃ x ∈ s.added, P x) → ∃ x ∈ s.added ++ [t], P x := by
    rintro P ⟨x, h1, h2⟩; exact ⟨x, List.mem_append_left _ h1, h2⟩
  have hc : Consistent (s.added ++ [t]) → Consistent s.added := fun h =>
    ⟨fun a ha b hb => h.key a (List.mem_append_left _ ha) b (List.mem_append_left _ hb), fun a ha b hb =>
      h.hash a (List.mem_append_left _ ha) b (List.mem_append_left _ hb)⟩
  have hm : MsgOnce (s.added ++ [t]) → MsgOnce s.added := fun h a ha b hb => h a (List.mem_append_left _ ha) b (List.mem_append_left _ hb)
  have ht : t ∈ s.added ++ [t] := by simp
  refine ⟨ordered_putRow hi.ordered _ _, ?_, ?_, ?_, fun b hb => ⟨(hi.snaps b hb).1, fun e he => hsub ((hi.snaps b hb).2 e he)⟩, hi.runs, ?_, ?_, ?_⟩
  · intro e he
    rcases (mem_putRow _ _ _ _).1 he with rfl | ⟨h, _⟩
    · exact ⟨t, ht, rfl, rfl⟩
    · exact hsub (hi.rows e h)
  · intro h i hh
    have hh : get (put s.db.byHash t.tx.hash ⟨t.key, b, mc⟩) h = some i := hh
    rw [get_put] at hh
    split at hh
    · rename_i he
      cases hh
      exact ⟨t, ht, he.symm, rfl⟩
    · exact hsub (hi.hash h i hh)
  · intro m k hh
    have hh : get (match t.tx.msg with | none => s.db.byMsg | some m => put s.db.byMsg m t.key) m = some k := hh
    cases htm : t.tx.msg with
    | none => rw [htm] at hh; exact hsub (hi.msg m k hh)
    | some m' =>
      rw [htm] at hh
      dsimp only at hh
      rw [get_put] at hh
      split at hh
      · rename_i he
        cases hh
        exact ⟨t, ht, by rw [htm, he], rfl⟩
      · exact hsub (hi.msg m k hh)
  · intro hcon x hx hsp
    refine (mem_putRow _ _ _ _).2 ?_
    by_cases hxt : x.key = t.key
    · left
      rw [hcon.key x hx t ht hxt]
    · right
      rcases List.mem_append.1 hx with hx | hx
      · exact ⟨hi.keepRow (hc hcon) x hx hsp, hxt⟩
      · rw [List.mem_singleton] at hx; exact absurd (by rw [hx]) hxt
  · intro hcon x hx hsp
    show ∃ i, get (put s.db.byHash t.tx.hash ⟨t.key, b, mc⟩) x.tx.hash = some i ∧ i.key = x.key
    rw [get_put]
    split
    · rename_i he
      have := hcon.hash x hx t ht he
      exact ⟨_, rfl, by rw [this]⟩
    · rename_i he
      rcases List.mem_append.1 hx with hx | hx
      · exact hi.keepHash (hc hcon) x hx hsp
      · rw [List.mem_singleton] at hx; exact absurd (by rw [hx]) he
  · intro hcon hmo x hx hsp m hxm
    show get (match t.tx.msg with | none => s.db.byMsg | some m => put s.db.byMsg m t.key) m = some x.key
    rcases List.mem_append.1 hx with hx' | hx'
    · cases htm : t.tx.msg with
      | none => exact hi.keepMsg (hc hcon) (hm hmo) x hx' hsp m hxm
      | some m' =>
        dsimp only
        rw [get_put]
        split
        · rename_i he
          subst he
          rw [hmo x hx t ht m hxm htm]
        · exact hi.keepMsg (hc hcon) (hm hmo) x hx' hsp m hxm
    · rw [List.mem_singleton] at hx'
      subst hx'
      rw [hxm]
      dsimp only
      rw [get_put, if_pos rfl]

theorem block_inv {s : Sys} (hi : SInv s) (b mc : Nat) (l : List BlockTx) :
    SInv { s with db := l.foldl (fun d t => d.putTx b mc t) s.db, added := s.added ++ l } := by
  induction l generalizing s with
  | nil => simpa using hi
  | cons t l ih =>
    have := ih (putTx_inv hi b mc t)
    simpa using this

/-- what a batch of a collection may contain -/
def Allowed (b : Begun) (op : Op) : Prop :=
  (∀ x, coverOp x op → Old b.snap b.keep b.minLt x) ∧
  (∀ h, op = .hash h → ∃ e ∈ b.snap, Old b.snap b.keep b.minLt e.1 ∧ e.2.hash = h) ∧
  (∀ m, op = .msg m → ∃ e ∈ b.snap, Old b.snap b.keep b.minLt e.1 ∧ e.2.msg = some m)

theorem write_inv {s : Sys} (hi : SInv s) (b : Begun) (hb : b ∈ s.begun) (l : List Op) (hl : ∀ op ∈ l, Allowed b op) :
    SInv { s with db := s.db.write l } := by
  refine ⟨ordered_write hi.ordered l, fun e he => hi.rows e ((mem_write_txs _ _ _).1 he).1, ?_, ?_, hi.snaps, hi.runs, ?_, ?_, ?_⟩
  · intro h i hh
    have hh : get (s.db.write l).byHash h = some i := hh
    rw [get_write_hash] at hh
    split at hh
    · cases hh
    · exact hi.hash h i hh
  · intro h i hh
    have hh : get (s.db.write l).byMsg h = some i := hh
    rw [get_write_msg] at hh
    split at hh
    · cases hh
    · exact hi.msg h i hh
  · intro hc t ht hsp
    exact (mem_write_txs _ _ _).2 ⟨hi.keepRow hc t ht hsp, fun op hop hcov => hsp b hb ((hl op hop).1 _ hcov)⟩
  · intro hc t ht hsp
    show ∃ i, get (s.db.write l).byHash t.tx.hash = some i ∧ _
    rw [get_write_hash, if_neg]
    · exact hi.keepHash hc t ht hsp
    · intro hop
      obtain ⟨e, he, h1, h2⟩ := (hl _ hop).2.1 _ rfl
      obtain ⟨t', ht', h3, h4⟩ := (hi.snaps b hb).2 e he
      have : t' = t := hc.hash t' ht' t ht (by rw [h4, h2])
      subst this
      rw [← h3] at h1
      exact hsp b hb h1
  · intro hc hmo t ht hsp m hm
    show get (s.db.write l).byMsg m = _
    rw [get_write_msg, if_neg]
    · exact hi.keepMsg hc hmo t ht hsp m hm
    · intro hop
      obtain ⟨e, he, h1, h2⟩ := (hl _ hop).2.2 _ rfl
      obtain ⟨t', ht', h3, h4⟩ := (hi.snaps b hb).2 e he
      have : t' = t := hmo t' ht' t ht m (by rw [h4, h2]) hm
      subst this
      rw [← h3] at h1
      exact hsp b hb h1

theorem going_allowed {snap : Rows} {size keep minLt : Nat} {g : Gc} (h : Going snap.reverse size keep minLt g) (op : Op)
    (hop : op ∈ g.endAccount.ops) : Allowed ⟨snap, keep, minLt⟩ op := by
  obtain ⟨done, hg, _⟩ := h.inv
  have hcov := endAccount_covered g (fun e b h => .inl (hg.pendBegin e b h).2.1)
  obtain ⟨l, hl, hl1, hl2⟩ := endAccount_ops g
  refine ⟨fun x hx => (old_reverse _ _ _ _).1 (hg.sound x ((hcov x).1 (.inl ⟨op, hop, hx⟩))), ?_, ?_⟩
  · rintro h rfl
    rw [hl, List.mem_append] at hop
    obtain ⟨e, he, h1, h2⟩ := (hg.hash h).1 (hop.resolve_right (hl1 h))
    exact ⟨e, List.mem_reverse.1 (by rw [hg.split]; exact List.mem_append_left _ he), (old_reverse _ _ _ _).1 h1, h2⟩
  · rintro m rfl
    rw [hl, List.mem_append] at hop
    obtain ⟨e, he, h1, h2⟩ := (hg.msg m).1 (hop.resolve_right (hl2 m))
    exact ⟨e, List.mem_reverse.1 (by rw [hg.split]; exact List.mem_append_left _ he), (old_reverse _ _ _ _).1 h1, h2⟩

theorem finish_mem (g : Gc) (op : Op) (h : op ∈ g.finish.flatten) : op ∈ g.endAccount.ops := by
  by_cases hz : g.items = 0
  · rw [finish_zero g hz] at h
    obtain ⟨l, hl, _⟩ := endAccount_ops g
    rw [hl, Gc.ops]; simp [h]
  · rwa [finish_nonzero g hz] at h

theorem out_mem (g : Gc) (op : Op) (h : op ∈ g.out.flatten) : op ∈ g.endAccount.ops := by
  obtain ⟨l, hl, _⟩ := endAccount_ops g
  rw [hl, Gc.ops]; simp [h]

theorem drop_flatten {α : Type} (l : List (List α)) (n : Nat) (x : α) (h : x ∈ (l.drop n).flatten) : x ∈ l.flatten := by
  rw [List.mem_flatten] at *
  obtain ⟨y, h1, h2⟩ := h
  exact ⟨y, List.mem_of_mem_drop h1, h2⟩

theorem step_sys {s : Sys} (hi : SInv s) (ev : Ev) : SInv (s.next ev) := by
  cases ev with
  | block black b mc l => exact block_inv hi b mc _
  | gcBegin size keep minLt =>
    unfold Sys.next
    dsimp only
    split
    · exact hi
    · rename_i hsz
      refine ⟨hi.ordered, hi.rows, hi.hash, hi.msg, ?_, ?_, ?_, ?_, ?_⟩
      · intro b hb
        rcases List.mem_cons.1 hb with rfl | hb
        · exact ⟨hi.ordered, hi.rows⟩
        · exact hi.snaps b hb
      · intro r hr
        rcases List.mem_cons.1 hr with rfl | hr
        · exact ⟨Nat.pos_of_ne_zero hsz, going_start _ _ _ _, List.mem_cons_self⟩
        · obtain ⟨h1, h2, h3⟩ := hi.runs r hr
          exact ⟨h1, h2, List.mem_cons_of_mem _ h3⟩
      · exact fun hc t ht hsp => hi.keepRow hc t ht (fun b hb => hsp b (List.mem_cons_of_mem _ hb))
      · exact fun hc t ht hsp => hi.keepHash hc t ht (fun b hb => hsp b (List.mem_cons_of_mem _ hb))
      · exact fun hc hm t ht hsp => hi.keepMsg hc hm t ht (fun b hb => hsp b (List.mem_cons_of_mem _ hb))
  | gcStep i =>
    unfold Sys.next
    dsimp only
    cases hri : s.runs[i]? with
    | none => exact hi
    | some r =>
      have hr := List.mem_of_getElem? hri
      obtain ⟨h1, h2, h3⟩ := hi.runs r hr
      have hord := (hi.snaps _ h3).1
      dsimp only
      unfold Run.step
      cases hp : r.gc.pos with
      | nil =>
        dsimp only
        rw [writes_flatten]
        have := write_inv hi _ h3 (r.gc.finish.drop r.gc.out.length).flatten (fun op hop =>
          going_allowed h2 op (finish_mem _ _ (drop_flatten _ _ _ hop)))
        exact ⟨this.ordered, this.rows, this.hash, this.msg, this.snaps, fun r' hr' => this.runs r' (List.mem_of_mem_eraseIdx hr'), this.keepRow,
          this.keepHash, this.keepMsg⟩
      | cons e rest =>
        obtain ⟨k, v⟩ := e
        dsimp only
        rw [writes_flatten]
        have h4 := going_step (desc_reverse hord) h1 h2 k v rest hp
        have := write_inv hi _ h3 ((r.gc.step r.snap.reverse r.size r.keep r.minLt k v rest).out.drop r.gc.out.length).flatten (fun op hop =>
          going_allowed h4 op (out_mem _ _ (drop_flatten _ _ _ hop)))
        refine ⟨this.ordered, this.rows, this.hash, this.msg, this.snaps, fun r' hr' => ?_, this.keepRow, this.keepHash, this.keepMsg⟩
        rcases List.mem_or_eq_of_mem_set hr' with hr' | rfl
        · exact this.runs r' hr'
        · exact ⟨h1, h4, h3⟩
  | gcCancel i =>
    exact ⟨hi.ordered, hi.rows, hi.hash, hi.msg, hi.snaps, fun r hr => hi.runs r (List.mem_of_mem_eraseIdx hr), hi.keepRow, hi.keepHash, hi.keepMsg⟩
  | restart => exact ⟨hi.ordered, hi.rows, hi.hash, hi.msg, hi.snaps, fun r hr => (by cases hr), hi.keepRow, hi.keepHash, hi.keepMsg⟩

theorem exec_inv (evs : List Ev) : SInv (Sys.exec evs) := by
  unfold Sys.exec
  have : ∀ s, SInv s → SInv (evs.foldl Sys.next s) := by
    induction evs with
    | nil => exact fun s h => h
    | cons e l ih => exact fun s h => ih _ (step_sys h e)
  exact this _ init_inv

end Tycho.Rpc
