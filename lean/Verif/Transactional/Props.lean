import Verif.Transactional.Lemmas

/-!
C01. For every type built from the transactional containers (`Shape`), every starting contents with
no transaction open (`Clean`) and every list of operations whose inserted values have no open
transaction of their own (`OpOk`).
-/
namespace Tycho.Transactional

/-- begin; any operations; rollback: exactly the starting container, bookkeeping included. -/
theorem rollback_restores (s : Shape) (t : s.Carrier) (ht : TxApi.Clean t)
    (ops : List (TxApi.Op s.Carrier)) (hops : ∀ op ∈ ops, TxApi.OpOk op) :
    Tx.rollback (run ops (Tx.begin t)) = t :=
  LawfulTx.tracks_rollback _ _ (run_tracks ops hops _ _ (LawfulTx.begin_tracks t ht))

/-- begin; any operations; commit: the same container as running the operations with no
transaction at all. -/
theorem commit_equals_plain_run (s : Shape) (t : s.Carrier) (ht : TxApi.Clean t)
    (ops : List (TxApi.Op s.Carrier)) (hops : ∀ op ∈ ops, TxApi.OpOk op) :
    Tx.commit (run ops (Tx.begin t)) = run ops t := by
  have htr := run_tracks ops hops _ _ (LawfulTx.begin_tracks t ht)
  apply LawfulTx.clean_ext _ _ (LawfulTx.tracks_commit_clean _ _ htr) (run_clean ops hops t ht)
  rw [LawfulTx.commit_view, run_view, run_view, LawfulTx.begin_view]

/-- What a reader sees in the middle of a transaction, after it, or without one, is the effect of
the operations on plain contents. -/
theorem reads_are_plain (s : Shape) (t : s.Carrier) (ops : List (TxApi.Op s.Carrier)) :
    TxApi.view (run ops (Tx.begin t)) = runView ops (TxApi.view t) ∧
    TxApi.view (Tx.commit (run ops (Tx.begin t))) = runView ops (TxApi.view t) ∧
    TxApi.view (run ops t) = runView ops (TxApi.view t) := by
  refine ⟨?_, ?_, run_view ops t⟩
  · rw [run_view, LawfulTx.begin_view]
  · rw [LawfulTx.commit_view, run_view, LawfulTx.begin_view]

/-- The transaction is reported open exactly between begin and commit / rollback, and after commit
or rollback nothing stored inside has a transaction open either. -/
theorem tx_open_exactly_inside (s : Shape) (t : s.Carrier) (ht : TxApi.Clean t)
    (ops : List (TxApi.Op s.Carrier)) (hops : ∀ op ∈ ops, TxApi.OpOk op) :
    Tx.inTx t = false ∧
    Tx.inTx (run ops (Tx.begin t)) = true ∧
    Tx.inTx (Tx.rollback (run ops (Tx.begin t))) = false ∧
    Tx.inTx (Tx.commit (run ops (Tx.begin t))) = false ∧
    TxApi.Clean (Tx.rollback (run ops (Tx.begin t))) ∧
    TxApi.Clean (Tx.commit (run ops (Tx.begin t))) := by
  have htr := run_tracks ops hops _ _ (LawfulTx.begin_tracks t ht)
  have hr := rollback_restores s t ht ops hops
  have hc := LawfulTx.tracks_commit_clean _ _ htr
  refine ⟨LawfulTx.clean_inTx _ ht, LawfulTx.tracks_inTx _ _ htr, ?_, LawfulTx.clean_inTx _ hc, ?_, hc⟩
  · rw [hr]; exact LawfulTx.clean_inTx _ ht
  · rw [hr]; exact ht

/-- Any number of guarded sections, each committed or dropped, has the effect of running just the
operations of the committed ones. -/
theorem guards_keep_committed_sections (s : Shape) (t : s.Carrier) (ht : TxApi.Clean t)
    (sections : List (Bool × List (TxApi.Op s.Carrier)))
    (hops : ∀ sec ∈ sections, ∀ op ∈ sec.2, TxApi.OpOk op) :
    sections.foldl (fun t sec => withGuard sec.1 (run sec.2) t) t =
      run ((sections.filter (fun sec => sec.1)).flatMap (fun sec => sec.2)) t := by
  induction sections generalizing t with
  | nil => rfl
  | cons sec rest ih =>
    obtain ⟨c, ops⟩ := sec
    have ho : ∀ op ∈ ops, TxApi.OpOk op := hops (c, ops) (List.mem_cons_self ..)
    have hr : ∀ sec ∈ rest, ∀ op ∈ sec.2, TxApi.OpOk op :=
      fun s hs => hops s (List.mem_cons_of_mem _ hs)
    cases c with
    | true =>
      have : withGuard true (run ops) t = run ops t := by
        change Tx.commit (run ops (Tx.begin t)) = run ops t
        exact commit_equals_plain_run s t ht ops ho
      simp only [List.foldl_cons]
      rw [this, ih _ (run_clean ops ho t ht) hr]
      simp [run, List.foldl_append]
    | false =>
      have : withGuard false (run ops) t = t := by
        change Tx.rollback (run ops (Tx.begin t)) = t
        exact rollback_restores s t ht ops ho
      simp only [List.foldl_cons]
      rw [this, ih _ ht hr]
      simp

/-! ### A concrete case: a map of optional values next to a counter -/

/-- struct { map: Map<Nat, Option<Value<Nat>>>, counter: Value<Nat> } -/
def exShape : Shape := .struct (.map Nat inferInstance (.option (.value Nat))) (.value Nat)

def exState : exShape.Carrier :=
  TPair.mk (TMap.new fun k => if k = 1 then some (TOption.new (some (TValue.new 10)))
      else if k = 2 then some (TOption.new none) else none)
    (TValue.new (0 : Nat))

/-- mutate in place, replace, remove, re-insert, add, remove the added, bump the counter -/
def exOps : List (TxApi.Op exShape.Carrier) :=
  [ Sum.inl (MapOp.mutate 1 (OptOp.mutate (fun (n : Nat) => n + 5))),
    Sum.inl (MapOp.mutate 1 (OptOp.set (some (TValue.new 7)))),
    Sum.inl (MapOp.remove 1),
    Sum.inl (MapOp.insert 1 (TOption.new none)),
    Sum.inl (MapOp.insert 3 (TOption.new (some (TValue.new 1)))),
    Sum.inl (MapOp.remove 3),
    Sum.inl (MapOp.mutate 2 (OptOp.set (some (TValue.new 4)))),
    Sum.inr (fun (n : Nat) => n + 1) ]

theorem exState_clean : TxApi.Clean exState := by
  refine ⟨⟨rfl, ?_⟩, rfl⟩
  intro k v hv
  simp only [exState, TMap.new] at hv
  split at hv
  · cases hv; exact ⟨rfl, by intro w hw; cases hw; rfl⟩
  · split at hv
    · cases hv; exact ⟨rfl, by intro w hw; cases hw⟩
    · cases hv

theorem exOps_ok : ∀ op ∈ exOps, TxApi.OpOk op := by
  refine List.forall_mem_cons.2 ⟨trivial, List.forall_mem_cons.2 ⟨?_, List.forall_mem_cons.2
    ⟨trivial, List.forall_mem_cons.2 ⟨?_, List.forall_mem_cons.2 ⟨?_, List.forall_mem_cons.2
    ⟨trivial, List.forall_mem_cons.2 ⟨?_, List.forall_mem_cons.2 ⟨trivial, ?_⟩⟩⟩⟩⟩⟩⟩⟩
  · intro v hv; cases hv; rfl
  · exact ⟨rfl, by intro w hw; cases hw⟩
  · exact ⟨rfl, by intro w hw; cases hw; rfl⟩
  · intro v hv; cases hv; rfl
  · intro op hop; cases hop

example : Tx.rollback (run exOps (Tx.begin exState)) = exState :=
  rollback_restores exShape exState exState_clean exOps exOps_ok

/-- The operations of the example really change what is read. -/
example : TxApi.view (run exOps exState) ≠ TxApi.view exState := by
  intro h
  have h1 : (1 : Nat) = 0 := congrArg Prod.snd h
  omega

end Tycho.Transactional
