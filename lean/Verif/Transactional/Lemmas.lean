import Verif.Transactional.Spec

/-! The lawfulness of every container, by induction over operations. -/
namespace Tycho.Transactional

/-- The contract that makes a container usable inside another one. `Tracks t₀ t`: `t` is in a
transaction that began at `t₀`. -/
class LawfulTx (T : Type) [TxApi T] where
  Tracks : T → T → Prop
  view_apply : ∀ (op : TxApi.Op T) (t : T), TxApi.view (TxApi.apply op t) = TxApi.applyView op (TxApi.view t)
  clean_inTx : ∀ t : T, TxApi.Clean t → Tx.inTx t = false
  clean_apply : ∀ (op : TxApi.Op T) (t : T), TxApi.OpOk op → TxApi.Clean t → TxApi.Clean (TxApi.apply op t)
  clean_ext : ∀ t u : T, TxApi.Clean t → TxApi.Clean u → TxApi.view t = TxApi.view u → t = u
  begin_tracks : ∀ t : T, TxApi.Clean t → Tracks t (Tx.begin t)
  begin_view : ∀ t : T, TxApi.view (Tx.begin t) = TxApi.view t
  tracks_apply : ∀ (op : TxApi.Op T) (t₀ t : T), TxApi.OpOk op → Tracks t₀ t → Tracks t₀ (TxApi.apply op t)
  tracks_inTx : ∀ t₀ t : T, Tracks t₀ t → Tx.inTx t = true
  tracks_rollback : ∀ t₀ t : T, Tracks t₀ t → Tx.rollback t = t₀
  tracks_commit_clean : ∀ t₀ t : T, Tracks t₀ t → TxApi.Clean (Tx.commit t)
  commit_view : ∀ t : T, TxApi.view (Tx.commit t) = TxApi.view t
  tracks_clean : ∀ t₀ t : T, Tracks t₀ t → TxApi.Clean t₀

/-! ### value -/

instance {α : Type} : LawfulTx (TValue α) where
  Tracks t₀ t := t₀.snapshot = none ∧ t.snapshot = some t₀.value
  view_apply _ _ := rfl
  clean_inTx t h := by
    change t.snapshot.isSome = false
    rw [show t.snapshot = none from h]; rfl
  clean_apply _ _ _ h := h
  clean_ext t u ht hu h := by
    cases t; cases u; cases ht; cases hu; cases h; rfl
  begin_tracks t h := ⟨h, rfl⟩
  begin_view _ := rfl
  tracks_apply _ _ _ _ h := h
  tracks_inTx t₀ t h := by
    change t.snapshot.isSome = true
    rw [h.2]; rfl
  tracks_rollback t₀ t h := by
    cases t₀; cases t
    obtain ⟨h1, h2⟩ := h
    cases h1; cases h2; rfl
  tracks_commit_clean _ _ _ := rfl
  commit_view _ := rfl
  tracks_clean _ _ h := h.1

/-! ### option -/

/-- `Tracks` for options. -/
inductive OptTracks {T : Type} [TxApi T] [LawfulTx T] : TOption T → TOption T → Prop
  | inPlace (v₀ v : T) : LawfulTx.Tracks v₀ v → OptTracks ⟨some v₀, none⟩ ⟨some v, none⟩
  | savedSome (v₀ v : T) (cur : Option T) : LawfulTx.Tracks v₀ v →
      (∀ c, cur = some c → TxApi.Clean c) → OptTracks ⟨some v₀, none⟩ ⟨cur, some (some v)⟩
  | savedNone (cur : Option T) :
      (∀ c, cur = some c → TxApi.Clean c) → OptTracks ⟨none, none⟩ ⟨cur, some none⟩

instance {T : Type} [TxApi T] [LawfulTx T] : LawfulTx (TOption T) where
  Tracks := OptTracks
  view_apply op t := by
    cases op with
    | set new => rfl
    | mutate op =>
      change Option.map TxApi.view (Option.map (TxApi.apply op) t.value) = _
      cases t with | mk v s =>
      cases v with
      | none => rfl
      | some v => exact congrArg some (LawfulTx.view_apply op v)
  clean_inTx t h := by
    obtain ⟨h1, h2⟩ := h
    cases t with | mk v s =>
    cases h1
    cases v with
    | none => rfl
    | some v =>
      change (Tx.inTx v || false) = false
      rw [LawfulTx.clean_inTx v (h2 v rfl)]; rfl
  clean_apply op t hop h := by
    obtain ⟨h1, h2⟩ := h
    cases t with | mk v s =>
    cases h1
    cases op with
    | set new =>
      have hx : (TOption.mk v none).txActive = false := by
        cases v with
        | none => rfl
        | some v =>
          change (Tx.inTx v || false) = false
          rw [LawfulTx.clean_inTx v (h2 v rfl)]; rfl
      have : (TOption.mk v none).set new = ⟨new, none⟩ := by
        unfold TOption.set; rw [hx]; rfl
      change TxApi.Clean ((TOption.mk v none).set new)
      rw [this]
      exact ⟨rfl, hop⟩
    | mutate op =>
      refine ⟨rfl, ?_⟩
      intro w hw
      change Option.map (TxApi.apply op) v = some w at hw
      cases v with
      | none => cases hw
      | some v => cases hw; exact LawfulTx.clean_apply op v hop (h2 v rfl)
  clean_ext t u ht hu h := by
    obtain ⟨t1, t2⟩ := ht
    obtain ⟨u1, u2⟩ := hu
    cases t with | mk v s =>
    cases u with | mk w r =>
    cases t1; cases u1
    change Option.map TxApi.view v = Option.map TxApi.view w at h
    cases v with
    | none => cases w with
      | none => rfl
      | some w => cases h
    | some v => cases w with
      | none => cases h
      | some w =>
        have := LawfulTx.clean_ext v w (t2 v rfl) (u2 w rfl) (Option.some.inj h)
        rw [this]
  begin_tracks t h := by
    obtain ⟨h1, h2⟩ := h
    cases t with | mk v s =>
    cases h1
    cases v with
    | none => exact .savedNone none (by intro c hc; cases hc)
    | some v => exact .inPlace v _ (LawfulTx.begin_tracks v (h2 v rfl))
  begin_view t := by
    cases t with | mk v s =>
    cases v with
    | none => rfl
    | some v => exact congrArg some (LawfulTx.begin_view v)
  tracks_apply op t₀ t hop h := by
    cases op with
    | set new =>
      cases h with
      | inPlace v₀ v hv =>
        have hx : (TOption.mk (some v) none).txActive = true := by
          change (Tx.inTx v || false) = true
          rw [LawfulTx.tracks_inTx _ _ hv]; rfl
        have : (TOption.mk (some v) none).set new = ⟨new, some (some v)⟩ := by
          unfold TOption.set; rw [hx]; rfl
        change OptTracks _ ((TOption.mk (some v) none).set new)
        rw [this]
        exact .savedSome v₀ v new hv hop
      | savedSome v₀ v cur hv hc => exact .savedSome v₀ v new hv hop
      | savedNone cur hc => exact .savedNone new hop
    | mutate op =>
      cases h with
      | inPlace v₀ v hv => exact .inPlace v₀ _ (LawfulTx.tracks_apply op v₀ v hop hv)
      | savedSome v₀ v cur hv hc =>
        refine .savedSome v₀ v _ hv ?_
        intro c h
        cases cur with
        | none => cases h
        | some d => cases h; exact LawfulTx.clean_apply op d hop (hc d rfl)
      | savedNone cur hc =>
        refine .savedNone _ ?_
        intro c h
        cases cur with
        | none => cases h
        | some d => cases h; exact LawfulTx.clean_apply op d hop (hc d rfl)
  tracks_inTx t₀ t h := by
    cases h with
    | inPlace v₀ v hv =>
      change (Tx.inTx v || false) = true
      rw [LawfulTx.tracks_inTx _ _ hv]; rfl
    | savedSome v₀ v cur hv hc => exact Bool.or_true _
    | savedNone cur hc => exact Bool.or_true _
  tracks_rollback t₀ t h := by
    cases h with
    | inPlace v₀ v hv =>
      change TOption.mk (some (if Tx.inTx v then Tx.rollback v else v)) none = _
      rw [LawfulTx.tracks_inTx _ _ hv, if_pos rfl, LawfulTx.tracks_rollback _ _ hv]
    | savedSome v₀ v cur hv hc =>
      change TOption.mk (some (if Tx.inTx v then Tx.rollback v else v)) none = _
      rw [LawfulTx.tracks_inTx _ _ hv, if_pos rfl, LawfulTx.tracks_rollback _ _ hv]
    | savedNone cur hc => rfl
  tracks_commit_clean t₀ t h := by
    have key : ∀ (cur : Option T), (∀ c, cur = some c → TxApi.Clean c) →
        ∀ v, cur.map (fun v => if Tx.inTx v then Tx.commit v else v) = some v → TxApi.Clean v := by
      intro cur hc v hv
      cases cur with
      | none => cases hv
      | some d =>
        have := hc d rfl
        simp only [Option.map_some, LawfulTx.clean_inTx d this] at hv
        cases hv; exact this
    cases h with
    | inPlace v₀ v hv =>
      refine ⟨rfl, ?_⟩
      intro w hw
      change some (if Tx.inTx v then Tx.commit v else v) = some w at hw
      rw [LawfulTx.tracks_inTx _ _ hv, if_pos rfl] at hw
      cases hw
      exact LawfulTx.tracks_commit_clean _ _ hv
    | savedSome v₀ v cur hv hc => exact ⟨rfl, key cur hc⟩
    | savedNone cur hc => exact ⟨rfl, key cur hc⟩
  commit_view t := by
    change Option.map TxApi.view (Option.map _ t.value) = Option.map TxApi.view t.value
    cases t with | mk v s =>
    cases v with
    | none => rfl
    | some v =>
      change some (TxApi.view (if Tx.inTx v then Tx.commit v else v)) = _
      split
      · exact congrArg some (LawfulTx.commit_view v)
      · rfl
  tracks_clean t₀ t h := by
    cases h with
    | inPlace v₀ v hv => exact ⟨rfl, by intro w hw; cases hw; exact LawfulTx.tracks_clean _ _ hv⟩
    | savedSome v₀ v cur hv hc => exact ⟨rfl, by intro w hw; cases hw; exact LawfulTx.tracks_clean _ _ hv⟩
    | savedNone cur hc => exact ⟨rfl, by intro w hw; cases hw⟩

/-! ### map -/

/-- State of one key inside a map transaction: what was there at the beginning, what is there now,
whether the key is in `added`, what is saved in `removed`. -/
inductive KeyTracks {V : Type} [TxApi V] [LawfulTx V] : Option V → Option V → Bool → Option V → Prop
  | absent : KeyTracks none none false none
  | added (v : V) : TxApi.Clean v → KeyTracks none (some v) true none
  | inPlace (v₀ v : V) : LawfulTx.Tracks v₀ v → KeyTracks (some v₀) (some v) false none
  | saved (v₀ v : V) (cur : Option V) : LawfulTx.Tracks v₀ v →
      (∀ c, cur = some c → TxApi.Clean c) → KeyTracks (some v₀) cur false (some v)

def MapTracks {K V : Type} [TxApi V] [LawfulTx V] (m₀ m : TMap K V) : Prop :=
  m₀.tx = none ∧ ∃ tx, m.tx = some tx ∧
    ∀ k, KeyTracks (m₀.inner k) (m.inner k) (tx.added k) (tx.removed k)

section
variable {K V : Type} [DecidableEq K] [TxApi V] [LawfulTx V]

theorem insert_inner (k : K) (v : V) (m : TMap K V) (k' : K) :
    (m.insert k v).inner k' = if k' = k then some v else m.inner k' := by
  have h : (m.insert k v).inner = upd m.inner k (some v) := by
    unfold TMap.insert
    cases m.tx with
    | none => rfl
    | some tx =>
      cases m.inner k with
      | none => dsimp only; split <;> rfl
      | some w => dsimp only; split <;> rfl
  rw [h]; rfl

theorem remove_inner (k : K) (m : TMap K V) (k' : K) :
    (m.remove k).inner k' = if k' = k then none else m.inner k' := by
  unfold TMap.remove upd
  repeat' split
  all_goals simp_all

theorem foldl_remove_inner (ks : List K) (m : TMap K V) (k' : K) :
    (ks.foldl (fun m k => m.remove k) m).inner k' = if k' ∈ ks then none else m.inner k' := by
  induction ks generalizing m with
  | nil => simp
  | cons k ks ih =>
    simp only [List.foldl_cons, ih, remove_inner, List.mem_cons]
    by_cases h1 : k' ∈ ks <;> by_cases h2 : k' = k <;> simp [h1, h2]

theorem remove_tx_none (k : K) (m : TMap K V) (h : m.tx = none) : (m.remove k).tx = none := by
  unfold TMap.remove
  split
  · exact h
  · rw [h]

theorem clean_remove (k : K) (m : TMap K V) (h : TxApi.Clean m) : TxApi.Clean (m.remove k) := by
  refine ⟨remove_tx_none k m h.1, ?_⟩
  intro k' v hv
  rw [remove_inner] at hv
  split at hv
  · cases hv
  · exact h.2 k' v hv

theorem tracks_insert (k : K) (v : V) (m₀ m : TMap K V) (hv : TxApi.Clean v)
    (h : MapTracks m₀ m) : MapTracks m₀ (m.insert k v) := by
  obtain ⟨h0, tx, htx, hk⟩ := h
  refine ⟨h0, ?_⟩
  have hkk := hk k
  unfold TMap.insert
  rw [htx]
  generalize hm0 : m₀.inner k = a at hkk
  generalize hm : m.inner k = b at hkk
  generalize ha : tx.added k = c at hkk
  generalize hr : tx.removed k = d at hkk
  cases hkk with
  | absent =>
    refine ⟨{ tx with added := upd tx.added k true }, by simp [hr, ha], ?_⟩
    intro k'
    by_cases hkk' : k' = k
    · subst hkk'
      simpa [hm0, upd, hr, ha] using KeyTracks.added v hv
    · simpa [upd, hkk', hr, ha] using hk k'
  | added w hw =>
    refine ⟨tx, by simp [hr, ha], ?_⟩
    intro k'
    by_cases hkk' : k' = k
    · subst hkk'
      simpa [hm0, upd, hr, ha] using KeyTracks.added v hv
    · simpa [upd, hkk', hr, ha] using hk k'
  | inPlace v₀ w hw =>
    refine ⟨{ tx with removed := upd tx.removed k (some w) }, by simp [hr, ha], ?_⟩
    intro k'
    by_cases hkk' : k' = k
    · subst hkk'
      have := KeyTracks.saved v₀ w (some v) hw (by intro c hc; cases hc; exact hv)
      simpa [hm0, upd, hr, ha] using this
    · simpa [upd, hkk', hr, ha] using hk k'
  | saved v₀ w cur hw hcur =>
    refine ⟨tx, by cases b <;> simp [hr, ha], ?_⟩
    intro k'
    by_cases hkk' : k' = k
    · subst hkk'
      have := KeyTracks.saved v₀ w (some v) hw (by intro c hc; cases hc; exact hv)
      cases b <;> simpa [hm0, upd, hr, ha] using this
    · cases b <;> simpa [upd, hkk', hr, ha] using hk k'

theorem tracks_remove (k : K) (m₀ m : TMap K V)
    (h : MapTracks m₀ m) : MapTracks m₀ (m.remove k) := by
  obtain ⟨h0, tx, htx, hk⟩ := h
  refine ⟨h0, ?_⟩
  have hkk := hk k
  unfold TMap.remove
  rw [htx]
  generalize hm0 : m₀.inner k = a at hkk
  generalize hm : m.inner k = b at hkk
  generalize ha : tx.added k = c at hkk
  generalize hr : tx.removed k = d at hkk
  cases hkk with
  | absent => exact ⟨tx, htx, hk⟩
  | added w hw =>
    refine ⟨{ tx with added := upd tx.added k false }, by simp [hr, ha], ?_⟩
    intro k'
    by_cases hkk' : k' = k
    · subst hkk'
      simpa [hm0, upd, hr, ha] using KeyTracks.absent
    · simpa [upd, hkk', hr, ha] using hk k'
  | inPlace v₀ w hw =>
    refine ⟨{ tx with removed := upd tx.removed k (some w) }, by simp [hr, ha], ?_⟩
    intro k'
    by_cases hkk' : k' = k
    · subst hkk'
      have := KeyTracks.saved v₀ w none hw (by intro c hc; cases hc)
      simpa [hm0, upd, hr, ha] using this
    · simpa [upd, hkk', hr, ha] using hk k'
  | saved v₀ w cur hw hcur =>
    cases b with
    | none => exact ⟨tx, htx, hk⟩
    | some b =>
      refine ⟨tx, by simp [hr, ha], ?_⟩
      intro k'
      by_cases hkk' : k' = k
      · subst hkk'
        have := KeyTracks.saved v₀ w none hw (by intro c hc; cases hc)
        simpa [hm0, upd, hr, ha] using this
      · simpa [upd, hkk', hr, ha] using hk k'

theorem keyTracks_map {a b : Option V} {c : Bool} {d : Option V} (op : TxApi.Op V)
    (hop : TxApi.OpOk op) (h : KeyTracks a b c d) : KeyTracks a (b.map (TxApi.apply op)) c d := by
  cases h with
  | absent => exact .absent
  | added v hv => exact .added _ (LawfulTx.clean_apply op v hop hv)
  | inPlace v₀ v hv => exact .inPlace v₀ _ (LawfulTx.tracks_apply op v₀ v hop hv)
  | saved v₀ v cur hv hc =>
    refine .saved v₀ v _ hv ?_
    intro c h
    cases b with
    | none => cases h
    | some d => cases h; exact LawfulTx.clean_apply op d hop (hc d rfl)

theorem tracks_mutateAll (f : K → TxApi.Op V) (hf : ∀ k, TxApi.OpOk (f k)) (m₀ m : TMap K V)
    (h : MapTracks m₀ m) : MapTracks m₀ (m.mutateAll (fun k => TxApi.apply (f k))) := by
  obtain ⟨h0, tx, htx, hk⟩ := h
  exact ⟨h0, tx, htx, fun k => keyTracks_map (f k) (hf k) (hk k)⟩

theorem clean_mutateAll (f : K → TxApi.Op V) (hf : ∀ k, TxApi.OpOk (f k)) (m : TMap K V)
    (h : TxApi.Clean m) : TxApi.Clean (m.mutateAll (fun k => TxApi.apply (f k))) := by
  refine ⟨h.1, ?_⟩
  intro k v hv
  change (m.inner k).map _ = some v at hv
  cases hm : m.inner k with
  | none => rw [hm] at hv; cases hv
  | some w => rw [hm] at hv; cases hv; exact LawfulTx.clean_apply _ _ (hf k) (h.2 k w hm)

theorem foldl_remove_clean (ks : List K) (n : TMap K V) (h : TxApi.Clean n) :
    TxApi.Clean (ks.foldl (fun (m : TMap K V) k => m.remove k) n) := by
  induction ks generalizing n with
  | nil => exact h
  | cons k ks ih => exact ih _ (clean_remove k n h)

theorem foldl_remove_tracks (ks : List K) (m₀ n : TMap K V) (h : MapTracks m₀ n) :
    MapTracks m₀ (ks.foldl (fun (m : TMap K V) k => m.remove k) n) := by
  induction ks generalizing n with
  | nil => exact h
  | cons k ks ih => exact ih _ (tracks_remove k m₀ n h)

instance : LawfulTx (TMap K V) where
  Tracks := MapTracks
  view_apply op m := by
    funext k'
    cases op with
    | insert k v =>
      change Option.map TxApi.view ((m.insert k v).inner k') = if k' = k then _ else _
      rw [insert_inner]; split <;> rfl
    | remove k =>
      change Option.map TxApi.view ((m.remove k).inner k') = if k' = k then _ else _
      rw [remove_inner]; split <;> rfl
    | mutate k op =>
      change Option.map TxApi.view (if k' = k then _ else _) = if k' = k then _ else _
      split
      · change Option.map TxApi.view (Option.map _ (m.inner k)) = Option.map _ (Option.map _ (m.inner k))
        cases m.inner k with
        | none => rfl
        | some v => exact congrArg some (LawfulTx.view_apply op v)
      · rfl
    | mutateAll f =>
      change Option.map TxApi.view (Option.map _ (m.inner k')) = Option.map _ (Option.map _ (m.inner k'))
      cases m.inner k' with
      | none => rfl
      | some v => exact congrArg some (LawfulTx.view_apply (f k') v)
    | retain f ks =>
      change Option.map TxApi.view ((ks.foldl (fun (m : TMap K V) k => m.remove k) _).inner k') = if k' ∈ ks then _ else _
      rw [foldl_remove_inner]
      split
      · rfl
      · change Option.map TxApi.view (Option.map _ (m.inner k')) = Option.map _ (Option.map _ (m.inner k'))
        cases m.inner k' with
        | none => rfl
        | some v => exact congrArg some (LawfulTx.view_apply (f k') v)
  clean_inTx m h := by
    change m.tx.isSome = false
    rw [h.1]; rfl
  clean_apply op m hop h := by
    cases op with
    | insert k v =>
      refine ⟨?_, ?_⟩
      · change (m.insert k v).tx = none
        unfold TMap.insert; rw [h.1]
      · intro k' w hw
        change (m.insert k v).inner k' = some w at hw
        rw [insert_inner] at hw
        split at hw
        · cases hw; exact hop
        · exact h.2 k' w hw
    | remove k => exact clean_remove k m h
    | mutate k op =>
      refine ⟨h.1, ?_⟩
      intro k' w hw
      change (if k' = k then _ else _) = some w at hw
      split at hw
      · cases hm : m.inner k with
        | none => rw [hm] at hw; cases hw
        | some v => rw [hm] at hw; cases hw; exact LawfulTx.clean_apply _ _ hop (h.2 k v hm)
      · exact h.2 k' w hw
    | mutateAll f => exact clean_mutateAll f hop m h
    | retain f ks =>
      change TxApi.Clean (ks.foldl (fun m k => m.remove k) (m.mutateAll (fun k => TxApi.apply (f k))))
      exact foldl_remove_clean ks _ (clean_mutateAll f hop m h)
  clean_ext m n hm hn h := by
    cases m with | mk mi mt =>
    cases n with | mk ni nt =>
    obtain ⟨h1, h2⟩ := hm
    obtain ⟨g1, g2⟩ := hn
    cases h1; cases g1
    have : mi = ni := by
      funext k
      have hk : (mi k).map TxApi.view = (ni k).map TxApi.view := congrFun h k
      cases hmk : mi k with
      | none => cases hnk : ni k with
        | none => rfl
        | some w => rw [hmk, hnk] at hk; cases hk
      | some v => cases hnk : ni k with
        | none => rw [hmk, hnk] at hk; cases hk
        | some w =>
          rw [hmk, hnk] at hk
          rw [LawfulTx.clean_ext v w (h2 k v hmk) (g2 k w hnk) (Option.some.inj hk)]
    rw [this]
  begin_tracks m h := by
    refine ⟨h.1, _, rfl, ?_⟩
    intro k
    change KeyTracks (m.inner k) ((m.inner k).map Tx.begin) false none
    cases hm : m.inner k with
    | none => exact .absent
    | some v => exact .inPlace v _ (LawfulTx.begin_tracks v (h.2 k v hm))
  begin_view m := by
    funext k
    change Option.map TxApi.view (Option.map Tx.begin (m.inner k)) = Option.map TxApi.view (m.inner k)
    cases m.inner k with
    | none => rfl
    | some v => exact congrArg some (LawfulTx.begin_view v)
  tracks_apply op m₀ m hop h := by
    cases op with
    | insert k v => exact tracks_insert k v m₀ m hop h
    | remove k => exact tracks_remove k m₀ m h
    | mutate k op =>
      obtain ⟨h0, tx, htx, hk⟩ := h
      refine ⟨h0, tx, htx, ?_⟩
      intro k'
      change KeyTracks _ (if k' = k then _ else _) _ _
      split
      · rename_i he; subst he; exact keyTracks_map op hop (hk k')
      · exact hk k'
    | mutateAll f => exact tracks_mutateAll f hop m₀ m h
    | retain f ks =>
      change MapTracks m₀ (ks.foldl (fun m k => m.remove k) (m.mutateAll (fun k => TxApi.apply (f k))))
      exact foldl_remove_tracks ks m₀ _ (tracks_mutateAll f hop m₀ m h)
  tracks_inTx m₀ m h := by
    obtain ⟨_, tx, htx, _⟩ := h
    change m.tx.isSome = true
    rw [htx]; rfl
  tracks_rollback m₀ m h := by
    obtain ⟨h0, tx, htx, hk⟩ := h
    cases m with | mk mi mt =>
    cases m₀ with | mk m0i m0t =>
    cases h0; cases htx
    change TMap.mk (fun k => Option.map _ (match tx.removed k with
      | some v => some v
      | none => if tx.added k then none else mi k)) none = TMap.mk m0i none
    congr 1
    funext k
    have := hk k
    simp only at this
    generalize m0i k = a at this
    generalize mi k = b at this
    generalize tx.added k = c at this
    generalize tx.removed k = d at this
    cases this with
    | absent => rfl
    | added v hv => rfl
    | inPlace v₀ v hv =>
      simp [LawfulTx.tracks_inTx _ _ hv, LawfulTx.tracks_rollback _ _ hv]
    | saved v₀ v cur hv hc =>
      simp [LawfulTx.tracks_inTx _ _ hv, LawfulTx.tracks_rollback _ _ hv]
  tracks_commit_clean m₀ m h := by
    obtain ⟨h0, tx, htx, hk⟩ := h
    refine ⟨rfl, ?_⟩
    intro k v hv
    change Option.map _ (m.inner k) = some v at hv
    have clean_case : ∀ w, TxApi.Clean w → (if Tx.inTx w then Tx.commit w else w) = v → TxApi.Clean v := by
      intro w hw he
      rw [LawfulTx.clean_inTx w hw] at he
      cases he; exact hw
    have := hk k
    generalize m₀.inner k = a at this
    generalize m.inner k = b at this hv
    generalize tx.added k = c at this
    generalize tx.removed k = d at this
    cases this with
    | absent => cases hv
    | added w hw => exact clean_case w hw (Option.some.inj hv)
    | inPlace v₀ w hw =>
      have : (if Tx.inTx w then Tx.commit w else w) = v := Option.some.inj hv
      rw [LawfulTx.tracks_inTx _ _ hw, if_pos rfl] at this
      cases this
      exact LawfulTx.tracks_commit_clean _ _ hw
    | saved v₀ w cur hw hc =>
      cases b with
      | none => cases hv
      | some b => exact clean_case b (hc b rfl) (Option.some.inj hv)
  commit_view m := by
    funext k
    change Option.map TxApi.view (Option.map _ (m.inner k)) = Option.map TxApi.view (m.inner k)
    cases m.inner k with
    | none => rfl
    | some v =>
      change some (TxApi.view (if Tx.inTx v then Tx.commit v else v)) = _
      split
      · exact congrArg some (LawfulTx.commit_view v)
      · rfl
  tracks_clean m₀ m h := by
    obtain ⟨h0, tx, htx, hk⟩ := h
    refine ⟨h0, ?_⟩
    intro k v hv
    have := hk k
    rw [hv] at this
    generalize m.inner k = b at this
    generalize tx.added k = c at this
    generalize tx.removed k = d at this
    cases this with
    | inPlace v₀ w hw => exact LawfulTx.tracks_clean _ _ hw
    | saved v₀ w cur hw hc => exact LawfulTx.tracks_clean _ _ hw

end

/-! ### derived struct -/

instance {A B : Type} [TxApi A] [LawfulTx A] [TxApi B] [LawfulTx B] : LawfulTx (TPair A B) where
  Tracks p q := LawfulTx.Tracks p.fst q.fst ∧ LawfulTx.Tracks p.snd q.snd
  view_apply op p := by
    cases op with
    | inl a =>
      change (TxApi.view (TxApi.apply a p.fst), _) = (_, _)
      rw [LawfulTx.view_apply]; rfl
    | inr b =>
      change (_, TxApi.view (TxApi.apply b p.snd)) = (_, _)
      rw [LawfulTx.view_apply]; rfl
  clean_inTx p h := by
    change (Tx.inTx p.fst || Tx.inTx p.snd) = false
    rw [LawfulTx.clean_inTx _ h.1, LawfulTx.clean_inTx _ h.2]; rfl
  clean_apply op p hop h := by
    cases op with
    | inl a => exact ⟨LawfulTx.clean_apply a _ hop h.1, h.2⟩
    | inr b => exact ⟨h.1, LawfulTx.clean_apply b _ hop h.2⟩
  clean_ext p q hp hq h := by
    cases p; cases q
    have h1 := LawfulTx.clean_ext _ _ hp.1 hq.1 (congrArg Prod.fst h)
    have h2 := LawfulTx.clean_ext _ _ hp.2 hq.2 (congrArg Prod.snd h)
    cases h1; cases h2; rfl
  begin_tracks p h := ⟨LawfulTx.begin_tracks _ h.1, LawfulTx.begin_tracks _ h.2⟩
  begin_view p := Prod.ext (LawfulTx.begin_view _) (LawfulTx.begin_view _)
  tracks_apply op p q hop h := by
    cases op with
    | inl a => exact ⟨LawfulTx.tracks_apply a _ _ hop h.1, h.2⟩
    | inr b => exact ⟨h.1, LawfulTx.tracks_apply b _ _ hop h.2⟩
  tracks_inTx p q h := by
    change (Tx.inTx q.fst || Tx.inTx q.snd) = true
    rw [LawfulTx.tracks_inTx _ _ h.1]; rfl
  tracks_rollback p q h := by
    change TPair.mk (Tx.rollback q.fst) (Tx.rollback q.snd) = p
    rw [LawfulTx.tracks_rollback _ _ h.1, LawfulTx.tracks_rollback _ _ h.2]
  tracks_commit_clean p q h :=
    ⟨LawfulTx.tracks_commit_clean _ _ h.1, LawfulTx.tracks_commit_clean _ _ h.2⟩
  commit_view p := Prod.ext (LawfulTx.commit_view _) (LawfulTx.commit_view _)
  tracks_clean p q h := ⟨LawfulTx.tracks_clean _ _ h.1, LawfulTx.tracks_clean _ _ h.2⟩

instance Shape.lawful : (s : Shape) → LawfulTx s.Carrier
  | .value α => inferInstanceAs (LawfulTx (TValue α))
  | .option s => letI := Shape.lawful s; inferInstanceAs (LawfulTx (TOption s.Carrier))
  | .map K eq s => letI := Shape.lawful s; letI := eq; inferInstanceAs (LawfulTx (TMap K s.Carrier))
  | .struct a b =>
    letI := Shape.lawful a; letI := Shape.lawful b
    inferInstanceAs (LawfulTx (TPair a.Carrier b.Carrier))

theorem run_tracks {T : Type} [TxApi T] [LawfulTx T] (ops : List (TxApi.Op T))
    (hops : ∀ op ∈ ops, TxApi.OpOk op) (t₀ t : T) (h : LawfulTx.Tracks t₀ t) :
    LawfulTx.Tracks t₀ (run ops t) := by
  induction ops generalizing t with
  | nil => exact h
  | cons op ops ih =>
    exact ih (fun o ho => hops o (List.mem_cons_of_mem _ ho)) _
      (LawfulTx.tracks_apply op t₀ t (hops op (List.mem_cons_self ..)) h)

theorem run_view {T : Type} [TxApi T] [LawfulTx T] (ops : List (TxApi.Op T)) (t : T) :
    TxApi.view (run ops t) = runView ops (TxApi.view t) := by
  induction ops generalizing t with
  | nil => rfl
  | cons op ops ih =>
    change TxApi.view (run ops (TxApi.apply op t)) = _
    rw [ih, LawfulTx.view_apply]; rfl

theorem run_clean {T : Type} [TxApi T] [LawfulTx T] (ops : List (TxApi.Op T))
    (hops : ∀ op ∈ ops, TxApi.OpOk op) (t : T) (h : TxApi.Clean t) :
    TxApi.Clean (run ops t) := by
  induction ops generalizing t with
  | nil => exact h
  | cons op ops ih =>
    exact ih (fun o ho => hops o (List.mem_cons_of_mem _ ho)) _
      (LawfulTx.clean_apply op t (hops op (List.mem_cons_self ..)) h)

end Tycho.Transactional
