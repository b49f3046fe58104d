import Verif.ShardStates.Inv

namespace Tycho.ShardStates

/-! ### Loading -/

theorem search_last (env : Env) (get : Id → Bool) (ignore : Bool) (complete : Nat → Bool) (σ : Nat → St) (b : Id) (fuel i : Nat) (x : Id)
    (upds : List Id) (h : (upds = [] ∧ x = b) ∨ upds.getLast? = some b) (l : List Id)
    (hr : (∃ r, search env get ignore complete σ fuel i x upds = .cached r l) ∨ (∃ t y, search env get ignore complete σ fuel i x upds = .await t y l) ∨
      (∃ p, search env get ignore complete σ fuel i x upds = .disk p l)) : l = [] ∨ l.getLast? = some b := by
  induction fuel generalizing i x upds with
  | zero => rcases hr with ⟨r, hr⟩ | ⟨t, y, hr⟩ | ⟨p, hr⟩ <;> cases hr
  | succ fuel ih =>
    have hx : (x :: upds).getLast? = some b := by
      rcases h with ⟨rfl, rfl⟩ | h
      · rfl
      · cases upds with
        | nil => cases h
        | cons y l => rw [List.getLast?_cons_cons]; exact h
    have h' : upds = [] ∨ upds.getLast? = some b := h.imp (fun h => h.1) id
    have next := ih (i + 1) (env.prev x) (x :: upds) (.inr hx)
    generalize hs : search env get ignore complete σ (fuel + 1) i x upds = o at hr
    rw [search] at hs
    split at hs
    · split at hs
      · subst hs; rcases hr with ⟨r, hr⟩ | ⟨t, y, hr⟩ | ⟨p, hr⟩ <;> cases hr; exact h'
      · subst hs; rcases hr with ⟨r, hr⟩ | ⟨t, y, hr⟩ | ⟨p, hr⟩ <;> cases hr
      · split at hs
        · subst hs; rcases hr with ⟨r, hr⟩ | ⟨t, y, hr⟩ | ⟨p, hr⟩ <;> cases hr; exact h'
        · subst hs; exact next hr
    · split at hs
      · subst hs; rcases hr with ⟨r, hr⟩ | ⟨t, y, hr⟩ | ⟨p, hr⟩ <;> cases hr; exact h'
      · subst hs; exact next hr
      · subst hs; rcases hr with ⟨r, hr⟩ | ⟨t, y, hr⟩ | ⟨p, hr⟩ <;> cases hr

theorem loads_last {env : Env} {τ : Nat → St} {b : Id} {i : Nat} {r : Res} {l : List Id} {c : Id} (h : Loads env τ b i r l c) :
    (l = [] ∧ c = b) ∨ l.getLast? = some c := by
  induction h with
  | fast i r h => exact .inl ⟨rfl, h⟩
  | one i r x h => exact .inr rfl
  | more i r x y l c h _ ih =>
    right
    rw [List.getLast?_cons_cons]
    rcases ih with ⟨h, _⟩ | h
    · cases h
    · exact h

/-- A load returns the state of the block it was asked for, whatever happened before and meanwhile. -/
theorem load_right (env : Env) (get : Id → Bool) (ignore : Bool) (complete : Nat → Bool) (σ τ : Nat → St) (b c : Id) (r : Res) (l : List Id)
    (hr : find env get ignore complete σ b = .cached r l ∨ (∃ t y, find env get ignore complete σ b = .await t y l) ∨
      find env get ignore complete σ b = .disk r.pivot l) (h : Loads env τ b 0 r l c) : c = b := by
  have hl := search_last env get ignore complete σ b (env.step + 1) 0 b [] (.inl ⟨rfl, rfl⟩) l (by
    rcases hr with h | h | h
    · exact .inl ⟨_, h⟩
    · exact .inr (.inl h)
    · exact .inr (.inr ⟨_, h⟩))
  rcases loads_last h with ⟨_, h1⟩ | h1
  · exact h1
  · rcases hl with rfl | h2
    · cases h1
    · rw [h1] at h2; cases h2; rfl

/-- Whatever happens while the caller has the state `r`, the updates `l` turn it into the state of `b`. -/
def LoadsHeld (env : Env) (r : Res) (l : List Id) (b : Id) : Prop :=
  ∀ τ : Nat → St, (∀ i, Exec env (τ i) ∧ r ∈ (τ i).held) → Loads env τ b 0 r l b

theorem loads_path {env : Env} (ok : env.Ok) {τ : Nat → St} {b : Id} (l : List Id) (i : Nat) (r : Res) (hg : ∀ j, Good env (τ j) r)
    (hp : Path env r.id l b) : Loads env τ b i r l b := by
  induction l generalizing i r with
  | nil =>
    have := Loads.fast (env := env) (σ := τ) (b := b) i r hp
    rwa [show r.id = b from hp] at this
  | cons x l ih =>
    have hc := good_canApply ok (hg i) hp.1 hp.2.1
    cases l with
    | nil =>
      have : x = b := hp.2.2
      subst this
      exact .one i r x hc
    | cons y l => exact .more i r x y l b hc (ih (i + 1) _ (fun j => good_next ok (hg j) hp.1 hp.2.1) hp.2.2)

theorem loadsHeld_path {env : Env} (ok : env.Ok) {r : Res} {l : List Id} {b : Id} (hp : Path env r.id l b) : LoadsHeld env r l b :=
  fun _ hτ => loads_path ok l 0 r (fun j => (inv_exec ok (hτ j).1).live r (.inr (.inr (.inr (.inr (hτ j).2))))) hp

/-- The search found a state, and the state of `b` comes out of it. -/
def Served (env : Env) (σ : Nat → St) (b : Id) : Outcome → Prop
  | .notFound => False
  | .failed => False
  | .cached r l => (∃ i, (σ i).live r) ∧ LoadsHeld env r l b
  | .await t x l => (∃ i k, (σ i).tasks t = some k ∧ k.id = x) ∧ ∀ r, r.id = x → LoadsHeld env r l b
  | .disk p l => (∃ i, (σ i).direct p = true ∧ ((σ i).base p.shard).seqno ≤ p.seqno) ∧ LoadsHeld env ⟨p, p, []⟩ l b

theorem save_fields (s : St) (k : Task) (res : Option Res) : (s.save k res).stored = s.stored ∧ (s.save k res).direct = s.direct ∧
    (s.save k res).handles = s.handles ∧ (s.save k res).base = s.base ∧ (s.save k res).trees = s.trees ∧ (s.save k res).tasks = s.tasks ∧
    (s.save k res).todo = s.todo := by
  unfold St.save
  cases s.cache k.id with
  | none => exact ⟨rfl, rfl, rfl, rfl, rfl, rfl, rfl⟩
  | some it =>
    cases res with
    | none => exact ⟨rfl, rfl, rfl, rfl, rfl, rfl, rfl⟩
    | some r =>
      dsimp only
      split <;> exact ⟨rfl, rfl, rfl, rfl, rfl, rfl, rfl⟩

theorem stored_step {env : Env} {s s' : St} (h : Step env s s') (x : Id) (hx : s.stored x = true) : s'.stored x = true := by
  have mk : ∀ (s1 : St) (b : Id), s1.stored x = true → (s1.markStored b).stored x = true := by
    intro s1 b h; simp only [St.markStored]; split
    · rfl
    · exact h
  cases h with
  | begin b d e t h1 h2 h3 h4 h5 => unfold St.begin; repeat' split <;> try exact hx
  | existing t k h => exact mk _ _ hx
  | flag t k h1 h2 h3 => exact mk _ _ hx
  | virt t k r h1 => exact mk _ _ hx
  | save t k res h1 h2 => rw [(save_fields s k res).1]; exact hx
  | _ => exact hx

theorem stored_steps {env : Env} {s s' : St} (h : Steps env s s') (x : Id) (hx : s.stored x = true) : s'.stored x = true := by
  induction h with
  | refl => exact hx
  | tail s' s'' _ hs ih => exact stored_step hs x ih

theorem exec_steps {env : Env} {s s' : St} (h : Steps env s s') (hs : Exec env s) : Exec env s' := by
  induction h with
  | refl => exact hs
  | tail s' s'' _ h ih => exact .step _ _ ih h

theorem stepOf_le {env : Env} (ok : env.Ok) (sh : Nat) : 0 < env.stepOf sh ∧ env.stepOf sh ≤ env.step := by
  unfold Env.stepOf
  have := ok.step_pos
  split <;> omega

theorem mod_pred (n k : Nat) (hk : 0 < k) (h : (n + 1) % k ≠ 0) : n % k + 1 = (n + 1) % k := by
  have h1 := Nat.mod_lt n hk
  by_cases h2 : n % k + 1 = k
  · exfalso; apply h
    rw [← Nat.mod_add_mod, h2, Nat.mod_self]
  · rw [← Nat.mod_add_mod, Nat.mod_eq_of_lt (a := n % k + 1) (by omega)]

theorem lookup_virt {s : St} {get : Id → Bool} {x : Id} (hd : s.direct x = false)
    (hg : get x = true ∨ ∃ h, s.handles x = some h ∧ h.hasData = true) : s.lookup get x = .virt := by
  unfold St.lookup
  rw [if_neg (by rw [hd]; simp)]
  rcases hg with hg | ⟨h, h1, h2⟩
  · rw [hg]; split <;> rfl
  · rw [h1]; dsimp only; rw [h2]; split <;> simp

/-- While the search runs: the cached block or, on the disk, at most `seqno mod step` updates away from a direct state. -/
theorem search_served {env : Env} (ok : env.Ok) (get : Id → Bool) (ignore : Bool) (complete : Nat → Bool) (σ : Nat → St) (b : Id)
    (h0 : ∀ i, Exec env (σ i)) (hs : ∀ i, Steps env (σ i) (σ (i + 1))) (hbase : ∀ i, (σ i).base b.shard = (σ 0).base b.shard)
    (hget : ∀ i x, (σ i).stored x = true → x.shard = b.shard → ((σ i).base b.shard).seqno < x.seqno →
      get x = true ∨ ∃ h, (σ i).handles x = some h ∧ h.hasData = true)
    (hfail : ∀ i x it, (σ i).cache x = some it → it.state ≠ .failed)
    (hint : ignore = false ∨ ∀ i, (σ i).cache = (σ 0).cache) (fuel i : Nat) (x : Id) (upds : List Id)
    (hp : Path env x upds b) (hsh : x.shard = b.shard) (hlen : fuel + upds.length = env.step + 1) (hf : 1 ≤ fuel)
    (hx : (σ i).cache x = none → (σ i).stored x = true ∧ (σ i).above env x ∧ x.seqno % env.stepOf x.shard + 1 ≤ fuel) :
    Served env σ b (search env get ignore complete σ fuel i x upds) := by
  induction fuel generalizing i x upds with
  | zero => omega
  | succ fuel ih =>
    have hi := inv_exec ok (h0 i)
    rw [search]
    cases hc : (σ i).cache x with
    | some it =>
      dsimp only
      obtain ⟨k, hk, hk1, hk2⟩ := hi.cacheTask x it hc
      cases hst : it.state with
      | stored r =>
        dsimp only
        obtain ⟨h1, h2⟩ := hi.cacheRes x it r hc hst
        exact ⟨⟨i, .inl ⟨x, it, hc, hst⟩⟩, loadsHeld_path ok (by rw [h1]; exact hp)⟩
      | failed => exact absurd hst (hfail i x it hc)
      | pending =>
        dsimp only
        split
        · exact ⟨⟨i, k, hk, hk1⟩, fun r hr => loadsHeld_path ok (by rw [hr]; exact hp)⟩
        · rename_i hcond
          simp only [Bool.or_eq_true, not_or, Bool.not_eq_true', Bool.not_eq_false, decide_eq_true_eq, Nat.not_le] at hcond
          obtain ⟨⟨⟨⟨hig, _⟩, _⟩, hl⟩, hpc⟩ := hcond
          have hconst : ∀ i, (σ i).cache = (σ 0).cache := by
            rcases hint with h | h
            · rw [h] at hig; cases hig
            · exact h
          have hx0 : 0 < x.seqno := by rw [← hk1]; exact (hi.taskId _ k hk).1
          refine ih (i + 1) (env.prev x) (x :: upds) ⟨hx0, rfl, hp⟩ ((ok.prev_shard x hx0).trans hsh) (by simp only [List.length_cons]; omega) (by omega) ?_
          intro hn
          rw [hconst (i + 1), ← hconst i] at hn
          rw [hn] at hpc
          simp at hpc
    | none =>
      dsimp only
      obtain ⟨h1, h2, h3⟩ := hx hc
      have hmem := hi.mem x h1
      have hge := above_ge ok h2
      cases hd : (σ i).direct x with
      | true =>
        have : (σ i).lookup get x = .applied := by unfold St.lookup; rw [if_pos hd]
        rw [this]
        exact ⟨⟨i, hd, hge⟩, loadsHeld_path ok hp⟩
      | false =>
        have hne : x ≠ (σ i).base x.shard := by
          intro e
          have := (hi.base _ hmem).1
          rw [← e, hd] at this; cases this
        obtain ⟨hx0, hab⟩ := above_prev ok h2 hne
        have hlt : ((σ i).base x.shard).seqno < x.seqno := by
          have h4 := above_ge ok hab
          rw [ok.prev_shard x hx0] at h4
          have := ok.prev_seqno x hx0
          omega
        rw [lookup_virt hd (hget i x h1 hsh (by rw [← hsh]; exact hlt))]
        dsimp only
        rcases hi.chain x h1 with h4 | h4 | ⟨h4, h5⟩
        · rw [hd] at h4; cases h4
        · omega
        · have hseq := ok.prev_seqno x hx0
          have hmod := mod_pred (env.prev x).seqno (env.stepOf x.shard) (stepOf_le ok _).1 (by rw [hseq]; exact h4)
          rw [hseq] at hmod
          refine ih (i + 1) (env.prev x) (x :: upds) ⟨hx0, rfl, hp⟩ ((ok.prev_shard x hx0).trans hsh) (by simp only [List.length_cons]; omega) (by omega) ?_
          intro _
          refine ⟨stored_steps (hs i) _ h5, ?_, ?_⟩
          · obtain ⟨k, hk, he⟩ := hab
            refine ⟨k, hk, he.trans ?_⟩
            rw [ok.prev_shard x hx0, hsh, hbase i, hbase (i + 1)]
          · rw [ok.prev_shard x hx0]; omega

/-- Every block at or above the edge of the garbage collection whose store succeeded or is in progress can be loaded, provided the blocks
between the edge and it are known (to the caller, or on the disk). The search goes on while the node does other things; with the
option to skip pending stores, the cache has to stay as it is. -/
theorem load_complete {env : Env} (ok : env.Ok) (get : Id → Bool) (ignore : Bool) (complete : Nat → Bool) (σ : Nat → St) (b : Id)
    (h0 : Exec env (σ 0)) (hs : ∀ i, Steps env (σ i) (σ (i + 1))) (hbase : ∀ i, (σ i).base b.shard = (σ 0).base b.shard)
    (hget : ∀ i x, (σ i).stored x = true → x.shard = b.shard → ((σ i).base b.shard).seqno < x.seqno →
      get x = true ∨ ∃ h, (σ i).handles x = some h ∧ h.hasData = true)
    (hfail : ∀ i x it, (σ i).cache x = some it → it.state ≠ .failed)
    (hint : ignore = false ∨ ∀ i, (σ i).cache = (σ 0).cache)
    (hb : (σ 0).stored b = true ∨ (σ 0).cache b ≠ none) (hab : (σ 0).above env b) :
    Served env σ b (find env get ignore complete σ b) := by
  have he : ∀ i, Exec env (σ i) := by
    intro i
    induction i with
    | zero => exact h0
    | succ i ih => exact exec_steps (hs i) ih
  refine search_served ok get ignore complete σ b he hs hbase hget hfail hint _ _ _ _ rfl rfl rfl (by omega) ?_
  intro hc
  refine ⟨hb.resolve_right (fun h => h hc), hab, ?_⟩
  obtain ⟨h1, h2⟩ := stepOf_le ok b.shard
  have := Nat.mod_lt b.seqno h1
  omega

/-- A task that a load waits for has the state of its block as a result. -/
theorem await_result {env : Env} (ok : env.Ok) {s : St} (h : Exec env s) (t : Nat) (k : Task) (r : Res) (hk : s.tasks t = some k)
    (hr : k.result = some (some r)) : r.id = k.id ∧ s.live r :=
  ⟨((inv_exec ok h).taskRes t k r hk hr).1, .inr (.inl ⟨t, k, hk, hr⟩)⟩

/-! ### Storing -/

/-- A store that has the previous state can always apply its update. -/
theorem store_applies {env : Env} (ok : env.Ok) {s : St} (h : Exec env s) (t : Nat) (k : Task) (r : Res) (hk : s.tasks t = some k)
    (hr : s.prevRes k.src = some (some r)) : canApply env s r k.id := by
  have hi := inv_exec ok h
  have h0 := (hi.taskId t k hk).1
  unfold St.prevRes at hr
  split at hr
  · cases hr
  · rename_i u hsrc
    cases hu : s.tasks u with
    | none => rw [hu] at hr; cases hr
    | some k' =>
      rw [hu] at hr
      obtain ⟨k'', h6, h7⟩ := hi.srcTask t k u hk hsrc
      rw [hu] at h6; cases h6
      obtain ⟨h8, _⟩ := hi.taskRes u k' r hu hr
      exact good_canApply ok (hi.live r (.inr (.inl ⟨u, k', hu, hr⟩))) h0 (by rw [h8, h7])
  · rename_i r' hsrc
    cases hr
    exact good_canApply ok (hi.live r (.inr (.inr (.inl ⟨t, k, hk, hsrc⟩)))) h0 (hi.srcDone t k r hk hsrc).1.symm
  · cases hr
  · cases hr

theorem searchDisk_found {env : Env} (ok : env.Ok) {s : St} (h : Exec env s) (get : Id → Bool) (sh : Nat)
    (hget : ∀ x, s.stored x = true → x.shard = sh → (s.base sh).seqno < x.seqno → get x = true ∨ ∃ h, s.handles x = some h ∧ h.hasData = true)
    (fuel : Nat) (x : Id) (upds : List Id) (hsh : x.shard = sh) (hx : s.stored x = true) (hab : s.above env x)
    (hf : x.seqno % env.stepOf x.shard + 1 ≤ fuel) : ∃ p l, s.searchDisk env get fuel x upds = some (p, l) := by
  induction fuel generalizing x upds with
  | zero => omega
  | succ fuel ih =>
    have hi := inv_exec ok h
    have hge := above_ge ok hab
    rw [St.searchDisk]
    cases hd : s.direct x with
    | true =>
      have : s.lookup get x = .applied := by unfold St.lookup; rw [if_pos hd]
      rw [this]; exact ⟨x, upds, rfl⟩
    | false =>
      have hne : x ≠ s.base x.shard := by
        intro e
        have := (hi.base _ (hi.mem x hx)).1
        rw [← e, hd] at this; cases this
      obtain ⟨hx0, hab'⟩ := above_prev ok hab hne
      have hlt : (s.base x.shard).seqno < x.seqno := by
        have h4 := above_ge ok hab'
        rw [ok.prev_shard x hx0] at h4
        have := ok.prev_seqno x hx0
        omega
      rw [lookup_virt hd (hget x hx hsh (by rw [← hsh]; exact hlt))]
      dsimp only
      rcases hi.chain x hx with h4 | h4 | ⟨h4, h5⟩
      · rw [hd] at h4; cases h4
      · omega
      · have hseq := ok.prev_seqno x hx0
        have hmod := mod_pred (env.prev x).seqno (env.stepOf x.shard) (stepOf_le ok _).1 (by rw [hseq]; exact h4)
        rw [hseq] at hmod
        exact ih (env.prev x) (x :: upds) ((ok.prev_shard x hx0).trans hsh) h5 hab' (by rw [ok.prev_shard x hx0]; omega)

/-- A store whose previous block is not in the cache (after a restart) finds the previous state on the disk, within the bound on updates, and
can apply the updates. -/
theorem store_resumes {env : Env} (ok : env.Ok) {s : St} (h : Exec env s) (t : Nat) (k : Task) (hk : s.tasks t = some k) (hsrc : k.src = .storage)
    (get : Id → Bool) (hab : s.above env (env.prev k.id))
    (hget : ∀ x, s.stored x = true → x.shard = k.id.shard → (s.base k.id.shard).seqno < x.seqno →
      get x = true ∨ ∃ h, s.handles x = some h ∧ h.hasData = true) :
    ∃ p upds, s.searchDisk env get (env.stepOf k.id.shard) (env.prev k.id) [] = some (p, upds) ∧
      Loads env (fun _ => s) (env.prev k.id) 0 ⟨p, p, []⟩ upds (env.prev k.id) ∧
      canApply env s (upds.foldl (Res.next env) ⟨p, p, []⟩) k.id := by
  have hi := inv_exec ok h
  obtain ⟨h0, hsh, _⟩ := hi.taskId t k hk
  have hpsh := ok.prev_shard k.id h0
  have hst := hi.srcStorage t k hk hsrc
  obtain ⟨p, l, hf⟩ := searchDisk_found ok h get k.id.shard hget (env.stepOf k.id.shard) (env.prev k.id) [] hpsh hst hab (by
    rw [hpsh]
    exact Nat.mod_lt _ (stepOf_le ok _).1)
  obtain ⟨g1, g2, g3⟩ := searchDisk_path ok get _ (env.prev k.id) (env.prev k.id) p [] l hab (hi.base _ (by rw [hpsh]; exact hsh)).1 rfl hf
  have hg := good_self env g1 (not_todo hi g2)
  obtain ⟨g4, g5⟩ := good_fold ok l hg (b := env.prev k.id) g3
  exact ⟨p, l, hf, loads_path ok l 0 _ (fun _ => hg) g3, good_canApply ok g4 h0 g5.symm⟩

/-! ### Garbage collection -/

/-- Whoever has a state (cache, store in progress, caller) can read all of its cells: the collection does not take its pivot. -/
theorem in_use_kept {env : Env} (ok : env.Ok) {s : St} (h : Exec env s) (r : Res) (hr : s.live r) :
    s.direct r.pivot = true ∧ ∀ c ∈ env.cells r.id, c ∈ r.news ∨ ∃ d, s.direct d = true ∧ c ∈ env.cells d := by
  have hg := (inv_exec ok h).live r hr
  exact ⟨hg.direct, fun c hc => (hg.cells c hc).imp id (fun h => ⟨_, hg.direct, h⟩)⟩

/-- Only states below the edge are removed, never a zerostate, never one that is flagged. -/
theorem removed_below_edge {env : Env} (ok : env.Ok) {s s' : St} (he : Exec env s) (h : Step env s s') (x : Id) (hx : s.direct x = true) (hr : s'.direct x = false) :
    x.seqno ≠ 0 ∧ x.seqno < (s.base x.shard).seqno ∧ (∀ f, s.handles x = some f → f.skip = false) := by
  have hi := inv_exec ok he
  cases h with
  | begin b d e t => 
    have : (s.begin env b d e t).direct = s.direct := by
      unfold St.begin; repeat' split
      all_goals rfl
    rw [this, hx] at hr; cases hr
  | write t k h1 h2 h3 h4 h5 h6 h7 h8 h9 h10 =>
    have : (if x = k.id then true else s.direct x) = false := hr
    split at this
    · cases this
    · rw [hx] at this; cases this
  | save t k res h1 h2 => rw [(save_fields s k res).2.1, hx] at hr; cases hr
  | gcRemove y l hl h1 h2 =>
    have : (if x = y then false else s.direct x) = false := hr
    split at this
    · rename_i e; subst e
      have hm : x ∈ s.todo := by rw [h1]; exact List.mem_cons_self
      exact ⟨(hi.todo x hm).1, (hi.todo x hm).2, h2⟩
    · rw [hx] at this; cases this
  | _ => exact absurd (show s.direct x = false from hr) (by rw [hx]; simp)

/-- `a` is `b` or an ancestor of it. -/
def Ancestor (env : Env) (a b : Id) : Prop := ∃ k, k ≤ b.seqno ∧ anc env k b = a

theorem anc_add (env : Env) (j k : Nat) (x : Id) : anc env (j + k) x = anc env k (anc env j x) := by
  induction j generalizing x with
  | zero => rw [Nat.zero_add]; rfl
  | succ j ih => rw [Nat.add_right_comm]; exact ih (env.prev x)

theorem ancestor_trans {env : Env} (ok : env.Ok) {a b c : Id} (h1 : Ancestor env a b) (h2 : Ancestor env b c) : Ancestor env a c := by
  obtain ⟨j, hj, e1⟩ := h1
  obtain ⟨k, hk, e2⟩ := h2
  have := (anc_seqno ok k c hk).1
  rw [e2] at this
  exact ⟨k + j, by omega, by rw [anc_add, e2, e1]⟩

/-- When a collection starts, the blocks from the top blocks of its masterchain block on are above the edge, so that they stay loadable
(`load_complete`), if the direct states of the shard up to the top block are ancestors of it: no state of a fork is stored. -/
theorem top_above {env : Env} (ok : env.Ok) {s : St} (m : Nat) (edges : Nat → Id) (todo : List Id)
    (hedge : ∀ sh ∈ env.shards, IsEdge env s (env.mcMinRef m) sh (edges sh)) (sh : Nat) (hsh : sh ∈ env.shards) (hmc : sh ≠ env.mc)
    (hfork : ∀ d, s.direct d = true → d.shard = sh → d.seqno ≤ (env.top (env.mcMinRef m) sh).seqno → Ancestor env d (env.top (env.mcMinRef m) sh))
    (hold : (s.base sh).seqno ≤ (edges sh).seqno) (b : Id) (hb : Ancestor env (env.top (env.mcMinRef m) sh) b) :
    St.above { s with todo := todo, base := fun sh => if sh ∈ env.shards ∧ (s.base sh).seqno ≤ (edges sh).seqno then edges sh else s.base sh } env b := by
  obtain ⟨h1, h2, h3⟩ := hedge sh hsh
  rw [if_neg hmc] at h3
  have hbs : b.shard = sh := by
    obtain ⟨k, hk, e⟩ := hb
    have := (anc_seqno ok k b hk).2
    rw [e, ok.top_shard] at this
    exact this.symm
  obtain ⟨k, hk, e⟩ := ancestor_trans ok (hfork _ h1 h2 h3.1) hb
  refine ⟨k, hk, e.trans ?_⟩
  dsimp only
  rw [hbs, if_pos ⟨hsh, hold⟩]

/-! ### Reference counts -/

structure TInv (env : Env) (s : St) : Prop where
  trees : ∀ x, s.trees x = if s.direct x then 1 else 0
  handle : ∀ x, s.direct x = true → (s.base x.shard).seqno ≤ x.seqno → ∃ h, s.handles x = some h
  flag : ∀ x h, s.direct x = true → (s.base x.shard).seqno ≤ x.seqno → s.handles x = some h →
    h.hasState = true ∨ ∃ t k, s.tasks t = some k ∧ k.id = x ∧ k.written = true ∧ k.result = none
  todo : s.todo.Nodup ∧ ∀ x ∈ s.todo, s.direct x = true

theorem tinv_start {env : Env} {s : St} (h : Start env s) : TInv env s := by
  refine ⟨h.trees, fun x hx _ => ?_, fun x f hx _ hf => ?_, ?_⟩
  · obtain ⟨f, hf, _⟩ := h.handles x hx; exact ⟨f, hf⟩
  · obtain ⟨f', hf', h1⟩ := h.handles x hx
    rw [hf] at hf'; cases hf'; exact .inl h1
  · rw [h.todo]; exact ⟨List.nodup_nil, fun x hx => by cases hx⟩

/-- A step that changes neither the stored states nor the collection. -/
theorem tinv_frame {env : Env} {s s' : St} (ht : TInv env s) (h1 : s'.direct = s.direct) (h2 : s'.trees = s.trees) (h3 : s'.base = s.base)
    (h4 : s'.todo = s.todo)
    (h5 : ∀ x f, s.handles x = some f → (s.base x.shard).seqno ≤ x.seqno → ∃ f', s'.handles x = some f' ∧ (f.hasState = true → f'.hasState = true))
    (h6 : ∀ t k, s.tasks t = some k → k.written = true → k.result = none → s'.tasks t = some k ∨ ∀ f', s'.handles k.id = some f' → f'.hasState = true) :
    TInv env s' := by
  refine ⟨by rw [h1, h2]; exact ht.trees, fun x hx hb => ?_, fun x f' hx hb hf' => ?_, by rw [h4, h1]; exact ht.todo⟩
  all_goals
    rw [h1] at hx
    rw [h3] at hb
    obtain ⟨f, hf⟩ := ht.handle x hx hb
    obtain ⟨f'', hf'', hst⟩ := h5 x f hf hb
  · exact ⟨f'', hf''⟩
  · rw [hf'] at hf''; cases hf''
    rcases ht.flag x f hx hb hf with h | ⟨t, k, h7, h8, h9, h10⟩
    · exact .inl (hst h)
    · rcases h6 t k h7 h9 h10 with h | h
      · exact .inr ⟨t, k, h, h8, h9, h10⟩
      · exact .inl (h f' (by rw [h8]; exact hf'))

theorem putTask_ne (s : St) (t u : Nat) (x : Option Task) (h : u ≠ t) : (s.putTask t x).tasks u = s.tasks u := if_neg h

theorem tinv_step {env : Env} {s s' : St} (hi : Inv env s) (ht : TInv env s) (h : Step env s s') : TInv env s' := by
  have keep : ∀ x f, s.handles x = some f → (s.base x.shard).seqno ≤ x.seqno → ∃ f', s.handles x = some f' ∧ (f.hasState = true → f'.hasState = true) :=
    fun x f hf _ => ⟨f, hf, id⟩
  cases h with
  | data b h h1 h2 =>
    refine tinv_frame ht rfl rfl rfl rfl ?_ (fun t k hk _ _ => .inl hk)
    intro x f hf _
    by_cases e : x = b
    · subst e; exact ⟨h, if_pos rfl, by rw [(h1 f hf).1]; exact id⟩
    · exact ⟨f, (if_neg e).trans hf, id⟩
  | dropBlock b h1 =>
    refine tinv_frame ht rfl rfl rfl rfl ?_ (fun t k hk _ _ => .inl hk)
    intro x f hf hb
    have e : x ≠ b := by rintro rfl; omega
    exact ⟨f, (if_neg e).trans hf, id⟩
  | begin b d e t h1 h2 h3 h4 h5 =>
    unfold St.begin
    split
    · exact ht
    · split
      · exact ht
      · split
        · exact ht
        · refine tinv_frame ht rfl rfl rfl rfl keep ?_
          intro u k hk _ _
          have : u ≠ t := by rintro rfl; rw [h1] at hk; cases hk
          exact .inl ((putTask_ne s t u _ this).trans hk)
  | existing t k h h1 h2 h3 h4 h5 h6 h7 h8 =>
    refine tinv_frame ht rfl rfl rfl rfl keep ?_
    intro u k' hk hw _
    have : u ≠ t := by rintro rfl; rw [h1] at hk; cases hk; rw [h4] at hw; cases hw
    exact .inl ((putTask_ne s t u _ this).trans hk)
  | write t k h h0 h1 h2 h3 h4 h5 h6 h7 h8 =>
    have hd : s.direct k.id = false := by
      cases hd : s.direct k.id with
      | false => rfl
      | true =>
        rcases ht.flag k.id h hd h8 h5 with h9 | ⟨u, k', h9, _, h10, h11⟩
        · rw [h6] at h9; cases h9
        · exact absurd h11 (h0 u k' h9 h10)
    refine ⟨fun x => ?_, fun x hx hb => ?_, fun x f hx hb hf => ?_, ht.todo.1, fun x hx => ?_⟩
    · show (if x = k.id then s.trees x + 1 else s.trees x) = if (if x = k.id then true else s.direct x) = true then 1 else 0
      by_cases e : x = k.id
      · rw [if_pos e, if_pos e, ht.trees x, e, hd]; rfl
      · rw [if_neg e, if_neg e]; exact ht.trees x
    · by_cases e : x = k.id
      · rw [e]; exact ⟨h, h5⟩
      · exact ht.handle x (by rw [show (s.write t k).direct x = s.direct x from if_neg e] at hx; exact hx) hb
    · by_cases e : x = k.id
      · exact .inr ⟨t, { k with written := true }, if_pos rfl, e.symm, rfl, h2⟩
      · refine (ht.flag x f (by rw [show (s.write t k).direct x = s.direct x from if_neg e] at hx; exact hx) hb hf).imp id ?_
        rintro ⟨u, k', g1, g2, g3, g4⟩
        have : u ≠ t := by rintro rfl; rw [h1] at g1; cases g1; rw [h4] at g3; cases g3
        exact ⟨u, k', (if_neg this).trans g1, g2, g3, g4⟩
    · show (if x = k.id then true else s.direct x) = true
      split
      · rfl
      · exact ht.todo.2 x hx
  | flag t k h1 h2 h3 =>
    refine tinv_frame ht rfl rfl rfl rfl ?_ ?_
    · intro x f hf _
      by_cases e : x = k.id
      · subst e; exact ⟨{ f with hasState := true }, by simp [St.flagDirect, St.putHandle, St.putTask, St.markStored, hf], fun _ => rfl⟩
      · exact ⟨f, by simp [St.flagDirect, St.putHandle, St.putTask, St.markStored, hf, e], id⟩
    · intro u k' hk hw hr
      by_cases e : u = t
      · subst e; rw [h1] at hk; cases hk
        right
        intro f' hf'
        simp only [St.flagDirect, St.putHandle, St.putTask, St.markStored, if_true] at hf'
        cases hh : s.handles k.id with
        | none => rw [hh] at hf'; cases hf'
        | some f => rw [hh] at hf'; cases hf'; rfl
      · exact .inl ((if_neg e : (s.flagDirect t k).tasks u = s.tasks u).trans hk)
  | virt t k r h1 h2 h3 h4 h5 =>
    refine tinv_frame ht rfl rfl rfl rfl ?_ ?_
    · intro x f hf _
      by_cases e : x = k.id
      · subst e; exact ⟨{ f with hasVirtual := true }, by simp [St.flagVirtual, St.putHandle, St.putTask, St.markStored, hf], id⟩
      · exact ⟨f, by simp [St.flagVirtual, St.putHandle, St.putTask, St.markStored, hf, e], id⟩
    · intro u k' hk hw hr
      have : u ≠ t := by rintro rfl; rw [h1] at hk; cases hk; have := hi.written u k h1 hw; rw [h3] at this; cases this
      exact .inl ((if_neg this : (s.flagVirtual env t k r).tasks u = s.tasks u).trans hk)
  | fail t k h1 h2 h3 =>
    refine tinv_frame ht rfl rfl rfl rfl keep ?_
    intro u k' hk hw _
    have : u ≠ t := by rintro rfl; rw [h1] at hk; cases hk; rw [h3] at hw; cases hw
    exact .inl ((putTask_ne s t u _ this).trans hk)
  | save t k res h1 h2 =>
    obtain ⟨g1, g2, g3, g4, g5, g6, g7⟩ := save_fields s k res
    exact tinv_frame ht g2 g5 g4 g7 (by rw [g3]; exact keep) (fun t k hk _ _ => .inl (by rw [g6]; exact hk))
  | forget t h0 h1 h2 =>
    refine tinv_frame ht rfl rfl rfl rfl keep ?_
    intro u k' hk hw hr
    have : u ≠ t := by rintro rfl; exact h0 k' hk hw hr
    exact .inl ((putTask_ne s t u _ this).trans hk)
  | hold r h1 => exact tinv_frame ht rfl rfl rfl rfl keep (fun t k hk _ _ => .inl hk)
  | holdDisk p h1 h2 h3 => exact tinv_frame ht rfl rfl rfl rfl keep (fun t k hk _ _ => .inl hk)
  | holdNext r x h1 h2 h3 h4 h5 => exact tinv_frame ht rfl rfl rfl rfl keep (fun t k hk _ _ => .inl hk)
  | release l h1 => exact tinv_frame ht rfl rfl rfl rfl keep (fun t k hk _ _ => .inl hk)
  | gcStart m edges todo h1 h2 h3 h4 h5 =>
    have hb : ∀ (x : Id), (if x.shard ∈ env.shards ∧ (s.base x.shard).seqno ≤ (edges x.shard).seqno then edges x.shard else s.base x.shard).seqno ≤ x.seqno →
        (s.base x.shard).seqno ≤ x.seqno := by
      intro x hx
      split at hx
      · rename_i h; exact Nat.le_trans h.2 hx
      · exact hx
    exact ⟨ht.trees, fun x hx h => ht.handle x hx (hb x h), fun x f hx h hf => ht.flag x f hx (hb x h) hf, h5, fun x hx => ((h4 x).1 hx).1⟩
  | gcSkip x l h h1 h2 h3 =>
    have := ht.todo
    rw [h1] at this
    exact ⟨ht.trees, ht.handle, ht.flag, (List.nodup_cons.1 this.1).2, fun y hy => this.2 y (List.mem_cons_of_mem _ hy)⟩
  | gcRemove x l h0 h1 h2 =>
    have htd := ht.todo
    rw [h1] at htd
    have hx := htd.2 x List.mem_cons_self
    have hne : ∀ y, (if y = x then false else s.direct y) = true → s.direct y = true := by
      intro y hy; split at hy
      · cases hy
      · exact hy
    refine ⟨fun y => ?_, fun y hy hb => ht.handle y (hne y hy) hb, fun y f hy hb hf => ht.flag y f (hne y hy) hb hf, (List.nodup_cons.1 htd.1).2, fun y hy => ?_⟩
    · show (if y = x then s.trees y - 1 else s.trees y) = if (if y = x then false else s.direct y) = true then 1 else 0
      by_cases e : y = x
      · rw [if_pos e, if_pos e, ht.trees y, e, hx]; rfl
      · rw [if_neg e, if_neg e]; exact ht.trees y
    · show (if y = x then false else s.direct y) = true
      have : y ≠ x := by rintro rfl; exact (List.nodup_cons.1 htd.1).1 hy
      rw [if_neg this]; exact htd.2 y (List.mem_cons_of_mem _ hy)
  | gcStop => exact ⟨ht.trees, ht.handle, ht.flag, List.nodup_nil, fun x hx => by cases hx⟩

theorem execUp_exec {env : Env} {s : St} (h : ExecUp env s) : Exec env s := by
  induction h with
  | start s h => exact .start s h
  | step s s' _ h ih => exact .step s s' ih h

/-- While the node runs, the tree of each state in the table is stored exactly once, and nothing else is. -/
theorem trees_once {env : Env} (ok : env.Ok) {s : St} (h : ExecUp env s) (x : Id) : s.trees x = if s.direct x then 1 else 0 := by
  suffices TInv env s from this.trees x
  induction h with
  | start s h => exact tinv_start h
  | step s s' he h ih => exact tinv_step (inv_exec ok (execUp_exec he)) ih h

end Tycho.ShardStates
