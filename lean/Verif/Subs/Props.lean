import Verif.Subs.OpInv
import Mathlib.Data.List.Nodup
import Mathlib.Data.List.Range
import Mathlib.Data.List.Perm.Subperm

/-!
C19. Specification: `want log u a` (SubInv.lean) folds the subscription events of client `u`; `log` is written by the steps that
complete a subscription (`subscribe_many`, per address), an unsubscription (`unsubscribe_many`, per address), `unsubscribe_all` and
`remove_client`. `step_want` says when the log may change.

`Exec true`: executions in which a call (other than a removal) never locks the mutex of a client that was removed between the lookup
of the client and the lock. Without this the claims about clients are false (`stale_call_misdirects`); the claims about addresses
hold in every execution (`Exec f` for any `f`).
-/
namespace Tycho.Subs

/-- The executions of the manager; `fresh`: without a call that works with a removed client. -/
inductive Exec (fresh : Bool) (cap ma mc : Nat) : State → Prop
  | new : Exec fresh cap ma mc (State.new cap ma mc)
  | step {s s' : State} (e : Ev) : Exec fresh cap ma mc s → (fresh = true → Fresh s e) → step s e = some s' → Exec fresh cap ma mc s'

variable {fresh : Bool} {cap ma mc : Nat} {s : State}

theorem Exec.addr (h : Exec fresh cap ma mc s) : AddrInv s := by
  induction h with
  | new => exact addrInv_new ..
  | step e _ _ hs ih => exact addrInv_step ih hs

theorem Exec.op (h : Exec fresh cap ma mc s) : OpInv s := by
  induction h with
  | new => intro t k hk; simp [State.new] at hk
  | step e _ _ hs ih => exact opInv_step ih hs

theorem Exec.lock (h : Exec fresh cap ma mc s) : LockInv s := by
  induction h with
  | new => intro l hl; simp [State.new] at hl
  | step e _ _ hs ih => exact lockInv_step ih hs

theorem Exec.limits (h : Exec fresh cap ma mc s) : Limits cap ma mc s := by
  induction h with
  | new => exact ⟨rfl, rfl, rfl⟩
  | step e _ _ hs ih => exact limits_step ih hs

theorem Exec.reg (h : Exec true cap ma mc s) : RegInv s := by
  induction h with
  | new => exact regInv_new ..
  | step e _ hf hs ih => exact regInv_step ih (hf rfl) hs

theorem Exec.sub (h : Exec true cap ma mc s) : SubInv s := by
  induction h with
  | new => exact subInv_new ..
  | step e h0 hf hs ih => exact subInv_step ih h0.addr h0.reg (hf rfl) hs

/-- No call of the client holds its mutex. -/
def Idle (s : State) (u : Nat) : Prop := ∀ t k, s.thr t = some k → k.uuid = u → ∃ op, k.ph = .wait op

/-- No call is in progress. -/
def Quiet (s : State) : Prop := ∀ t, s.thr t = none

theorem Quiet.idle (h : Quiet s) (u : Nat) : Idle s u := by
  intro t k hk; rw [h t] at hk; simp at hk

theorem idle_alone (h : Exec true cap ma mc s) {u c l : Nat} (hu : s.reg u = some (c, l)) (hi : Idle s u) :
    ∀ t k, s.thr t = some k → k.ph.busy → k.cid ≠ c := by
  intro t k hk hb hc
  rcases hb with hb | hb
  · have h1 := h.reg.cur t k hk hb
    have h2 := h.reg.regU _ _ _ _ _ _ h1 hu (.inl hc)
    obtain ⟨op, hp⟩ := hi t k hk h2
    rw [hp] at hb
    simp [Phase.cls] at hb
  · exact (h.reg.det t k hk hb).2.2 u l (hc ▸ hu)

theorem mem_notify {c a : Nat} : c ∈ s.notify a ↔ ∃ i, Mem s c a i := by
  unfold State.notify Mem
  cases hf : s.fwd a with
  | none => simp
  | some p =>
    obtain ⟨i, f⟩ := p
    simp only [Option.some.injEq, Prod.mk.injEq]
    constructor
    · intro h; exact ⟨i, f, ⟨rfl, rfl⟩, h⟩
    · rintro ⟨j, g, ⟨_, rfl⟩, h⟩; exact h

theorem eff_iff_mem {c : Nat} (hc : CInv (Mem s c) (s.rev c) .leave) (a : Nat) : Eff s c a ↔ ∃ i, Mem s c a i := by
  constructor
  · rintro ⟨i, h1, _⟩; exact ⟨i, h1⟩
  · rintro ⟨i, h1⟩
    rcases hc.F a i h1 with h2 | h2
    · exact ⟨i, h1, h2⟩
    · exact h2.elim

/-- C19. A client none of whose calls holds its mutex is notified of an address iff it asked for it. -/
theorem notify_exact (h : Exec true cap ma mc s) {u c l : Nat} (hu : s.reg u = some (c, l)) (hi : Idle s u) (a : Nat) :
    c ∈ s.notify a ↔ want s.log u a = true := by
  rw [h.sub.wants u c l hu a, eff_iff_mem (h.sub.idle c (idle_alone h hu hi)), mem_notify]

/-- C19. When no call is in progress, exactly the registered clients that asked for an address are notified. -/
theorem notify_quiet (h : Exec true cap ma mc s) (hq : Quiet s) (a c : Nat) :
    c ∈ s.notify a ↔ ∃ u l, s.reg u = some (c, l) ∧ want s.log u a = true := by
  constructor
  · intro hm
    have hb : ∀ t k, s.thr t = some k → k.ph.busy → k.cid ≠ c := by intro t k hk; rw [hq t] at hk; simp at hk
    by_cases hr : ∀ u l, s.reg u ≠ some (c, l)
    · have h1 := h.sub.unreg c hr hb
      obtain ⟨i, h2⟩ := mem_notify.1 hm
      rcases (h.sub.idle c hb).F a i h2 with h3 | h3
      · rw [h1] at h3; simp at h3
      · exact h3.elim
    · simp only [not_forall, Decidable.not_not] at hr
      obtain ⟨u, l, hu⟩ := hr
      exact ⟨u, l, hu, (notify_exact h hu (hq.idle u) a).1 hm⟩
  · rintro ⟨u, l, hu, hw⟩
    exact (notify_exact h hu (hq.idle u) a).2 hw

/-- C19. At any time, whoever is notified is a registered client or the client of a removal in progress. -/
theorem notify_owner (h : Exec true cap ma mc s) {a c : Nat} (hm : c ∈ s.notify a) :
    (∃ u l, s.reg u = some (c, l)) ∨ ∃ t k, s.thr t = some k ∧ k.op = .remove ∧ k.cid = c := by
  by_cases hb : ∀ t k, s.thr t = some k → k.ph.busy → k.cid ≠ c
  · by_cases hr : ∀ u l, s.reg u ≠ some (c, l)
    · have h1 := h.sub.unreg c hr hb
      obtain ⟨i, h2⟩ := mem_notify.1 hm
      rcases (h.sub.idle c hb).F a i h2 with h3 | h3
      · rw [h1] at h3; simp at h3
      · exact h3.elim
    · simp only [not_forall, Decidable.not_not] at hr
      exact .inl hr
  · simp only [not_forall, Decidable.not_not] at hb
    obtain ⟨t, k, hk, hb, rfl⟩ := hb
    rcases hb with hb | hb
    · exact .inl ⟨_, _, h.reg.cur t k hk hb⟩
    · refine .inr ⟨t, k, hk, ?_, rfl⟩
      have ho := h.op t k hk
      have hcont : ∀ c : Cont, c.cls = .gone → c.ok k.op → k.op = .remove := by
        intro c hc hok
        cases c with
        | purge aids fin => cases fin with
          | true => exact hok
          | false => simp [Cont.cls] at hc
        | _ => simp [Cont.cls] at hc
      cases hph : k.ph with
      | reclaim => rw [hph] at ho; exact ho
      | purgeStart fin =>
        rw [hph] at hb ho
        cases fin
        · simp [Phase.cls] at hb
        · exact ho
      | purge aids fin =>
        rw [hph] at hb ho
        cases fin
        · simp [Phase.cls] at hb
        · exact ho
      | cleanup a c => rw [hph] at hb ho; exact hcont c hb ho
      | rm1 i a c => rw [hph] at hb ho; exact hcont c hb ho
      | rm2 i c => rw [hph] at hb ho; exact hcont c hb ho
      | _ => rw [hph] at hb; simp [Phase.cls] at hb

/-- C19. A client is notified once (every execution). -/
theorem notify_nodup (h : Exec fresh cap ma mc s) (a : Nat) : (s.notify a).Nodup := by
  unfold State.notify
  split
  · simp
  · rename_i i f hf
    exact FSet.nodup (h.addr.wf _ _ _ hf)

/-- The addresses of the list of a client. -/
theorem mem_list (h : Exec true cap ma mc s) {c : Nat} (hc : CInv (Mem s c) (s.rev c) .leave) (a : Nat) :
    a ∈ (s.list c).getD [] ↔ ∃ i, Mem s c a i := by
  have e : (s.list c).getD [] = (s.revList c).filterMap s.int := by
    unfold State.list State.revList
    cases s.rev c <;> rfl
  rw [e, List.mem_filterMap]
  constructor
  · rintro ⟨i, h1, h2⟩
    rcases hc.R i h1 with ⟨x, f, h3, h4⟩ | h3
    · rw [h.addr.back x i f h3] at h2
      obtain rfl := Option.some.inj h2
      exact ⟨i, f, h3, h4⟩
    · exact h3.elim
  · rintro ⟨i, f, h3, h4⟩
    rcases hc.F a i ⟨f, h3, h4⟩ with h1 | h1
    · exact ⟨i, h1, h.addr.back a i f h3⟩
    · exact h1.elim

/-- C19. `list_subscriptions`: exactly the addresses the client asked for, each once; `client_stats` counts them; at most 255. -/
theorem list_exact (h : Exec true cap ma mc s) {u c l : Nat} (hu : s.reg u = some (c, l)) (hi : Idle s u) :
    (∀ a, a ∈ (s.list c).getD [] ↔ want s.log u a = true) ∧ ((s.list c).getD []).Nodup ∧ s.count c = ((s.list c).getD []).length ∧
    s.count c ≤ 255 := by
  have hc := h.sub.idle c (idle_alone h hu hi)
  have e : (s.list c).getD [] = (s.revList c).filterMap s.int := by
    unfold State.list State.revList
    cases s.rev c <;> rfl
  have hint : ∀ i ∈ s.revList c, ∃ x f, s.fwd x = some (i, f) ∧ s.int i = some x := by
    intro i hi
    rcases hc.R i hi with ⟨x, f, h3, _⟩ | h3
    · exact ⟨x, f, h3, h.addr.back x i f h3⟩
    · exact h3.elim
  refine ⟨?_, ?_, ?_, hc.len⟩
  · intro a
    rw [mem_list h hc, ← mem_notify]
    exact notify_exact h hu hi a
  · rw [e]
    have : ∀ l : List Nat, l.Nodup → (∀ i ∈ l, ∃ x f, s.fwd x = some (i, f) ∧ s.int i = some x) → (l.filterMap s.int).Nodup := by
      intro l
      induction l with
      | nil => intro _ _; simp
      | cons i l ih =>
        intro hn hl
        obtain ⟨x, f, hf, hx⟩ := hl i (by simp)
        obtain ⟨hn1, hn2⟩ := List.nodup_cons.1 hn
        rw [List.filterMap_cons_some hx, List.nodup_cons]
        refine ⟨?_, ih hn2 (fun j hj => hl j (by simp [hj]))⟩
        intro hm
        obtain ⟨j, h1, h2⟩ := List.mem_filterMap.1 hm
        obtain ⟨y, g, hg, hy⟩ := hl j (by simp [h1])
        rw [hy] at h2
        obtain rfl := Option.some.inj h2
        rw [hf] at hg
        simp only [Option.some.injEq, Prod.mk.injEq] at hg
        rw [hg.1] at hn1
        exact hn1 h1
    exact this _ hc.nodup hint
  · rw [e]
    have : ∀ l : List Nat, (∀ i ∈ l, ∃ x f, s.fwd x = some (i, f) ∧ s.int i = some x) → l.length = (l.filterMap s.int).length := by
      intro l
      induction l with
      | nil => intro _; rfl
      | cons i l ih =>
        intro hl
        obtain ⟨x, f, _, hx⟩ := hl i (by simp)
        rw [List.filterMap_cons_some hx, List.length_cons, List.length_cons, ih (fun j hj => hl j (by simp [hj]))]
    exact this _ hint

/-! ### The limits and the ids -/

theorem nodup_bound {n : Nat} {L : List Nat} (hL : L.Nodup) (f : Nat → Nat) (hf : ∀ a ∈ L, f a < n)
    (hi : ∀ a ∈ L, ∀ b ∈ L, f a = f b → a = b) : L.length ≤ n := by
  have h1 : (L.map f).Nodup := List.Nodup.map_on hi hL
  have h2 : L.map f ⊆ List.range n := by
    intro x hx
    obtain ⟨a, ha, rfl⟩ := List.mem_map.1 hx
    exact List.mem_range.2 (hf a ha)
  have := (h1.subperm h2).length_le
  rwa [List.length_map, List.length_range] at this

/-- C19. No more addresses than the limit are tracked (every execution). -/
theorem tracked_bound (h : Exec fresh cap ma mc s) {L : List Nat} (hL : L.Nodup) (ht : ∀ a ∈ L, s.fwd a ≠ none) : L.length ≤ ma := by
  have hm : s.apool.next ≤ ma := by have := h.addr.pool.2.2; rw [h.limits.2.1] at this; exact this
  refine Nat.le_trans (nodup_bound (n := s.apool.next) hL (fun a => ((s.fwd a).map Prod.fst).getD 0) ?_ ?_) hm
  · intro a ha
    cases hf : s.fwd a with
    | none => exact absurd hf (ht a ha)
    | some p => exact (h.addr.used a p.1 p.2 hf).1
  · intro a ha b hb he
    cases hf : s.fwd a with
    | none => exact absurd hf (ht a ha)
    | some p =>
      cases hg : s.fwd b with
      | none => exact absurd hg (ht b hb)
      | some q =>
        simp only [hf, hg, Option.map_some, Option.getD_some] at he
        obtain ⟨i, f⟩ := p
        obtain ⟨j, g⟩ := q
        simp only at he
        subst he
        exact h.addr.inj a b i f g hf hg

/-- C19. No more clients than the limit are registered. -/
theorem clients_bound (h : Exec true cap ma mc s) {L : List Nat} (hL : L.Nodup) (ht : ∀ u ∈ L, s.reg u ≠ none) : L.length ≤ mc := by
  have hm : s.cpool.next ≤ mc := by have := h.reg.pool.2.2; rw [h.limits.2.2] at this; exact this
  refine Nat.le_trans (nodup_bound (n := s.cpool.next) hL (fun a => ((s.reg a).map Prod.fst).getD 0) ?_ ?_) hm
  · intro a ha
    cases hf : s.reg a with
    | none => exact absurd hf (ht a ha)
    | some p => exact (h.reg.regB a p.1 p.2 hf).2.1
  · intro a ha b hb he
    cases hf : s.reg a with
    | none => exact absurd hf (ht a ha)
    | some p =>
      cases hg : s.reg b with
      | none => exact absurd hg (ht b hb)
      | some q =>
        simp only [hf, hg, Option.map_some, Option.getD_some] at he
        exact h.reg.regU a b p.1 q.1 p.2 q.2 hf hg (.inl he)

theorem no_leak {n : Nat} {free : List Nat} (hn : free.Nodup) (hb : ∀ i ∈ free, i < n) (R : Nat → Nat → Prop)
    (hall : ∀ i < n, i ∈ free ∨ ∃ a, R a i) (hR : ∀ a i, R a i → i < n ∧ i ∉ free)
    (hinj : ∀ a b i, R a i → R b i → a = b) (hfun : ∀ a i j, R a i → R a j → i = j) :
    ∃ L : List Nat, L.Nodup ∧ (∀ a, a ∈ L ↔ ∃ i, R a i) ∧ L.length + free.length = n := by
  classical
  let U := (List.range n).filter (fun i => decide (i ∉ free))
  have hU : ∀ i, i ∈ U ↔ i < n ∧ i ∉ free := by intro i; simp [U]
  have hUn : U.Nodup := List.nodup_range.filter _
  let g : Nat → Nat := fun i => if h : ∃ a, R a i then Classical.choose h else 0
  have hg : ∀ i ∈ U, R (g i) i := by
    intro i hi
    obtain ⟨h1, h2⟩ := (hU i).1 hi
    have h3 : ∃ a, R a i := (hall i h1).resolve_left h2
    show R (if h : ∃ a, R a i then Classical.choose h else 0) i
    rw [dif_pos h3]
    exact Classical.choose_spec h3
  refine ⟨U.map g, ?_, ?_, ?_⟩
  · refine List.Nodup.map_on ?_ hUn
    intro i hi j hj he
    exact hfun (g i) i j (hg i hi) (he ▸ hg j hj)
  · intro a
    rw [List.mem_map]
    constructor
    · rintro ⟨i, hi, rfl⟩; exact ⟨i, hg i hi⟩
    · rintro ⟨i, hi⟩
      have := (hU i).2 (hR a i hi)
      exact ⟨i, this, hinj _ _ i (hg i this) hi⟩
  · rw [List.length_map]
    have h1 : ((List.range n).filter (fun i => decide (i ∈ free))).Perm free := by
      rw [List.perm_ext_iff_of_nodup (List.nodup_range.filter _) hn]
      intro i
      simp only [List.mem_filter, List.mem_range, decide_eq_true_eq]
      exact ⟨fun h => h.2, fun h => ⟨hb i h, h⟩⟩
    rw [← h1.length_eq]
    have h2 := List.length_eq_length_filter_add (l := List.range n) (fun i => decide (i ∈ free))
    rw [List.length_range] at h2
    have h3 : U = (List.range n).filter (fun i => !decide (i ∈ free)) := by
      show (List.range n).filter _ = _
      congr 1
      funext i
      simp
    rw [h3]
    omega

/-- C19. When no call is in progress: every tracked address has a subscriber, and no address id is lost: those not in use are in the
free list (every execution). -/
theorem quiet_addresses (h : Exec fresh cap ma mc s) (hq : Quiet s) :
    (∀ a, s.fwd a ≠ none → s.notify a ≠ []) ∧
    ∃ L : List Nat, L.Nodup ∧ (∀ a, a ∈ L ↔ s.fwd a ≠ none) ∧ L.length + s.apool.free.length = s.apool.next := by
  constructor
  · intro a ha
    unfold State.notify
    cases hf : s.fwd a with
    | none => exact absurd hf ha
    | some p =>
      obtain ⟨i, f⟩ := p
      simp only
      intro he
      obtain ⟨t, k, hk, _⟩ := h.addr.empty a i f hf ((FSet.isEmpty_iff (h.addr.wf _ _ _ hf)).2 he)
      rw [hq t] at hk; simp at hk
  · have e1 : ∀ i < s.apool.next, i ∈ s.apool.free ∨ ∃ a f, s.fwd a = some (i, f) := by
      intro i hi
      rcases h.addr.noLeak i hi with h1 | h1 | ⟨t, k, hk, _⟩
      · exact .inl h1
      · exact .inr h1
      · rw [hq t] at hk; simp at hk
    have e2 : ∀ a i, (∃ f, s.fwd a = some (i, f)) → i < s.apool.next ∧ i ∉ s.apool.free := by
      rintro a i ⟨f, hf⟩; exact h.addr.used a i f hf
    have e3 : ∀ a b i, (∃ f, s.fwd a = some (i, f)) → (∃ f, s.fwd b = some (i, f)) → a = b := by
      rintro a b i ⟨f, hf⟩ ⟨g, hg⟩; exact h.addr.inj a b i f g hf hg
    have e4 : ∀ a i j, (∃ f, s.fwd a = some (i, f)) → (∃ f, s.fwd a = some (j, f)) → i = j := by
      rintro a i j ⟨f, hf⟩ ⟨g, hg⟩
      rw [hf] at hg
      simp only [Option.some.injEq, Prod.mk.injEq] at hg
      exact hg.1
    obtain ⟨L, h1, h2, h3⟩ := no_leak h.addr.pool.1 h.addr.pool.2.1 (fun a i => ∃ f, s.fwd a = some (i, f)) e1 e2 e3 e4
    refine ⟨L, h1, ?_, h3⟩
    intro a
    rw [h2]
    constructor
    · rintro ⟨i, f, hf⟩; rw [hf]; simp
    · intro hne
      cases hf : s.fwd a with
      | none => exact absurd hf hne
      | some p => exact ⟨p.1, p.2, rfl⟩

/-- C19. When no call is in progress no client id is lost. -/
theorem quiet_clients (h : Exec true cap ma mc s) (hq : Quiet s) :
    ∃ L : List Nat, L.Nodup ∧ (∀ u, u ∈ L ↔ s.reg u ≠ none) ∧ L.length + s.cpool.free.length = s.cpool.next := by
  have e1 : ∀ i < s.cpool.next, i ∈ s.cpool.free ∨ ∃ u l, s.reg u = some (i, l) := by
    intro i hi
    rcases h.reg.noLeak i hi with h1 | h1 | ⟨t, k, hk, _⟩
    · exact .inl h1
    · exact .inr h1
    · rw [hq t] at hk; simp at hk
  have e2 : ∀ a i, (∃ f, s.reg a = some (i, f)) → i < s.cpool.next ∧ i ∉ s.cpool.free := by
    rintro a i ⟨f, hf⟩; exact (h.reg.regB a i f hf).2
  have e3 : ∀ a b i, (∃ f, s.reg a = some (i, f)) → (∃ f, s.reg b = some (i, f)) → a = b := by
    rintro a b i ⟨f, hf⟩ ⟨g, hg⟩; exact h.reg.regU a b i i f g hf hg (.inl rfl)
  have e4 : ∀ a i j, (∃ f, s.reg a = some (i, f)) → (∃ f, s.reg a = some (j, f)) → i = j := by
    rintro a i j ⟨f, hf⟩ ⟨g, hg⟩
    rw [hf] at hg
    simp only [Option.some.injEq, Prod.mk.injEq] at hg
    exact hg.1
  obtain ⟨L, h1, h2, h3⟩ := no_leak h.reg.pool.1 h.reg.pool.2.1 (fun u c => ∃ l, s.reg u = some (c, l)) e1 e2 e3 e4
  refine ⟨L, h1, ?_, h3⟩
  intro a
  rw [h2]
  constructor
  · rintro ⟨i, f, hf⟩; rw [hf]; simp
  · intro hne
    cases hf : s.reg a with
    | none => exact absurd hf hne
    | some p => exact ⟨p.1, p.2, rfl⟩

/-! ### The answers -/

theorem exit_reg (h : Exec true cap ma mc s) {t : Nat} {k : Call} (hk : s.thr t = some k) (ha : k.ph.cls = .active) :
    s.reg k.uuid = some (k.cid, k.lk) := h.reg.cur t k hk ha

/-- C19. When `subscribe_many` is about to return, the client is subscribed to the addresses it counts: all of them if the answer is
`Ok`, else the first ones. -/
theorem subscribe_done (h : Exec true cap ma mc s) {t : Nat} {k : Call} (hk : s.thr t = some k) {ans : Ans} {subs unsubs : List Nat}
    (hph : k.ph = .exit ans subs unsubs) {addrs : List Nat} (hop : k.op = .sub addrs) :
    (ans = .ok → subs = addrs) ∧ (∃ rest, addrs = subs ++ rest) ∧
    ∀ a ∈ subs, want s.log k.uuid a = true ∧ k.cid ∈ s.notify a := by
  have ho := h.op t k hk
  rw [hph] at ho
  have hact : k.ph.cls = .active := by rw [hph]; rfl
  have hC := h.sub.busy t k hk (.inl hact)
  rw [hph] at hC
  refine ⟨?_, ?_, ?_⟩
  · rintro rfl
    rcases ho with ⟨h1, _⟩ | ⟨h1, _⟩
    · rw [hop] at h1; injection h1 with h1; exact h1.symm
    · rw [hop] at h1; simp at h1
  · have : ans = .ok ∨ ans ≠ .ok := by cases ans <;> simp
    rcases this with rfl | hne
    · rcases ho with ⟨h1, _⟩ | ⟨h1, _⟩
      · rw [hop] at h1; injection h1 with h1; exact ⟨[], by rw [h1, List.append_nil]⟩
      · rw [hop] at h1; simp at h1
    · have ho' : (∃ rest, k.op = .sub (subs ++ rest) ∧ unsubs = []) ∨ (∃ rest, k.op = .unsub (unsubs ++ rest) ∧ subs = []) := by
        cases ans with
        | ok => exact absurd rfl hne
        | _ => exact ho
      rcases ho' with ⟨rest, h1, _⟩ | ⟨rest, h1, _⟩
      · rw [hop] at h1; injection h1 with h1; exact ⟨rest, h1⟩
      · rw [hop] at h1; simp at h1
  · intro a ha
    obtain ⟨i, h1, h2⟩ := hC.subs a ha
    exact ⟨(h.sub.wants _ _ _ (h.reg.cur t k hk hact) a).2 ⟨i, h1, h2⟩, mem_notify.2 ⟨i, h1⟩⟩

/-- C19. When `unsubscribe_many` is about to return, the client is not subscribed to the addresses it counts: all of them if the
answer is `Ok`, else the first ones. -/
theorem unsubscribe_done (h : Exec true cap ma mc s) {t : Nat} {k : Call} (hk : s.thr t = some k) {ans : Ans} {subs unsubs : List Nat}
    (hph : k.ph = .exit ans subs unsubs) {addrs : List Nat} (hop : k.op = .unsub addrs) :
    (ans = .ok → unsubs = addrs) ∧ (∃ rest, addrs = unsubs ++ rest) ∧
    ∀ a ∈ unsubs, want s.log k.uuid a = false ∧ k.cid ∉ s.notify a := by
  have ho := h.op t k hk
  rw [hph] at ho
  have hact : k.ph.cls = .active := by rw [hph]; rfl
  have hC := h.sub.busy t k hk (.inl hact)
  rw [hph] at hC
  refine ⟨?_, ?_, ?_⟩
  · rintro rfl
    rcases ho with ⟨h1, _⟩ | ⟨h1, _⟩
    · rw [hop] at h1; simp at h1
    · rw [hop] at h1; injection h1 with h1; exact h1.symm
  · have : ans = .ok ∨ ans ≠ .ok := by cases ans <;> simp
    rcases this with rfl | hne
    · rcases ho with ⟨h1, _⟩ | ⟨h1, _⟩
      · rw [hop] at h1; simp at h1
      · rw [hop] at h1; injection h1 with h1; exact ⟨[], by rw [h1, List.append_nil]⟩
    · have ho' : (∃ rest, k.op = .sub (subs ++ rest) ∧ unsubs = []) ∨ (∃ rest, k.op = .unsub (unsubs ++ rest) ∧ subs = []) := by
        cases ans with
        | ok => exact absurd rfl hne
        | _ => exact ho
      rcases ho' with ⟨rest, h1, _⟩ | ⟨rest, h1, _⟩
      · rw [hop] at h1; simp at h1
      · rw [hop] at h1; injection h1 with h1; exact ⟨rest, h1⟩
  · intro a ha
    have hno : ∀ i, ¬ Mem s k.cid a i := by
      intro i h1
      rcases hC.F a i h1 with h2 | h2
      · exact hC.unsubs a ha i h1 h2
      · exact h2.elim
    constructor
    · cases hw : want s.log k.uuid a with
      | false => rfl
      | true =>
        obtain ⟨i, h1, _⟩ := (h.sub.wants _ _ _ (h.reg.cur t k hk hact) a).1 hw
        exact absurd h1 (hno i)
    · intro hm
      obtain ⟨i, h1⟩ := mem_notify.1 hm
      exact hno i h1

/-- C19. When `unsubscribe_all` is about to return, and when `remove_client` is about to give the id back, the client is in no set. -/
theorem purge_done (h : Exec true cap ma mc s) {t : Nat} {k : Call} (hk : s.thr t = some k) (hph : k.ph = .cleared ∨ k.ph = .reclaim) (a : Nat) :
    k.cid ∉ s.notify a ∧ s.count k.cid = 0 ∧ (k.ph = .cleared → want s.log k.uuid a = false) := by
  have hb : k.ph.busy := by rcases hph with hph | hph <;> rw [hph] <;> simp [Phase.busy, Phase.cls]
  have hC := h.sub.busy t k hk hb
  have hrev : s.rev k.cid = none := hC.noRev (by rcases hph with hph | hph <;> rw [hph] <;> rfl)
  have hno : ∀ i, ¬ Mem s k.cid a i := by
    intro i h1
    rcases hC.F a i h1 with h2 | h2
    · rw [hrev] at h2; simp at h2
    · rcases hph with hph | hph <;> rw [hph] at h2 <;> exact h2.elim
  refine ⟨?_, ?_, ?_⟩
  · intro hm
    obtain ⟨i, h1⟩ := mem_notify.1 hm
    exact hno i h1
  · unfold State.count State.revList; rw [hrev]; rfl
  · intro hp
    cases hw : want s.log k.uuid a with
    | false => rfl
    | true =>
      obtain ⟨i, h1, _⟩ := (h.sub.wants _ _ _ (h.reg.cur t k hk (by rw [hp]; rfl)) a).1 hw
      exact absurd h1 (hno i)

/-! ### Who changes what is asked for -/

theorem newEntry_log {s' : State} {u : Nat} {c : Choice} {r : Option (Nat × Nat)} (he : newEntry s u c = some (r, s')) : s'.log = s.log := by
  rcases newEntry_cases he with ⟨_, rfl⟩ | ⟨id, p, _, _, rfl⟩ <;> rfl

theorem begin_log {s' : State} {t u : Nat} {op : Op} {c : Choice} (hs : begin s t u op c = some s') : s'.log = s.log := by
  rcases begin_cases hs with rfl | ⟨id, lk, _, rfl⟩ | ⟨s1, _, h1, rfl⟩ | ⟨s1, id, lk, _, h1, rfl⟩
  · rfl
  · rfl
  · exact newEntry_log h1
  · have := newEntry_log h1
    exact this

/-- What a step of a call adds to the log. -/
theorem stepThread_log {s' : State} (h : OpInv s) {t : Nat} {k : Call} (hk : s.thr t = some k) {c : Choice} (hs : stepThread s t k c = some s') :
    s'.log = s.log ∨ (∃ addrs a, k.op = .sub addrs ∧ a ∈ addrs ∧ s'.log = s.log ++ [.sub k.uuid a]) ∨
    (∃ addrs a, k.op = .unsub addrs ∧ a ∈ addrs ∧ s'.log = s.log ++ [.unsub k.uuid a]) ∨
    ((k.op = .clear ∨ k.op = .remove) ∧ s'.log = s.log ++ [.clear k.uuid]) := by
  have ho := h t k hk
  unfold stepThread at hs
  split at hs
  · split at hs
    · simp at hs
    · obtain rfl := Option.some.inj hs; exact .inl rfl
  · obtain rfl := Option.some.inj hs; exact .inl rfl
  · unfold stepEnsure at hs
    split at hs
    · obtain rfl := Option.some.inj hs; exact .inl rfl
    · split at hs
      · simp at hs
      · obtain rfl := Option.some.inj hs; exact .inl rfl
      · obtain rfl := Option.some.inj hs; exact .inl rfl
  · obtain rfl := Option.some.inj hs
    unfold stepSubRev
    split
    · exact .inl rfl
    · split <;> exact .inl rfl
  · rename_i a aid created rest done hph
    rw [hph] at ho
    obtain rfl := Option.some.inj hs
    unfold stepSubFwd
    split
    · split
      · exact .inr (.inl ⟨_, a, ho, by simp, rfl⟩)
      · exact .inl rfl
    · exact .inl rfl
  · obtain rfl := Option.some.inj hs
    unfold stepAtCap
    split
    · split <;> exact .inl rfl
    · exact .inl rfl
  · obtain rfl := Option.some.inj hs; exact .inl rfl
  · obtain rfl := Option.some.inj hs; exact .inl rfl
  · split at hs <;> obtain rfl := Option.some.inj hs <;> exact .inl rfl
  · rename_i a aid rest done hph
    rw [hph] at ho
    obtain rfl := Option.some.inj hs
    unfold stepUnsubRev
    split
    · exact .inl rfl
    · split
      · exact .inr (.inr (.inl ⟨_, a, ho, by simp, rfl⟩))
      · exact .inl rfl
  · obtain rfl := Option.some.inj hs
    unfold stepCleanup
    split
    · exact .inl rfl
    · split <;> exact .inl rfl
  · obtain rfl := Option.some.inj hs; exact .inl rfl
  · obtain rfl := Option.some.inj hs; exact .inl rfl
  · rename_i hph
    rw [hph] at ho
    obtain rfl := Option.some.inj hs
    unfold stepDetach
    split
    · exact .inl rfl
    · split
      · exact .inr (.inr (.inr ⟨.inr ho, rfl⟩))
      · exact .inl rfl
  · rename_i fin hph
    rw [hph] at ho
    obtain rfl := Option.some.inj hs
    unfold stepPurgeStart
    cases fin with
    | true => exact .inl rfl
    | false => exact .inr (.inr (.inr ⟨.inl ho, rfl⟩))
  · obtain rfl := Option.some.inj hs
    unfold stepPurge
    split
    · exact .inl rfl
    · split <;> exact .inl rfl
  all_goals obtain rfl := Option.some.inj hs; exact .inl rfl

/-- C19. What a client asked for changes only by a step of one of its own calls: an address is gained only by a subscribe call with
that address, and lost only by an unsubscribe call with it, `unsubscribe_all` or a removal (every execution). -/
theorem step_want (h : Exec fresh cap ma mc s) {e : Ev} {s' : State} (hs : step s e = some s') {u a : Nat}
    (hne : want s'.log u a ≠ want s.log u a) :
    ∃ t k, s.thr t = some k ∧ k.uuid = u ∧
      ((want s'.log u a = true ∧ ∃ addrs, k.op = .sub addrs ∧ a ∈ addrs) ∨
       (want s'.log u a = false ∧ ((∃ addrs, k.op = .unsub addrs ∧ a ∈ addrs) ∨ k.op = .clear ∨ k.op = .remove))) := by
  cases e with
  | register u' c =>
    simp only [step] at hs
    split at hs
    · obtain rfl := Option.some.inj hs; exact absurd rfl hne
    · rw [Option.map_eq_some_iff] at hs
      obtain ⟨⟨r, s1⟩, h1, rfl⟩ := hs
      rw [newEntry_log h1] at hne
      exact absurd rfl hne
  | start t u' op c =>
    simp only [step] at hs
    split at hs
    · simp at hs
    · rw [begin_log hs] at hne
      exact absurd rfl hne
  | go t c =>
    simp only [step] at hs
    split at hs
    · simp at hs
    · rename_i k hk
      refine ⟨t, k, hk, ?_⟩
      rcases stepThread_log h.op hk hs with h1 | ⟨addrs, x, h1, h2, h3⟩ | ⟨addrs, x, h1, h2, h3⟩ | ⟨h1, h3⟩
      · rw [h1] at hne; exact absurd rfl hne
      · rw [h3, want_snoc] at hne ⊢
        simp only [Event.apply] at hne ⊢
        by_cases hx : k.uuid = u ∧ x = a
        · rw [if_pos hx]
          exact ⟨hx.1, .inl ⟨rfl, addrs, h1, hx.2 ▸ h2⟩⟩
        · rw [if_neg hx] at hne; exact absurd rfl hne
      · rw [h3, want_snoc] at hne ⊢
        simp only [Event.apply] at hne ⊢
        by_cases hx : k.uuid = u ∧ x = a
        · rw [if_pos hx]
          exact ⟨hx.1, .inr ⟨rfl, .inl ⟨addrs, h1, hx.2 ▸ h2⟩⟩⟩
        · rw [if_neg hx] at hne; exact absurd rfl hne
      · rw [h3, want_snoc] at hne ⊢
        simp only [Event.apply] at hne ⊢
        by_cases hx : k.uuid = u
        · rw [if_pos hx]
          exact ⟨hx, .inr ⟨rfl, .inr h1⟩⟩
        · rw [if_neg hx] at hne; exact absurd rfl hne

/-- C19. A call is refused at the client's limit only if the client has 255 subscriptions, and for lack of address ids only if as
many as the limit have been handed out (every execution). -/
theorem refused_only_when_full (h : Exec fresh cap ma mc s) {t : Nat} {c : Choice} {s' : State} {k k' : Call} (hs : step s (.go t c) = some s')
    (hk : s.thr t = some k) (hk' : s'.thr t = some k') :
    (∀ a i cr d, k'.ph = .atCap a i cr d → 255 ≤ s.count k.cid) ∧ (∀ d, k'.ph = .exit .maxAddrs d [] → s.apool.next = ma) := by
  simp only [step, hk] at hs
  have hC : ∀ co : Cont, (∀ a i cr d, co.phase ≠ .atCap a i cr d) ∧ ∀ d, co.phase ≠ .exit .maxAddrs d [] := by
    intro co; cases co <;> simp [Cont.phase]
  have hS : ∀ op : Op, (∀ a i cr d, startPhase op ≠ .atCap a i cr d) ∧ ∀ d, startPhase op ≠ .exit .maxAddrs d [] := by
    intro op
    unfold startPhase
    split
    · split <;> simp
    all_goals simp
  have fin : ∀ (s0 : State) (ph : Phase), (s0.goto t k ph).thr t = some k' → k'.ph = ph := by
    intro s0 ph hg
    rw [goto_thr_same] at hg
    rw [← Option.some.inj hg]
  unfold stepThread at hs
  split at hs
  · split at hs
    · simp at hs
    · obtain rfl := Option.some.inj hs
      rw [fin _ _ hk']
      exact ⟨fun a i cr d h0 => absurd h0 ((hS _).1 a i cr d), fun d h0 => absurd h0 ((hS _).2 d)⟩
  · obtain rfl := Option.some.inj hs
    rw [fin _ _ hk']; simp
  · unfold stepEnsure at hs
    split at hs
    · obtain rfl := Option.some.inj hs
      rw [fin _ _ hk']; simp
    · split at hs
      · simp at hs
      · obtain rfl := Option.some.inj hs
        rw [fin _ _ hk']; simp
      · rename_i ha
        obtain rfl := Option.some.inj hs
        rw [fin _ _ hk']
        refine ⟨by simp, ?_⟩
        intro d _
        have h1 := h.addr.pool.2.2
        rw [h.limits.2.1] at h1
        unfold Pool.alloc at ha
        split at ha
        · split at ha <;> simp at ha
        · split at ha <;> simp at ha
        · split at ha
          · simp at ha
          · rename_i hlt
            rw [h.limits.2.1] at hlt
            omega
  · obtain rfl := Option.some.inj hs
    unfold stepSubRev at hk'
    split at hk'
    · rw [fin _ _ hk']; simp
    · split at hk'
      · rename_i hl
        rw [fin _ _ hk']
        exact ⟨fun _ _ _ _ _ => hl, by simp⟩
      · rw [fin _ _ hk']; simp
  · obtain rfl := Option.some.inj hs
    unfold stepSubFwd at hk'
    split at hk'
    · split at hk' <;> (rw [fin _ _ hk']; simp)
    · rw [fin _ _ hk']; simp
  · obtain rfl := Option.some.inj hs
    unfold stepAtCap at hk'
    split at hk'
    · split at hk' <;> (rw [fin _ _ hk']; simp)
    · rw [fin _ _ hk']; simp
  · obtain rfl := Option.some.inj hs
    rw [fin _ _ hk']; simp
  · obtain rfl := Option.some.inj hs
    rw [fin _ _ hk']; simp
  · split at hs <;> obtain rfl := Option.some.inj hs <;> (rw [fin _ _ hk']; simp)
  · obtain rfl := Option.some.inj hs
    unfold stepUnsubRev at hk'
    split at hk'
    · rw [fin _ _ hk']; simp
    · split at hk' <;> (rw [fin _ _ hk']; simp)
  · obtain rfl := Option.some.inj hs
    unfold stepCleanup at hk'
    split at hk'
    · rw [fin _ _ hk']
      exact ⟨fun a i cr d h0 => absurd h0 ((hC _).1 a i cr d), fun d h0 => absurd h0 ((hC _).2 d)⟩
    · split at hk'
      · rw [fin _ _ hk']; simp
      · rw [fin _ _ hk']
        exact ⟨fun a i cr d h0 => absurd h0 ((hC _).1 a i cr d), fun d h0 => absurd h0 ((hC _).2 d)⟩
  · obtain rfl := Option.some.inj hs
    rw [fin _ _ hk']; simp
  · obtain rfl := Option.some.inj hs
    rw [fin _ _ hk']
    exact ⟨fun a i cr d h0 => absurd h0 ((hC _).1 a i cr d), fun d h0 => absurd h0 ((hC _).2 d)⟩
  · obtain rfl := Option.some.inj hs
    unfold stepDetach at hk'
    split at hk'
    · rw [fin _ _ hk']; simp
    · split at hk' <;> (rw [fin _ _ hk']; simp)
  · obtain rfl := Option.some.inj hs
    unfold stepPurgeStart at hk'
    rw [fin _ _ hk']; simp
  · rename_i aids fin' _
    obtain rfl := Option.some.inj hs
    unfold stepPurge at hk'
    split at hk'
    · rw [fin _ _ hk']; cases fin' <;> simp
    · split at hk' <;> (rw [fin _ _ hk']; simp)
  · obtain rfl := Option.some.inj hs
    rw [fin _ _ hk']; simp
  all_goals
    obtain rfl := Option.some.inj hs
    have hk' : upd s.thr t none t = some k' := hk'
    rw [upd_same] at hk'; simp at hk'

/-! ### Progress -/

theorem alloc_some (p : Pool) : ∃ c r, p.alloc c = some r := by
  by_cases h : p.next < p.max
  · exact ⟨.fresh, _, by simp only [Pool.alloc]; rw [if_pos h]⟩
  · exact ⟨.fail, _, by simp only [Pool.alloc]; rw [if_neg h]⟩

/-- A call can make a step unless it waits for a mutex that is taken. -/
theorem can_step {t : Nat} {k : Call} (hk : s.thr t = some k) : (∃ c s', step s (.go t c) = some s') ∨ ((∃ op, k.ph = .wait op) ∧ s.locked k.lk = true) := by
  simp only [step, hk]
  cases hph : k.ph with
  | wait op =>
    by_cases hl : s.locked k.lk = true
    · exact .inr ⟨⟨op, rfl⟩, hl⟩
    · left
      simp only [stepThread, hph]
      rw [if_neg hl]
      exact ⟨.fail, _, rfl⟩
  | subLoop todo done =>
    left
    cases todo with
    | nil => simp only [stepThread, hph]; exact ⟨.fail, _, rfl⟩
    | cons a rest =>
      obtain ⟨c, ⟨r, p⟩, hr⟩ := alloc_some s.apool
      refine ⟨c, ?_⟩
      simp only [stepThread, hph, stepEnsure]
      cases hf : s.fwd a with
      | some q => exact ⟨_, rfl⟩
      | none =>
        simp only [hr]
        cases r with
        | none => exact ⟨_, rfl⟩
        | some i => exact ⟨_, rfl⟩
  | unsubLoop todo done =>
    left
    cases todo with
    | nil => simp only [stepThread, hph]; exact ⟨.fail, _, rfl⟩
    | cons a rest =>
      simp only [stepThread, hph]
      cases hf : s.fwd a with
      | some q => exact ⟨.fail, _, rfl⟩
      | none => exact ⟨.fail, _, rfl⟩
  | _ => left; simp only [stepThread, hph]; exact ⟨.fail, _, rfl⟩

/-- C19. No deadlock: while a call is in progress some call can make a step (every execution). -/
theorem progress (h : Exec fresh cap ma mc s) {t : Nat} {k : Call} (hk : s.thr t = some k) : ∃ t' c s', step s (.go t' c) = some s' := by
  rcases can_step hk with ⟨c, s', h1⟩ | ⟨_, hl⟩
  · exact ⟨t, c, s', h1⟩
  · obtain ⟨t', k', hk', _, hne⟩ := h.lock _ hl
    rcases can_step hk' with ⟨c, s', h1⟩ | ⟨⟨op, ho⟩, _⟩
    · exact ⟨t', c, s', h1⟩
    · exact absurd ho (hne op)

end Tycho.Subs
