import Verif.Bans.Chain
/-!
C153: an event leads to a ban exactly if there were too many. C154: who is banned, since when and until when. C155: restarts.
-/
namespace Tycho.Bans
open Tycho.Table (Table get put del get_put get_del Uniq putAll)

theorem chain_start (l : Table Nat Temp) (hu : Uniq l) (p : Nat) :
    (l.map (fun e => Item.banned e.1 e.2.til)).filterMap (itemBan p) = ((get l p).map Temp.til).toList := by
  induction l with
  | nil => rfl
  | cons e l ih =>
    obtain ⟨q, t⟩ := e
    have hu2 := List.nodup_cons.1 hu
    have h := ih hu2.2
    simp only [List.map_cons]
    by_cases hq : q = p
    · subst hq
      have hn : get l q = none := by
        cases hg : get l q with
        | none => rfl
        | some t' => exact absurd (List.mem_map.2 ⟨(q, t'), Table.mem_of_get _ _ _ hg, rfl⟩) hu2.1
      rw [hn] at h
      rw [List.filterMap_cons_some (by simp [itemBan]; rfl), h]
      simp [Table.get]
    · rw [List.filterMap_cons_none (by simp [itemBan, hq]), h]
      simp [Table.get, hq]

theorem cinv_start (cfg : Config) (hv : Valid cfg) (st : Nat) (j : List Rec) (jok : Jok cfg j) :
    CInv (start cfg st j) ∧ (start cfg st j).bad = false := by
  obtain ⟨h1, h2⟩ := start_eq cfg hv st j jok
  rw [h1]
  have hc : ∀ s : St, s.last = [] → s.chan = ((restoreLoop cfg st (load cfg st j)).temp.map (fun e => Item.banned e.1 e.2.til)) → ∀ p,
      chain s p = ((get (restoreLoop cfg st (load cfg st j)).temp p).map Temp.til).toList := by
    intro s e1 e2 p
    unfold chain
    rw [e1, e2, chain_start _ h2]
    simp [Table.get]
  have i1 : ∀ s : St, s.last = [] → s.chan = ((restoreLoop cfg st (load cfg st j)).temp.map (fun e => Item.banned e.1 e.2.til)) → ∀ p,
      (chain s p).Pairwise (· < ·) := by
    intro s e1 e2 p
    rw [hc s e1 e2]
    cases (get (restoreLoop cfg st (load cfg st j)).temp p).map Temp.til <;> simp
  have i2 : ∀ s : St, s.last = [] → s.chan = ((restoreLoop cfg st (load cfg st j)).temp.map (fun e => Item.banned e.1 e.2.til)) →
      s.bans = putAll [] ((restoreLoop cfg st (load cfg st j)).temp.map (fun e => (e.1, e.2.til))) → ∀ p,
      get s.bans p = (chain s p).getLast? := by
    intro s e1 e2 e3 p
    rw [hc s e1 e2, e3, get_putAll_map _ h2]
    cases (get (restoreLoop cfg st (load cfg st j)).temp p).map Temp.til <;> simp
  exact ⟨⟨i1 _ rfl rfl, i2 _ rfl rfl rfl, by simp [Table.get], by simp⟩, rfl⟩

theorem onEvent_now (cfg : Config) (s : St) : (s.handle cfg).now = s.now := by
  unfold St.handle
  split
  · rename_i p tag t _
    simp only [St.onEvent, St.newKey]
    split
    · rfl
    · rfl
    · simp only [St.write]
      exact (upsert_rest _ _ _).1
  · rfl

theorem cinv_write {s : St} (w : CInv s) (l : List Rec) : CInv (s.write l) := w.same (Nat.le_refl _) rfl (fun _ => rfl) rfl rfl

theorem cinv_manualUnban {s : St} (w : CInv s) (h0 : s.bad = false) (p : Nat) :
    CInv (s.onManualUnban p) ∧ (s.onManualUnban p).bad = false := by
  unfold St.onManualUnban
  cases hl : get s.last p with
  | none => exact ⟨w, h0⟩
  | some x =>
    obtain ⟨til, d⟩ := x
    simp only
    obtain ⟨h1, h2⟩ := cinv_unban w p til d hl
    have h3 := unban_spec { s with last := del s.last (fun x => decide (x = p)) } p til
    generalize St.unban { s with last := del s.last (fun x => decide (x = p)) } p til = y at *
    obtain ⟨s1, o⟩ := y
    simp only at h1 h2 h3
    subst h2
    have hb : s1.bad = false := by rw [h3.2.2.2.2.2.2.2.2.1]; exact h0
    cases decide (get s.bans p = some til) with
    | false => exact ⟨h1, hb⟩
    | true => exact ⟨cinv_write (CInv.same (s' := { s1 with seq := s1.seq + 1 }) h1 (Nat.le_refl _) rfl (fun _ => rfl) rfl rfl) _, hb⟩

theorem cinv_autoUnban {s : St} (w : CInv s) (h0 : s.bad = false) (p : Nat) :
    CInv (s.onAutoUnban p) ∧ (s.onAutoUnban p).bad = false := by
  have : s.onAutoUnban p = s ∨ s.onAutoUnban p = s.onManualUnban p := by
    unfold St.onAutoUnban St.onManualUnban
    cases get s.last p with
    | none => exact Or.inl rfl
    | some x =>
      simp only
      split
      · exact Or.inl rfl
      · exact Or.inr rfl
  rcases this with h | h
  · rw [h]; exact ⟨w, h0⟩
  · rw [h]; exact cinv_manualUnban w h0 p

theorem cinv_step {cfg : Config} (hv : Valid cfg) {s : St} (hj : JInv cfg s) (w : CInv s) (h0 : s.bad = false) (op : Op) :
    CInv (step cfg s op) ∧ (step cfg s op).bad = false := by
  cases op with
  | tick d => exact ⟨w.same (Nat.le_add_right _ _) rfl (fun _ => rfl) rfl rfl, h0⟩
  | report p tag => exact ⟨w.same (Nat.le_refl _) rfl (fun q => by simp [step, List.filterMap_append, itemBan]) rfl rfl, h0⟩
  | manualBan p dur =>
    simp only [step]
    split
    · unfold St.manualBan St.newKey
      simp only
      have hc := cinv_upsert (CInv.same (s' := { s with seq := s.seq + 1 }) w (Nat.le_refl _) rfl (fun _ => rfl) rfl rfl) p (s.now + dur)
      have hr := (upsert_rest { s with seq := s.seq + 1 } p (s.now + dur)).2.2.2.2.2.2.2.2
      generalize St.upsert { s with seq := s.seq + 1 } p (s.now + dur) = x at *
      obtain ⟨s1, b⟩ := x
      simp only at hc hr ⊢
      cases b with
      | false => exact ⟨hc, by rw [hr]; exact h0⟩
      | true => exact ⟨cinv_write hc _, by simp only [St.write]; rw [hr]; exact h0⟩
    · exact ⟨w, h0⟩
  | askUnban p => exact ⟨w.same (Nat.le_refl _) rfl (fun q => by simp [step, List.filterMap_append, itemBan]) rfl rfl, h0⟩
  | recv =>
    simp only [step]
    unfold St.recv
    split
    · rename_i p tag l hp hc
      exact ⟨w.same (Nat.le_refl _) rfl (fun q => by rw [hc]; exact (List.filterMap_cons_none rfl).symm) rfl rfl, h0⟩
    · rename_i p til l hp hc
      have := cinv_onBanned w p til l hc
      exact ⟨this.1, by rw [this.2.1]; exact h0⟩
    · rename_i p l hp hc
      exact cinv_manualUnban (CInv.same (s' := { s with chan := l }) w (Nat.le_refl _) rfl (fun q => by rw [hc]; exact (List.filterMap_cons_none rfl).symm) rfl rfl) h0 p
    · exact ⟨w, h0⟩
  | handle =>
    simp only [step]
    cases hp : s.pend with
    | none => unfold St.handle; rw [hp]; exact ⟨w, h0⟩
    | some x =>
      obtain ⟨p, tag, t⟩ := x
      obtain ⟨_, h1, h2, h3⟩ := handle_spec hv hj p tag t hp
      refine ⟨?_, by rw [h1]; exact h0⟩
      rcases h3 with ⟨_, _, e1, e2, e3⟩ | ⟨_, _, e1, e2, e3⟩
      · refine (cinv_upsert w p (t + (cfg.of tag).dur)).same ?_ e1 (fun _ => by rw [e2]) ?_ e3
        · rw [onEvent_now, (upsert_rest _ _ _).1]; exact Nat.le_refl _
        · rw [h2, (upsert_rest s p (t + (cfg.of tag).dur)).2.2.2.2.2.2.2.1]
      · exact w.same (by rw [onEvent_now]; exact Nat.le_refl _) e1 (fun _ => by rw [e2]) h2 e3
  | expire p =>
    simp only [step]
    split
    · exact cinv_autoUnban w h0 p
    · exact ⟨w, h0⟩
  | flush =>
    simp only [step]
    unfold St.flush
    split
    · exact ⟨w.same (Nat.le_refl _) rfl (fun _ => rfl) rfl rfl, h0⟩
    · exact ⟨w, h0⟩
  | setSchedule =>
    refine ⟨⟨w.inc, w.bans, w.dl, ?_⟩, h0⟩
    intro n hn p
    simp only [step, Option.some.injEq] at hn ⊢
    subst hn
    generalize s.bans = b
    induction b with
    | nil => rfl
    | cons e b ih =>
      by_cases he : e.1 = p
      · simp [Table.get, he]
      · simpa [Table.get, he] using ih
  | restart d => exact cinv_start cfg hv _ _ (hj.jok [] s.queue rfl)

/-- Everything that holds in every history. -/
theorem inv_run {cfg : Config} (hv : Valid cfg) (t0 : Nat) (ops : List Op) :
    JInv cfg (run cfg t0 ops) ∧ CInv (run cfg t0 ops) ∧ (run cfg t0 ops).bad = false := by
  unfold run
  have h0 : JInv cfg (start cfg t0 []) := jinv_start cfg hv t0 [] (jok_nil cfg) (by simp)
  have h1 := cinv_start cfg hv t0 [] (jok_nil cfg)
  generalize start cfg t0 [] = s at h0 h1
  induction ops generalizing s with
  | nil => exact ⟨h0, h1.1, h1.2⟩
  | cons o ops ih => exact ih _ (jinv_step hv h0 o) (cinv_step hv h0 h1.1 h1.2 o)

/-- C154: the asserts of the code never fail, in any history. -/
theorem never_panics {cfg : Config} (hv : Valid cfg) (t0 : Nat) (ops : List Op) : (run cfg t0 ops).bad = false :=
  (inv_run hv t0 ops).2.2

/-- C153: an event that is handled leads to a ban, for its duration from the event on, exactly if with it there were more events
of its kind by this peer in its window than are tolerated, those before restarts included; bans of other peers stay. -/
theorem ban_iff_too_many {cfg : Config} (hv : Valid cfg) (t0 : Nat) (ops : List Op) (p tag t : Nat)
    (hp : (run cfg t0 ops).pend = some (p, tag, t)) :
    let s := run cfg t0 ops
    let s' := run cfg t0 (ops ++ [.handle])
    let es := eventsOf (jour s) p tag ++ [(t, s.seq)]
    eventsOf (jour s') p tag = es ∧
      (tooMany (cfg.of tag) es t → get s'.bans p = some (max ((get s.bans p).getD 0) (t + (cfg.of tag).dur))) ∧
      (¬ tooMany (cfg.of tag) es t → get s'.bans p = get s.bans p) ∧
      ∀ q, q ≠ p → get s'.bans q = get s.bans q := by
  have hr : run cfg t0 (ops ++ [.handle]) = (run cfg t0 ops).handle cfg := by simp [run, step]
  simp only
  rw [hr]
  obtain ⟨hj, _, _⟩ := inv_run hv t0 ops
  generalize run cfg t0 ops = s at *
  obtain ⟨hj', _, _, h3⟩ := handle_spec hv hj p tag t hp
  have hev : ∀ (a b : List Rec) (l : List Rec), jour s = a ++ b → (∀ x ∈ l, ∀ tg, x.kind ≠ .event tg) →
      Up ((a ++ ⟨(t, s.seq), p, .event tag⟩ :: b ++ l).map (·.key)) →
      eventsOf (a ++ ⟨(t, s.seq), p, .event tag⟩ :: b ++ l) p tag = eventsOf (jour s) p tag ++ [(t, s.seq)] := by
    intro a b l hab hl hup
    have hb : ∀ x ∈ b, ∀ tg, x.kind ≠ .event tg := by
      intro x hx tg htg
      have hx2 : klt (t, s.seq) x.key = true := by
        have : (a ++ ⟨(t, s.seq), p, .event tag⟩ :: b ++ l).Pairwise (fun x y => klt x.key y.key = true) := List.pairwise_map.1 hup
        rw [List.append_assoc] at this
        exact (List.pairwise_cons.1 (List.pairwise_append.1 this).2.1).1 x (by simp [hx])
      rcases (hj.pend p tag t hp).2.2 x (by rw [hab]; simp [hx]) with h | ⟨u, hu⟩
      · have := klt_asymm h; rw [hx2] at this; cases this
      · rw [hu] at htg; cases htg
    have e1 : a ++ ⟨(t, s.seq), p, .event tag⟩ :: b ++ l = (a ++ [⟨(t, s.seq), p, .event tag⟩]) ++ (b ++ l) := by simp
    rw [e1, eventsOf_bans _ _ (by
      intro x hx
      rcases List.mem_append.1 hx with h | h
      · exact hb x h
      · exact hl x h), eventsOf_snoc, if_pos ⟨rfl, rfl⟩, hab, eventsOf_bans _ _ hb]
  rcases h3 with ⟨htm, ⟨a, b, hab, hj2⟩, e1, _⟩ | ⟨htm, ⟨a, b, hab, hj2⟩, e1, _⟩
  · refine ⟨?_, fun _ => ?_, fun h => absurd htm h, fun q hq => ?_⟩
    · rw [hj2]; exact hev a b _ hab (by simp) (by rw [← hj2]; exact hj'.jour.up)
    · rw [e1, upsert_bans, if_pos rfl]
    · rw [e1, upsert_bans, if_neg hq]
  · refine ⟨?_, fun h => absurd h htm, fun _ => by rw [e1], fun q _ => by rw [e1]⟩
    rw [hj2]
    have := hev a b [] hab (by simp) (by rw [List.append_nil, ← hj2]; exact hj'.jour.up)
    rwa [List.append_nil] at this

/-- C154: a peer is banned exactly until the latest end among its bans since it was last unbanned, as the journal has them. -/
theorem ban_is_longest {cfg : Config} (hv : Valid cfg) (t0 : Nat) (ops : List Op) (p : Nat) :
    get (run cfg t0 ops).bans p = banNow (run cfg t0 ops).started (jour (run cfg t0 ops)) p := (inv_run hv t0 ops).1.bans p

/-- C154: the network bans exactly the banned peers. -/
theorem network_agrees {cfg : Config} (hv : Valid cfg) (t0 : Nat) (ops : List Op) (n : Table Nat Unit)
    (hn : (run cfg t0 ops).net = some n) (p : Nat) : (get n p).isSome = (get (run cfg t0 ops).bans p).isSome :=
  (inv_run hv t0 ops).2.1.net n hn p

/-- C155: after a restart the bans are those of the stored journal. -/
theorem restart_reads_disk {cfg : Config} (hv : Valid cfg) (t0 : Nat) (ops : List Op) (d p : Nat) :
    get (run cfg t0 (ops ++ [.restart d])).bans p = banNow ((run cfg t0 ops).now + d + 1) (run cfg t0 ops).disk p := by
  have hr : run cfg t0 (ops ++ [.restart d]) = start cfg ((run cfg t0 ops).now + d + 1) (run cfg t0 ops).disk := by simp [run, step]
  rw [hr]
  exact start_bans cfg hv _ _ ((inv_run hv t0 ops).1.jok [] _ rfl) p

/-- C155: if all was written, a restart keeps exactly the bans that are not over. -/
theorem restart_keeps {cfg : Config} (hv : Valid cfg) (t0 : Nat) (ops : List Op) (d p : Nat) (hq : (run cfg t0 ops).queue = []) :
    get (run cfg t0 (ops ++ [.restart d])).bans p =
      (get (run cfg t0 ops).bans p).filter (fun u => decide ((run cfg t0 ops).now + d + 1 < u)) := by
  rw [restart_reads_disk hv, ban_is_longest hv]
  have h1 := (inv_run hv t0 ops).1.startLe
  have hd : jour (run cfg t0 ops) = (run cfg t0 ops).disk := by unfold jour; rw [hq]; rfl
  rw [hd]
  exact (banNow_later _ _ (by omega) _ p).1

theorem banNow_mem (st : Nat) (j : List Rec) (p u : Nat) (h : banNow st j p = some u) : st < u ∧ ∃ r ∈ j, r.peer = p ∧ r.kind = .banned u := by
  induction j using List.reverseRecOn generalizing u with
  | nil => simp [banNow] at h
  | append_singleton j r ih =>
    rw [banNow_snoc] at h
    have old : banNow st j p = some u → st < u ∧ ∃ x ∈ j ++ [r], x.peer = p ∧ x.kind = .banned u := by
      intro h
      obtain ⟨h1, x, hx, h2⟩ := ih u h
      exact ⟨h1, x, by simp [hx], h2⟩
    unfold banStep at h
    split at h
    · rename_i hp
      split at h
      · rename_i v hv
        split at h
        · rename_i hlt
          simp only [Option.some.injEq] at h
          rcases Nat.le_total ((banNow st j p).getD 0) v with hle | hle
          · rw [Nat.max_eq_right hle] at h; subst h
            exact ⟨hlt, r, by simp, hp, hv⟩
          · rw [Nat.max_eq_left hle] at h
            apply old
            cases hb : banNow st j p with
            | none => rw [hb, Option.getD_none] at hle; omega
            | some w => rw [hb, Option.getD_some] at h; rw [h]
        · exact old h
      · cases h
      · exact old h
    · exact old h

/-- C155: no ban is made up at a restart: it is in the stored journal, and not over. -/
theorem restart_makes_nothing_up {cfg : Config} (hv : Valid cfg) (t0 : Nat) (ops : List Op) (d p u : Nat)
    (h : get (run cfg t0 (ops ++ [.restart d])).bans p = some u) :
    (run cfg t0 ops).now + d + 1 < u ∧ ∃ r ∈ (run cfg t0 ops).disk, r.peer = p ∧ r.kind = .banned u := by
  rw [restart_reads_disk hv] at h
  exact banNow_mem _ _ _ _ h

theorem manualUnban_lifts {s : St} (p q u : Nat) (h1 : get s.bans q = some u) (h2 : get (s.onManualUnban p).bans q = none) :
    q = p ∧ ∃ d, get s.last p = some (u, d) := by
  unfold St.onManualUnban at h2
  cases hl : get s.last p with
  | none => rw [hl] at h2; simp only at h2; rw [h1] at h2; cases h2
  | some x =>
    obtain ⟨til, d⟩ := x
    rw [hl] at h2
    simp only at h2
    cases hg : get s.bans p with
    | none => simp [St.unban, hg, h1] at h2
    | some cur =>
      simp only [St.unban, hg] at h2
      by_cases hc : cur < til
      · rw [if_pos hc] at h2; simp [h1] at h2
      · rw [if_neg hc] at h2
        by_cases hc2 : cur = til
        · rw [if_pos hc2] at h2
          simp only [St.newKey, St.write, St.netUnban, get_del] at h2
          by_cases hq : q = p
          · subst hq
            rw [hg] at h1
            simp only [Option.some.injEq] at h1
            exact ⟨rfl, d, by rw [← hc2, h1]⟩
          · simp [hq, h1] at h2
        · rw [if_neg hc2] at h2; simp [h1] at h2

/-- C154: a ban is lifted only by the user, or when it is over, or at a restart. -/
theorem lifted_only_when {cfg : Config} (hv : Valid cfg) (t0 : Nat) (ops : List Op) (op : Op) (p u : Nat)
    (h1 : get (run cfg t0 ops).bans p = some u) (h2 : get (run cfg t0 (ops ++ [op])).bans p = none) :
    (op = .recv ∧ (run cfg t0 ops).chan.head? = some (.unban p)) ∨ (op = .expire p ∧ u ≤ (run cfg t0 ops).now) ∨
      (∃ d, op = .restart d ∧ (u ≤ (run cfg t0 ops).now + d + 1 ∨ (run cfg t0 ops).queue ≠ [])) := by
  have hr : run cfg t0 (ops ++ [op]) = step cfg (run cfg t0 ops) op := by simp [run]
  obtain ⟨hj, hc, _⟩ := inv_run hv t0 ops
  cases op with
  | restart d =>
    refine Or.inr (Or.inr ⟨d, rfl, ?_⟩)
    by_cases hq : (run cfg t0 ops).queue = []
    · rw [restart_keeps hv t0 ops d p hq, h1] at h2
      left
      by_contra hne
      simp only [Option.filter] at h2
      rw [if_pos (by simpa using hne)] at h2
      cases h2
    · exact Or.inr hq
  | recv =>
    rw [hr] at h2
    generalize run cfg t0 ops = s at *
    simp only [step] at h2
    unfold St.recv at h2
    split at h2
    · simp [h1] at h2
    · rename_i q til l hp hcn
      rw [(cinv_onBanned hc q til l hcn).2.2.1, h1] at h2; cases h2
    · rename_i q l hp hcn
      obtain ⟨rfl, _⟩ := manualUnban_lifts (s := { s with chan := l }) q p u h1 h2
      exact Or.inl ⟨rfl, by rw [hcn]; rfl⟩
    · rw [h1] at h2; cases h2
  | expire q =>
    rw [hr] at h2
    generalize run cfg t0 ops = s at *
    simp only [step] at h2
    split at h2
    · unfold St.onAutoUnban at h2
      have hm := manualUnban_lifts (s := s) q p u h1
      unfold St.onManualUnban at hm
      cases hl : get s.last q with
      | none => rw [hl] at h2; simp only at h2; rw [h1] at h2; cases h2
      | some x =>
        obtain ⟨til, dl⟩ := x
        rw [hl] at h2 hm
        simp only at h2 hm
        split at h2
        · rw [h1] at h2; cases h2
        · rename_i hnow
          obtain ⟨rfl, d', e⟩ := hm h2
          simp only [Option.some.injEq, Prod.mk.injEq] at e
          have := hc.dl p til dl hl
          exact Or.inr (Or.inl ⟨rfl, by omega⟩)
    · rw [h1] at h2; cases h2
  | handle =>
    rw [hr] at h2
    generalize run cfg t0 ops = s at *
    simp only [step] at h2
    cases hp : s.pend with
    | none => unfold St.handle at h2; rw [hp] at h2; simp only at h2; rw [h1] at h2; cases h2
    | some x =>
      obtain ⟨q, tag, t⟩ := x
      rcases (handle_spec hv hj q tag t hp).2.2.2 with ⟨_, _, e, _⟩ | ⟨_, _, e, _⟩
      · rw [e, upsert_bans] at h2
        split at h2
        · cases h2
        · rw [h1] at h2; cases h2
      · rw [e, h1] at h2; cases h2
  | manualBan q dur =>
    rw [hr] at h2
    generalize run cfg t0 ops = s at *
    simp only [step] at h2
    split at h2
    · unfold St.manualBan St.newKey at h2
      simp only at h2
      have hb := upsert_bans { s with seq := s.seq + 1 } q (s.now + dur) p
      generalize St.upsert { s with seq := s.seq + 1 } q (s.now + dur) = x at *
      obtain ⟨s1, b⟩ := x
      have : get s1.bans p = none := by cases b <;> exact h2
      simp only at hb
      rw [hb] at this
      split at this
      · cases this
      · rw [h1] at this; cases this
    · rw [h1] at h2; cases h2
  | flush =>
    rw [hr] at h2
    simp only [step, St.flush] at h2
    split at h2 <;> (rw [h1] at h2; cases h2)
  | tick d => rw [hr] at h2; simp only [step] at h2; rw [h1] at h2; cases h2
  | report q tag => rw [hr] at h2; simp only [step] at h2; rw [h1] at h2; cases h2
  | askUnban q => rw [hr] at h2; simp only [step] at h2; rw [h1] at h2; cases h2
  | setSchedule => rw [hr] at h2; simp only [step] at h2; rw [h1] at h2; cases h2

/-- C154: except at a restart no ban gets shorter. -/
theorem never_shorter {cfg : Config} (hv : Valid cfg) (t0 : Nat) (ops : List Op) (op : Op) (hop : ∀ d, op ≠ .restart d) (p u v : Nat)
    (h1 : get (run cfg t0 ops).bans p = some u) (h2 : get (run cfg t0 (ops ++ [op])).bans p = some v) : u ≤ v := by
  have hr : run cfg t0 (ops ++ [op]) = step cfg (run cfg t0 ops) op := by simp [run]
  obtain ⟨hj, hc, _⟩ := inv_run hv t0 ops
  rw [hr] at h2
  generalize run cfg t0 ops = s at *
  have same : (step cfg s op).bans = s.bans → u ≤ v := by
    intro e; rw [e, h1] at h2; simp only [Option.some.injEq] at h2; omega
  have ups : ∀ (s1 : St) (q til : Nat), s1.bans = s.bans → (step cfg s op).bans = (s1.upsert q til).1.bans → u ≤ v := by
    intro s1 q til e1 e
    rw [e, upsert_bans, e1] at h2
    split at h2
    · rename_i hq
      subst hq
      rw [h1, Option.getD_some] at h2
      simp only [Option.some.injEq] at h2; omega
    · rw [h1] at h2; simp only [Option.some.injEq] at h2; omega
  have unb : ∀ (s1 : St) (q : Nat), s1.bans = s.bans → (step cfg s op).bans = (s1.onManualUnban q).bans → u ≤ v := by
    intro s1 q e1 e
    rw [e] at h2
    unfold St.onManualUnban at h2
    have h1' : get s1.bans p = some u := by rw [e1]; exact h1
    cases hl : get s1.last q with
    | none => rw [hl] at h2; simp only at h2; rw [h1'] at h2; simp only [Option.some.injEq] at h2; omega
    | some x =>
      obtain ⟨til, d⟩ := x
      rw [hl] at h2
      simp only at h2
      have h3 := unban_spec { s1 with last := del s1.last (fun x => decide (x = q)) } q til
      generalize St.unban { s1 with last := del s1.last (fun x => decide (x = q)) } q til = y at *
      obtain ⟨s2, o⟩ := y
      obtain ⟨_, _, _, _, _, _, _, _, _, _, h4, h5⟩ := h3
      simp only at h4 h5
      rcases o with _ | _ | _
      · simp only at h2; rw [h4 (by simp), h1'] at h2; simp only [Option.some.injEq] at h2; omega
      · simp only at h2; rw [h4 (by simp), h1'] at h2; simp only [Option.some.injEq] at h2; omega
      · simp only [St.newKey, St.write] at h2
        rw [h5 rfl p] at h2
        split at h2
        · cases h2
        · rw [h1'] at h2; simp only [Option.some.injEq] at h2; omega
  cases op with
  | restart d => exact absurd rfl (hop d)
  | tick d => exact same rfl
  | report q tag => exact same rfl
  | askUnban q => exact same rfl
  | setSchedule => exact same rfl
  | flush => exact same (by simp only [step, St.flush]; split <;> rfl)
  | manualBan q dur =>
    by_cases hd : 0 < dur ∧ dur ≤ cfg.ttl
    · refine ups { s with seq := s.seq + 1 } q (s.now + dur) rfl ?_
      simp only [step, if_pos hd, St.manualBan, St.newKey]
      generalize St.upsert { s with seq := s.seq + 1 } q (s.now + dur) = x
      obtain ⟨s1, b⟩ := x
      cases b <;> rfl
    · exact same (by simp only [step, if_neg hd])
  | handle =>
    cases hp : s.pend with
    | none => exact same (by simp only [step, St.handle, hp])
    | some x =>
      obtain ⟨q, tag, t⟩ := x
      rcases (handle_spec hv hj q tag t hp).2.2.2 with ⟨_, _, e, _⟩ | ⟨_, _, e, _⟩
      · exact ups s q _ rfl e
      · exact same e
  | expire q =>
    cases hp : s.pend with
    | some x => exact same (by simp only [step, hp])
    | none =>
      have : s.onAutoUnban q = s ∨ s.onAutoUnban q = s.onManualUnban q := by
        unfold St.onAutoUnban St.onManualUnban
        cases get s.last q with
        | none => exact Or.inl rfl
        | some x =>
          simp only
          split
          · exact Or.inl rfl
          · exact Or.inr rfl
      rcases this with h | h
      · exact same (by simp only [step, hp, h])
      · exact unb s q rfl (by simp only [step, hp, h])
  | recv =>
    simp only [step] at same ups unb
    unfold St.recv at same ups unb
    split at same
    · exact same rfl
    · rename_i q til l hp hcn
      exact same (cinv_onBanned hc q til l hcn).2.2.1
    · rename_i q l hp hcn
      exact unb { s with chan := l } q rfl (by simp [hp, hcn])
    · exact same rfl

/-- C154: a ban by hand holds at once, and does not shorten one that is there. -/
theorem manual_ban_holds {cfg : Config} (hv : Valid cfg) (t0 : Nat) (ops : List Op) (p dur : Nat) (h0 : 0 < dur) (h1 : dur ≤ cfg.ttl) :
    get (run cfg t0 (ops ++ [.manualBan p dur])).bans p =
      some (max ((get (run cfg t0 ops).bans p).getD 0) ((run cfg t0 ops).now + dur)) := by
  have hr : run cfg t0 (ops ++ [.manualBan p dur]) = (run cfg t0 ops).manualBan p ((run cfg t0 ops).now + dur) := by
    simp [run, step, h0, h1]
  have _ := hv
  rw [hr]
  generalize run cfg t0 ops = s
  simp only [St.manualBan, St.newKey]
  have hb := upsert_bans { s with seq := s.seq + 1 } p (s.now + dur) p
  generalize St.upsert { s with seq := s.seq + 1 } p (s.now + dur) = x at *
  obtain ⟨s1, b⟩ := x
  simp only [if_true] at hb
  cases b <;> exact hb

/-- C154: the user's unban, when its turn comes, lifts the ban unless a longer one was set after the user asked. -/
theorem unban_lifts {cfg : Config} (hv : Valid cfg) (t0 : Nat) (ops : List Op) (p : Nat) (l : List Item)
    (hp : (run cfg t0 ops).pend = none) (hc : (run cfg t0 ops).chan = .unban p :: l) (hl : ∀ u, Item.banned p u ∉ l) :
    get (run cfg t0 (ops ++ [.recv])).bans p = none := by
  have hr : run cfg t0 (ops ++ [.recv]) = (run cfg t0 ops).recv := by simp [run, step]
  obtain ⟨hj, w, _⟩ := inv_run hv t0 ops
  rw [hr]
  generalize run cfg t0 ops = s at *
  have hn : s.chan.filterMap (itemBan p) = [] := by
    rw [hc, List.filterMap_cons_none rfl, List.filterMap_eq_nil_iff]
    intro i hi
    cases i with
    | event q tag => rfl
    | unban q => rfl
    | banned q u =>
      show (if q = p then some u else none) = none
      rw [if_neg]
      intro e; subst e; exact hl u hi
  have hb := w.bans p
  unfold chain at hb
  rw [hn, List.append_nil] at hb
  have w2 : CInv { s with chan := l } := CInv.same w (Nat.le_refl _) rfl (fun q => by rw [hc]; exact (List.filterMap_cons_none rfl).symm) rfl rfl
  have : s.recv = St.onManualUnban { s with chan := l } p := by unfold St.recv; rw [hp, hc]
  rw [this]
  unfold St.onManualUnban
  simp only
  cases hg : get s.last p with
  | none => rw [hg] at hb; simpa using hb
  | some x =>
    obtain ⟨til, d⟩ := x
    rw [hg] at hb
    simp only [Option.map_some, Option.toList_some, List.getLast?_singleton] at hb
    obtain ⟨_, h2⟩ := cinv_unban w2 p til d hg
    have h3 := unban_spec { s with chan := l, last := del s.last (fun x => decide (x = p)) } p til
    simp only at h2 h3 ⊢
    generalize St.unban { s with chan := l, last := del s.last (fun x => decide (x = p)) } p til = y at *
    obtain ⟨s2, o⟩ := y
    simp only at h2 h3
    rw [hb] at h2
    subst h2
    have := h3.2.2.2.2.2.2.2.2.2.2.2 (by simp) p
    simpa [St.newKey, St.write] using this

/-- C154: when the scheduler has nothing to do, a ban that is over is lifted when its timer is looked at. -/
theorem ban_ends {cfg : Config} (hv : Valid cfg) (t0 : Nat) (ops : List Op) (p u : Nat) (hp : (run cfg t0 ops).pend = none)
    (hc : (run cfg t0 ops).chan = []) (h1 : get (run cfg t0 ops).bans p = some u) (h2 : u ≤ (run cfg t0 ops).now) :
    get (run cfg t0 (ops ++ [.expire p])).bans p = none := by
  have hr : run cfg t0 (ops ++ [.expire p]) = (run cfg t0 ops).onAutoUnban p := by simp [run, step, hp] at *; simp [hp]
  obtain ⟨hj, w, _⟩ := inv_run hv t0 ops
  rw [hr]
  generalize run cfg t0 ops = s at *
  have hb := w.bans p
  unfold chain at hb
  rw [hc, h1] at hb
  cases hg : get s.last p with
  | none => rw [hg] at hb; simp at hb
  | some x =>
    obtain ⟨til, d⟩ := x
    rw [hg] at hb
    simp at hb
    subst hb
    have hd := w.dl p u d hg
    obtain ⟨_, h4⟩ := cinv_unban w p u d hg
    have h3 := unban_spec { s with last := del s.last (fun x => decide (x = p)) } p u
    unfold St.onAutoUnban
    simp only [hg]
    rw [if_neg (by omega)]
    simp only at h4 h3
    generalize St.unban { s with last := del s.last (fun x => decide (x = p)) } p u = y at *
    obtain ⟨s2, o⟩ := y
    simp only at h4 h3
    rw [h1] at h4
    subst h4
    have := h3.2.2.2.2.2.2.2.2.2.2.2 (by simp) p
    simpa [St.newKey, St.write] using this

/-- How much there is to do for an item. -/
def weight : Item → Nat
  | .event _ _ => 3
  | _ => 1

/-- How much the scheduler has to do. -/
def work (s : St) : Nat := (s.chan.map weight).sum + (if s.pend.isSome then 2 else 0)

theorem upsert_chan (s : St) (p til : Nat) : ∃ l, (s.upsert p til).1.chan = s.chan ++ l ∧ (l = [] ∨ l = [.banned p til]) := by
  unfold St.upsert
  cases get s.bans p with
  | none => exact ⟨_, rfl, Or.inr rfl⟩
  | some old =>
    simp only
    split
    · exact ⟨_, rfl, Or.inr rfl⟩
    · exact ⟨[], by simp, Or.inl rfl⟩

/-- C154: the scheduler comes to an end with what it has to do, from everywhere: so no peer stays banned for ever. -/
theorem scheduler_drains {cfg : Config} (hv : Valid cfg) (t0 : Nat) (ops : List Op) :
    ∃ l : List Op, (∀ o ∈ l, o = .recv ∨ o = .handle) ∧ (run cfg t0 (ops ++ l)).chan = [] ∧ (run cfg t0 (ops ++ l)).pend = none := by
  obtain ⟨n, hn⟩ : ∃ n, work (run cfg t0 ops) = n := ⟨_, rfl⟩
  induction n using Nat.strongRecOn generalizing ops with
  | ind n ih =>
    have next : ∀ o : Op, (o = .recv ∨ o = .handle) → work (step cfg (run cfg t0 ops) o) < n →
        ∃ l : List Op, (∀ o ∈ l, o = .recv ∨ o = .handle) ∧ (run cfg t0 (ops ++ l)).chan = [] ∧ (run cfg t0 (ops ++ l)).pend = none := by
      intro o ho hlt
      have hr : run cfg t0 (ops ++ [o]) = step cfg (run cfg t0 ops) o := by simp [run]
      obtain ⟨l, h1, h2⟩ := ih _ hlt (ops ++ [o]) (by rw [hr])
      refine ⟨o :: l, ?_, ?_⟩
      · intro x hx
        rcases List.mem_cons.1 hx with rfl | hx
        · exact ho
        · exact h1 x hx
      · have : ops ++ o :: l = ops ++ [o] ++ l := by simp
        rw [this]; exact h2
    obtain ⟨hj, w, _⟩ := inv_run hv t0 ops
    have keep : ∀ (s : St) (p : Nat), (s.onManualUnban p).chan = s.chan ∧ (s.onManualUnban p).pend = s.pend := by
      intro s p
      unfold St.onManualUnban
      cases get s.last p with
      | none => exact ⟨rfl, rfl⟩
      | some x =>
        simp only
        have h3 := unban_spec { s with last := del s.last (fun x => decide (x = p)) } p x.1
        generalize St.unban { s with last := del s.last (fun x => decide (x = p)) } p x.1 = y at *
        obtain ⟨s2, o⟩ := y
        obtain ⟨_, _, _, _, h5, _, _, _, _, h4, _⟩ := h3
        rcases o with _ | _ | _ <;> exact ⟨h4, h5⟩
    cases hp : (run cfg t0 ops).pend with
    | some x =>
      obtain ⟨p, tag, t⟩ := x
      apply next .handle (Or.inr rfl)
      simp only [step]
      obtain ⟨_, _, _, h3⟩ := handle_spec hv hj p tag t hp
      have hpn : ((run cfg t0 ops).handle cfg).pend = none := by
        unfold St.handle
        rw [hp]
        simp only [St.onEvent, St.newKey]
        split
        · rfl
        · rfl
        · simp only [St.write]; exact (upsert_rest _ _ _).2.2.2.2.1
      have hw : n = ((run cfg t0 ops).chan.map weight).sum + 2 := by
        rw [← hn]; unfold work; rw [hp]; rfl
      unfold work
      rw [hpn]
      rcases h3 with ⟨_, _, _, e, _⟩ | ⟨_, _, _, e, _⟩
      · obtain ⟨l, e1, e2⟩ := upsert_chan (run cfg t0 ops) p (t + (cfg.of tag).dur)
        rw [e, e1]
        rcases e2 with rfl | rfl <;> simp [weight] <;> omega
      · rw [e]; simp; omega
    | none =>
      cases hc : (run cfg t0 ops).chan with
      | nil => exact ⟨[], by simp, by simpa using hc, by simpa using hp⟩
      | cons i l =>
        apply next .recv (Or.inl rfl)
        rw [← hn]
        generalize run cfg t0 ops = s at *
        simp only [step]
        have hw : work s = weight i + (l.map weight).sum := by
          unfold work; rw [hp, hc]; simp
        rw [hw]
        cases i with
        | event p tag =>
          have : s.recv = { s with chan := l, pend := some (p, tag, s.now) } := by unfold St.recv; rw [hp, hc]
          rw [this]; simp [work, weight]; omega
        | banned p til =>
          have : s.recv = St.onBanned { s with chan := l } p til := by unfold St.recv; rw [hp, hc]
          rw [this]
          have h1 := (cinv_onBanned w p til l hc).2.2.2
          have h2 : (St.onBanned { s with chan := l } p til).pend = none := by
            unfold St.onBanned
            split
            · split <;> exact hp
            · exact hp
          simp [work, weight, h1, h2]
        | unban p =>
          have : s.recv = St.onManualUnban { s with chan := l } p := by unfold St.recv; rw [hp, hc]
          rw [this]
          have h1 : (St.onManualUnban { s with chan := l } p).chan = l := (keep { s with chan := l } p).1
          have h2 : (St.onManualUnban { s with chan := l } p).pend = none := (keep { s with chan := l } p).2.trans hp
          unfold work
          rw [h1, h2]
          simp [weight]

theorem mem_insertAll (r : Rec) (g : List Rec) : ∀ d : List Rec, r ∈ insertAll d g ↔ r ∈ d ∨ r ∈ g := by
  induction g with
  | nil => intro d; simp [insertAll]
  | cons x g ih =>
    intro d
    have h := ih (insert x d)
    unfold insertAll at h ⊢
    rw [List.foldl_cons, h]
    have h2 : r ∈ insert x d ↔ r = x ∨ r ∈ d := by
      unfold insert
      have h3 : r ∈ d ↔ r ∈ d.takeWhile (fun y => klt y.key x.key) ++ d.dropWhile (fun y => klt y.key x.key) := by
        rw [List.takeWhile_append_dropWhile]
      rw [h3]
      simp only [List.mem_append, List.mem_cons]
      tauto
    rw [h2, List.mem_cons]
    tauto

/-- C155: the stored journal only grows. -/
theorem disk_grows (cfg : Config) (hv : Valid cfg) (t0 : Nat) (ops : List Op) (op : Op) (r : Rec) (h : r ∈ (run cfg t0 ops).disk) :
    r ∈ (run cfg t0 (ops ++ [op])).disk := by
  have hr : run cfg t0 (ops ++ [op]) = step cfg (run cfg t0 ops) op := by simp [run]
  obtain ⟨hj, w, _⟩ := inv_run hv t0 ops
  rw [hr]
  generalize run cfg t0 ops = s at *
  have unb : ∀ (s1 : St) (q : Nat), (s1.onManualUnban q).disk = s1.disk := by
    intro s1 q
    unfold St.onManualUnban
    cases get s1.last q with
    | none => rfl
    | some x =>
      simp only
      have h3 := unban_spec { s1 with last := del s1.last (fun x => decide (x = q)) } q x.1
      generalize St.unban { s1 with last := del s1.last (fun x => decide (x = q)) } q x.1 = y at *
      obtain ⟨s2, o⟩ := y
      obtain ⟨_, _, _, _, _, h5, _⟩ := h3
      rcases o with _ | _ | _ <;> exact h5
  cases op with
  | restart d => rw [step, (start_eq cfg hv (s.now + d + 1) s.disk (hj.jok [] s.queue rfl)).1]; exact h
  | flush =>
    simp only [step, St.flush]
    split
    · exact (mem_insertAll r _ _).2 (Or.inl h)
    · exact h
  | tick d => exact h
  | report q tag => exact h
  | askUnban q => exact h
  | setSchedule => exact h
  | manualBan q dur =>
    simp only [step]
    split
    · simp only [St.manualBan, St.newKey]
      have h3 := (upsert_rest { s with seq := s.seq + 1 } q (s.now + dur)).2.2.2.2.2.1
      generalize St.upsert { s with seq := s.seq + 1 } q (s.now + dur) = x at *
      obtain ⟨s1, b⟩ := x
      simp only at h3
      cases b <;> simpa [St.write, h3] using h
    · exact h
  | handle =>
    simp only [step]
    unfold St.handle
    split
    · simp only [St.onEvent, St.newKey]
      split
      · exact h
      · exact h
      · simp only [St.write]
        rw [(upsert_rest _ _ _).2.2.2.2.2.1]; exact h
    · exact h
  | expire q =>
    simp only [step]
    split
    · have : s.onAutoUnban q = s ∨ s.onAutoUnban q = s.onManualUnban q := by
        unfold St.onAutoUnban St.onManualUnban
        cases get s.last q with
        | none => exact Or.inl rfl
        | some x =>
          simp only
          split
          · exact Or.inl rfl
          · exact Or.inr rfl
      rcases this with e | e
      · rw [e]; exact h
      · rw [e, unb]; exact h
    · exact h
  | recv =>
    simp only [step]
    unfold St.recv
    split
    · exact h
    · unfold St.onBanned
      split
      · split <;> exact h
      · exact h
    · rw [unb]; exact h
    · exact h

end Tycho.Bans
