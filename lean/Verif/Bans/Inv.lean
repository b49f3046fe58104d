import Verif.Bans.Insert
/-!
The journal of a running node, with what is still on its way to the disk.
-/
namespace Tycho.Bans
open Tycho.Table (Table get put del get_put get_del Uniq)

/-- The journal as it will be on the disk when the writer has done its work. -/
def jour (s : St) : List Rec := s.queue.foldl insertAll s.disk

/-- Events of now are not before this time. -/
def floor (s : St) : Nat := match s.pend with
  | some (_, _, t) => t
  | none => s.now

/-- The history stands for the events, as far as they can matter from now on. -/
def HGood (cfg : Config) (fl tag : Nat) (es : List Key) (h : Hist) : Prop :=
  ∃ B, HistOk (cfg.of tag) es B h ∧ (∀ l, h.last = some l → l ≤ fl) ∧ B ≤ fl ∧ ∀ w n, (cfg.of tag).tol = some (w, n) → B ≤ fl - w

theorem HGood.mono {cfg : Config} {fl fl' tag : Nat} {es : List Key} {h : Hist} (w : HGood cfg fl tag es h) (hl : fl ≤ fl') :
    HGood cfg fl' tag es h := by
  obtain ⟨B, h1, h2, h3, h4⟩ := w
  refine ⟨B, h1, fun l hl' => ?_, by omega, fun w n hw => ?_⟩
  · have := h2 l hl'; omega
  · have := h4 w n hw; omega

structure JInv (cfg : Config) (s : St) : Prop where
  startLe : s.started ≤ s.now
  keys : ∀ r ∈ jour s, r.key.1 ≤ s.now ∧ (s.started ≤ r.key.1 → r.key.2 < s.seq)
  pend : ∀ p tag t, s.pend = some (p, tag, t) → s.started ≤ t ∧ t ≤ s.now ∧
    ∀ r ∈ jour s, klt r.key (t, s.seq) = true ∨ ∃ u, r.kind = .banned u
  jok : ∀ q1 q2, s.queue = q1 ++ q2 → Jok cfg (q1.foldl insertAll s.disk)
  bans : ∀ p, get s.bans p = banNow s.started (jour s) p
  hist : ∀ p tag, HGood cfg (floor s) tag (eventsOf (jour s) p tag) ((get s.hist (p, tag)).getD ⟨none, []⟩)

theorem JInv.jour {cfg : Config} {s : St} (w : JInv cfg s) : Jok cfg (jour s) := w.jok s.queue [] (by simp)

theorem JInv.floor_le {cfg : Config} {s : St} (w : JInv cfg s) : floor s ≤ s.now := by
  unfold floor
  split
  · rename_i p tag t h; exact (w.pend p tag t h).2.1
  · exact Nat.le_refl _

theorem jour_write (s : St) (l : List Rec) : jour (s.write l) = insertAll (jour s) l := by
  simp [jour, St.write, List.foldl_append]

/-- Keys of the journal are below the next one of now. -/
theorem JInv.below {cfg : Config} {s : St} (w : JInv cfg s) (r : Rec) (hr : r ∈ Bans.jour s) (n : Nat) (hn : s.seq ≤ n) :
    klt r.key (s.now, n) = true := by
  have h := w.keys r hr
  have := w.startLe
  unfold klt
  apply decide_eq_true
  rcases Nat.lt_or_ge r.key.1 s.now with h1 | h1
  · exact Or.inl h1
  · have h2 : r.key.1 = s.now := by omega
    exact Or.inr ⟨h2, by have := h.2 (by omega); simp only; omega⟩

theorem klt_seq {k : Key} {t n m : Nat} (h : klt k (t, n) = true) (hm : n ≤ m) : klt k (t, m) = true := by
  unfold klt at *
  simp only [decide_eq_true_eq] at *
  omega

/-- What the invariant looks at. -/
theorem JInv.same {cfg : Config} {s s' : St} (w : JInv cfg s) (h1 : s'.now = s.now) (h2 : s'.started = s.started) (h3 : s.seq ≤ s'.seq)
    (h4 : s'.hist = s.hist) (h5 : s'.bans = s.bans) (h6 : s'.pend = s.pend) (h7 : s'.disk = s.disk) (h8 : s'.queue = s.queue) :
    JInv cfg s' := by
  have hj : Bans.jour s' = Bans.jour s := by unfold Bans.jour; rw [h7, h8]
  have hf : floor s' = floor s := by unfold floor; rw [h6, h1]
  refine ⟨by rw [h1, h2]; exact w.startLe, ?_, ?_, ?_, ?_, ?_⟩
  · intro r hr
    rw [hj] at hr
    have := w.keys r hr
    rw [h1, h2]
    exact ⟨this.1, fun h => by have := this.2 h; omega⟩
  · intro p tag t h
    rw [h6] at h
    have := w.pend p tag t h
    rw [h1, h2, hj]
    refine ⟨this.1, this.2.1, fun r hr => ?_⟩
    rcases this.2.2 r hr with h | h
    · exact Or.inl (klt_seq h h3)
    · exact Or.inr h
  · intro q1 q2 h; rw [h7]; rw [h8] at h; exact w.jok q1 q2 h
  · intro p; rw [h5, h2, hj]; exact w.bans p
  · intro p tag; rw [h4, hf, hj]; exact w.hist p tag

/-- A record of now that is no event. -/
theorem JInv.put {cfg : Config} {s s' : St} (w : JInv cfg s) (r : Rec) (hk : r.key = (s.now, s.seq)) (hne : ∀ tag, r.kind ≠ .event tag)
    (hin : ∀ u, r.kind = .banned u → u ≤ s.now + cfg.ttl) (hun : r.kind = .unbanned → s.pend = none)
    (h1 : s'.now = s.now) (h2 : s'.started = s.started) (h3 : s'.seq = s.seq + 1)
    (h4 : s'.hist = s.hist) (h5 : ∀ p, get s'.bans p = banStep s.started p (get s.bans p) r) (h6 : s'.pend = s.pend)
    (h7 : s'.disk = s.disk) (h8 : s'.queue = s.queue ++ [[r]]) : JInv cfg s' ∧ Bans.jour s' = Bans.jour s ++ [r] := by
  have hb : ∀ x ∈ Bans.jour s, klt x.key r.key = true := fun x hx => by rw [hk]; exact w.below x hx _ (Nat.le_refl _)
  have hj : Bans.jour s' = Bans.jour s ++ [r] := by
    unfold Bans.jour
    rw [h7, h8, List.foldl_append]
    exact insert_end r _ hb
  have hf : floor s' = floor s := by unfold floor; rw [h6, h1]
  refine ⟨⟨by rw [h1, h2]; exact w.startLe, ?_, ?_, ?_, ?_, ?_⟩, hj⟩
  · intro x hx
    rw [hj] at hx
    rw [h1, h2, h3]
    rcases List.mem_append.1 hx with hx | hx
    · have := w.keys x hx
      exact ⟨this.1, fun h => by have := this.2 h; omega⟩
    · rw [List.mem_singleton] at hx; subst hx
      rw [hk]; exact ⟨Nat.le_refl _, fun _ => Nat.lt_succ_self _⟩
  · intro p tag t h
    rw [h6] at h
    have := w.pend p tag t h
    rw [h1, h2, h3, hj]
    refine ⟨this.1, this.2.1, fun x hx => ?_⟩
    rcases List.mem_append.1 hx with hx | hx
    · rcases this.2.2 x hx with h | h
      · exact Or.inl (klt_seq h (by omega))
      · exact Or.inr h
    · rw [List.mem_singleton] at hx; subst hx
      cases hkind : x.kind with
      | event tg => exact absurd hkind (hne tg)
      | banned u => exact Or.inr ⟨u, rfl⟩
      | unbanned => rw [hun hkind] at h; cases h
  · intro q1 q2 h
    rw [h8] at h
    rw [h7]
    rcases List.append_eq_append_iff.1 h with ⟨c, ec, ed⟩ | ⟨c, ec, ed⟩
    · cases c with
      | nil => rw [List.append_nil] at ec; rw [ec]; exact w.jour
      | cons y c =>
        have : c = [] ∧ y = [r] := by
          simp only [List.cons_append, List.cons.injEq] at ed
          have h9 := ed.2
          cases c with
          | nil => exact ⟨rfl, ed.1.symm⟩
          | cons z c => simp at h9
        obtain ⟨rfl, rfl⟩ := this
        rw [ec, List.foldl_append]
        have : List.foldl insertAll (s.queue.foldl insertAll s.disk) [[r]] = Bans.jour s ++ [r] := insert_end r _ hb
        rw [this]
        exact jok_end w.jour r hb hne (by rw [hk]; exact hin)
    · exact w.jok q1 c ec
  · intro p
    rw [h5, h2, hj, banNow_snoc, w.bans p]
  · intro p tag
    rw [h4, hf, hj, eventsOf_bans _ _ (by intro x hx; rw [List.mem_singleton] at hx; subst hx; exact hne)]
    exact w.hist p tag

theorem upsert_bans (s : St) (p til q : Nat) : get (s.upsert p til).1.bans q =
    if q = p then some (max ((get s.bans p).getD 0) til) else get s.bans q := by
  unfold St.upsert
  cases hg : get s.bans p with
  | none =>
    simp only [St.netBan, get_put, Option.getD_none]
    by_cases hq : q = p
    · subst hq; simp
    · have : ¬ p = q := fun e => hq e.symm
      simp [hq]
  | some old =>
    simp only [Option.getD_some]
    split
    · simp only [get_put]
      by_cases hq : q = p
      · subst hq; simp; omega
      · simp [hq]
    · by_cases hq : q = p
      · subst hq; simp [hg]; omega
      · simp [hq]

theorem upsert_rest (s : St) (p til : Nat) : let s' := (s.upsert p til).1
    s'.now = s.now ∧ s'.started = s.started ∧ s'.seq = s.seq ∧ s'.hist = s.hist ∧ s'.pend = s.pend ∧ s'.disk = s.disk ∧
      s'.queue = s.queue ∧ s'.last = s.last ∧ s'.bad = s.bad := by
  unfold St.upsert
  cases get s.bans p with
  | none => simp [St.netBan]
  | some old => simp only; split <;> simp

theorem upsert_false (s : St) (p til : Nat) (h : (s.upsert p til).2 = false) : (s.upsert p til).1 = s := by
  unfold St.upsert at *
  cases hg : get s.bans p with
  | none => simp [hg] at h
  | some old =>
    simp only [hg] at h ⊢
    split
    · rename_i hc; rw [if_pos hc] at h; simp at h
    · rfl

theorem jinv_manualBan {cfg : Config} {s : St} (w : JInv cfg s) (p dur : Nat) (hd : 0 < dur) (hl : dur ≤ cfg.ttl) :
    JInv cfg (s.manualBan p (s.now + dur)) := by
  unfold St.manualBan St.newKey
  simp only
  have h0 := upsert_rest { s with seq := s.seq + 1 } p (s.now + dur)
  have h1 := upsert_bans { s with seq := s.seq + 1 } p (s.now + dur)
  have h2 := upsert_false { s with seq := s.seq + 1 } p (s.now + dur)
  generalize St.upsert { s with seq := s.seq + 1 } p (s.now + dur) = x at *
  obtain ⟨s1, b⟩ := x
  cases b with
  | false =>
    simp only at h2 ⊢
    rw [h2 trivial]
    exact w.same rfl rfl (Nat.le_succ _) rfl rfl rfl rfl rfl
  | true =>
    simp only at h0 h1 ⊢
    obtain ⟨e1, e2, e3, e4, e5, e6, e7, _⟩ := h0
    refine (JInv.put (s := s) w ⟨(s.now, s.seq), p, .banned (s.now + dur)⟩ rfl (by simp) (by simp; omega) (by simp) (by simp [St.write, e1]) (by simp [St.write, e2])
      (by simp [St.write, e3]) (by simp [St.write, e4]) ?_ (by simp [St.write, e5]) (by simp [St.write, e6]) (by simp [St.write, e7])).1
    intro q
    simp only [St.write]
    rw [h1]
    have := w.startLe
    unfold banStep
    by_cases hq : q = p
    · subst hq; simp only [if_true]; rw [if_pos (by omega)]
    · rw [if_neg hq, if_neg (by simp; exact fun e => hq e.symm)]

theorem unban_spec (s : St) (p u : Nat) : let x := s.unban p u
    x.1.now = s.now ∧ x.1.started = s.started ∧ x.1.seq = s.seq ∧ x.1.hist = s.hist ∧ x.1.pend = s.pend ∧ x.1.disk = s.disk ∧
      x.1.queue = s.queue ∧ x.1.last = s.last ∧ x.1.bad = s.bad ∧ x.1.chan = s.chan ∧
      (x.2 ≠ some true → x.1.bans = s.bans) ∧ (x.2 = some true → ∀ q, get x.1.bans q = if q = p then none else get s.bans q) := by
  unfold St.unban
  cases get s.bans p with
  | none => simp
  | some cur =>
    simp only
    split
    · simp
    · split
      · simp [St.netUnban, get_del]
      · simp

theorem banStep_unbanned (st p q : Nat) (o : Option Nat) (k : Key) : banStep st q o ⟨k, p, .unbanned⟩ = if q = p then none else o := by
  unfold banStep
  by_cases h : q = p
  · subst h; simp
  · rw [if_neg h, if_neg (by simp; exact fun e => h e.symm)]

theorem jinv_manualUnban {cfg : Config} {s : St} (w : JInv cfg s) (hp : s.pend = none) (p : Nat) : JInv cfg (s.onManualUnban p) := by
  unfold St.onManualUnban
  cases hl : get s.last p with
  | none => exact w
  | some x =>
    obtain ⟨til, dl⟩ := x
    simp only
    have h := unban_spec { s with last := del s.last (fun x => decide (x = p)) } p til
    generalize St.unban { s with last := del s.last (fun x => decide (x = p)) } p til = y at *
    obtain ⟨s1, o⟩ := y
    obtain ⟨e1, e2, e3, e4, e5, e6, e7, _, _, _, e8, e9⟩ := h
    simp only at e1 e2 e3 e4 e5 e6 e7 e8 e9
    rcases o with _ | _ | _
    · exact w.same e1 e2 (by simp [e3]) e4 (e8 (by simp)) e5 e6 e7
    · exact w.same e1 e2 (by simp [e3]) e4 (e8 (by simp)) e5 e6 e7
    · simp only [St.newKey]
      refine (JInv.put (s := s) w ⟨(s.now, s.seq), p, .unbanned⟩ rfl (by simp) (by simp) (fun _ => hp) (by simp [St.write, e1]) (by simp [St.write, e2])
        (by simp [St.write, e3]) (by simp [St.write, e4]) ?_ (by simp [St.write, e5]) (by simp [St.write, e6]) (by simp [St.write, e7, e1, e3])).1
      intro q
      rw [banStep_unbanned]
      simp only [St.write]
      exact e9 rfl q

theorem jinv_autoUnban {cfg : Config} {s : St} (w : JInv cfg s) (hp : s.pend = none) (p : Nat) : JInv cfg (s.onAutoUnban p) := by
  unfold St.onAutoUnban
  cases hl : get s.last p with
  | none => exact w
  | some x =>
    obtain ⟨til, dl⟩ := x
    simp only
    split
    · exact w
    · have h := unban_spec { s with last := del s.last (fun x => decide (x = p)) } p til
      generalize St.unban { s with last := del s.last (fun x => decide (x = p)) } p til = y at *
      obtain ⟨s1, o⟩ := y
      obtain ⟨e1, e2, e3, e4, e5, e6, e7, _, _, _, e8, e9⟩ := h
      simp only at e1 e2 e3 e4 e5 e6 e7 e8 e9
      rcases o with _ | _ | _
      · exact w.same e1 e2 (by simp [e3]) e4 (e8 (by simp)) e5 e6 e7
      · exact w.same e1 e2 (by simp [e3]) e4 (e8 (by simp)) e5 e6 e7
      · simp only [St.newKey]
        refine (JInv.put (s := s) w ⟨(s.now, s.seq), p, .unbanned⟩ rfl (by simp) (by simp) (fun _ => hp) (by simp [St.write, e1]) (by simp [St.write, e2])
          (by simp [St.write, e3]) (by simp [St.write, e4]) ?_ (by simp [St.write, e5]) (by simp [St.write, e6]) (by simp [St.write, e7, e1, e3])).1
        intro q
        rw [banStep_unbanned]
        simp only [St.write]
        exact e9 rfl q

theorem jinv_onBanned {cfg : Config} {s : St} (w : JInv cfg s) (p til : Nat) : JInv cfg (s.onBanned p til) := by
  unfold St.onBanned
  split
  · split <;> exact w.same rfl rfl (Nat.le_refl _) rfl rfl rfl rfl rfl
  · exact w.same rfl rfl (Nat.le_refl _) rfl rfl rfl rfl rfl

theorem jinv_recv {cfg : Config} {s : St} (w : JInv cfg s) : JInv cfg s.recv := by
  unfold St.recv
  split
  · rename_i p tag l hp hc
    refine ⟨w.startLe, w.keys, ?_, w.jok, w.bans, ?_⟩
    · intro p' tag' t' h
      simp only [Option.some.injEq, Prod.mk.injEq] at h
      obtain ⟨_, _, rfl⟩ := h
      exact ⟨w.startLe, Nat.le_refl _, fun r hr => Or.inl (w.below r hr _ (Nat.le_refl _))⟩
    · have := w.hist
      unfold floor at this ⊢
      rw [hp] at this
      exact this
  · rename_i p til l hp hc
    exact jinv_onBanned (JInv.same (s' := { s with chan := l }) w rfl rfl (Nat.le_refl _) rfl rfl rfl rfl rfl) _ _
  · rename_i p l hp hc
    exact jinv_manualUnban (JInv.same (s' := { s with chan := l }) w rfl rfl (Nat.le_refl _) rfl rfl rfl rfl rfl) hp _
  · exact w

theorem jinv_flush {cfg : Config} {s : St} (w : JInv cfg s) : JInv cfg s.flush := by
  unfold St.flush
  split
  · rename_i g q hq
    have hj : jour { s with disk := insertAll s.disk g, queue := q } = jour s := by unfold jour; rw [hq]; rfl
    refine ⟨w.startLe, ?_, ?_, ?_, ?_, ?_⟩
    · intro r hr; rw [hj] at hr; exact w.keys r hr
    · intro p tag t h; rw [hj]; exact w.pend p tag t h
    · intro q1 q2 h
      exact w.jok (g :: q1) q2 (by rw [hq]; simp only at h; rw [h]; rfl)
    · intro p; rw [hj]; exact w.bans p
    · intro p tag; rw [hj]; exact w.hist p tag
  · exact w

end Tycho.Bans
