import Verif.Dialing.Right
/-! Whose result ends a pending connection. -/
namespace Tycho.Dialing
open Tycho.Table Tycho.ActivePeers
open Tycho.Table (get)

/-- The results of the tasks of one address come in the order in which the tasks were started. -/
def Fifo (c : Cfg) (l : List Op) : Prop :=
  ∀ l1 u o l2, l = l1 ++ Op.finish u o :: l2 → ∀ t ∈ (St.run c l1).tasks, t.uid = u →
    ∀ t' ∈ (St.run c l1).tasks, t'.addr = t.addr → t.uid ≤ t'.uid

/-- Every task has an entry, and is its own task or an older, aborted one with a smaller number. -/
def Ranked (s : St) : Prop :=
  ∀ t ∈ s.tasks, ∃ e, get s.pending t.addr = some e ∧ (t.uid = e.task ∨ t.seq < e.seq ∧ t.aborted = true) ∧ t.uid ≤ e.task

theorem ranked_spawn {s : St} (h : Ranked s) (a p : Nat) (e : Entry) (hn : get s.pending a = none) :
    Ranked (s.spawn a p e) := by
  intro t ht
  rcases List.mem_append.1 ht with h1 | h1
  · obtain ⟨x, hx, h2, h3⟩ := h t h1
    have hb : t.addr ≠ a := by intro eq; rw [eq, hn] at hx; simp at hx
    exact ⟨x, by simp [St.spawn, get_put, hb, hx], h2, h3⟩
  · rw [List.mem_singleton.1 h1]
    exact ⟨{ e with task := s.nextTask }, by simp [St.spawn, get_put], .inl rfl, Nat.le_refl _⟩

theorem ranked_respawn {c : Cfg} {s : St} (h : Ranked s) (hi : Inv c s) (a p : Nat) (e0 e : Entry)
    (h0 : get s.pending a = some e0) (he : e0.seq < e.seq) : Ranked ((s.abort e0.task).spawn a p e) := by
  intro t ht
  rcases List.mem_append.1 ht with h1 | h1
  · obtain ⟨t', ht', e1⟩ := List.mem_map.1 h1
    obtain ⟨x, hx, h2, h3⟩ := h t' ht'
    have ha : t.addr = t'.addr := by rw [← e1]; split <;> rfl
    have hu : t.uid = t'.uid := by rw [← e1]; split <;> rfl
    have hs : t.seq = t'.seq := by rw [← e1]; split <;> rfl
    have hab : t'.aborted = true → t.aborted = true := by
      intro hh; rw [← e1]; split
      · rfl
      · exact hh
    simp only [St.spawn, St.abort, get_put]
    by_cases hb : t.addr = a
    · refine ⟨{ e with task := s.nextTask }, by simp [hb], .inr ?_, by rw [hu]; exact Nat.le_of_lt (hi.tasks.old t' ht')⟩
      rw [← ha, hb, h0] at hx
      have ex := Option.some.inj hx
      subst ex
      rcases h2 with h2 | h2
      · obtain ⟨y, hy, g1, _, g3, g4⟩ := hi.tasks.own _ _ h0
        have := task_of_uid hi.tasks.uids ht' hy (h2.trans g1.symm)
        refine ⟨by rw [hs, this, g4]; exact he, ?_⟩
        rw [← e1, if_pos h2]
      · exact ⟨by rw [hs]; exact Nat.lt_trans h2.1 he, hab h2.2⟩
    · refine ⟨x, by simp only [hb, if_false]; rw [ha]; exact hx, ?_, by rw [hu]; exact h3⟩
      rcases h2 with h2 | h2
      · exact .inl (hu.trans h2)
      · exact .inr ⟨by rw [hs]; exact h2.1, hab h2.2⟩
  · rw [List.mem_singleton.1 h1]
    exact ⟨{ e with task := s.nextTask }, by simp [St.spawn, St.abort, get_put], .inl rfl, Nat.le_refl _⟩

theorem ranked_congr {s s' : St} (h : Ranked s) (hp : s'.pending = s.pending) (ht : ∀ t ∈ s'.tasks, t ∈ s.tasks) :
    Ranked s' := by
  intro t hm
  rw [hp]
  exact h t (ht t hm)

theorem ranked_dial {c : Cfg} {s : St} (h : Ranked s) (hi : Inv c s) (a p cb : Nat) : Ranked (s.dial c a p cb) := by
  unfold St.dial
  split
  · exact h
  · unfold St.dialNew
    split
    · rename_i hg
      have hg' : get s.pending a = none := hg
      exact ranked_spawn (s := s) h a p _ hg'
    · rename_i e hg
      have hg' : get s.pending a = some e := hg
      unfold St.dialOver
      split
      · exact ranked_respawn (s := s) h hi a p e _ hg' (Nat.lt_succ_self _)
      · intro t ht
        obtain ⟨x, hx, h2, h3⟩ := h t ht
        by_cases hb : t.addr = a
        · rw [hb, hg'] at hx
          have ex := Option.some.inj hx
          subst ex
          exact ⟨{ e with cbs := e.cbs ++ [cb] }, by simp [St.join, get_put, hb], h2, h3⟩
        · refine ⟨x, ?_, h2, h3⟩
          simp only [St.join, get_put, hb, if_false]
          exact hx

theorem ranked_incoming {c : Cfg} {s : St} (h : Ranked s) (hi : Inv c s) (a p i : Nat) (aff : Option Affinity) :
    Ranked (s.incoming c a p i aff) := by
  unfold St.incoming
  split
  · split
    · rename_i hg
      exact ranked_spawn h a p _ hg
    · rename_i e hg
      unfold St.incomingOver
      split
      · exact ranked_respawn h hi a p e _ hg (Nat.lt_succ_self _)
      · exact h
  · exact h

theorem conclude_same {c : Cfg} {s : St} {cbs : List Nat} (h : InHand c s cbs) (t : Task) (o : Outcome) :
    (s.conclude c t cbs o).pending = s.pending ∧ (s.conclude c t cbs o).tasks = s.tasks := by
  have hd : ∀ o, (s.disconnected c t.peer o cbs).pending = s.pending ∧ (s.disconnected c t.peer o cbs).tasks = s.tasks := by
    intro o
    unfold St.disconnected
    split <;> exact ⟨rfl, rfl⟩
  cases o with
  | closed => exact hd _
  | failed => exact hd _
  | ok id =>
    simp only [St.conclude, St.connected]
    rw [resolve_closed c (St.addPeer c s ⟨id, t.peer, t.origin⟩) h.timers]
    exact ⟨rfl, rfl⟩

theorem untrack_inHand {c : Cfg} {s : St} (h : Inv c s) (t : Task) (ht : t ∈ s.tasks) (e : Entry)
    (hg : get s.pending t.addr = some e) : InHand c ((s.joined t.uid).untrack t.addr) e.cbs := by
  refine ⟨tasked_finish h.tasks t ht, h.timers, ?_, h.dials, h.calm⟩
  intro cb
  have h1 := h.counted cb
  have h2 := kept_del s.pending h.tasks.uniq t.addr cb
  have h3 : keptAt s.pending t.addr cb = e.cbs.count cb := by unfold keptAt; rw [hg]; rfl
  simp only [St.untrack, St.joined]
  omega

theorem ranked_finish {c : Cfg} {s : St} (h : Ranked s) (hi : Inv c s) (u : Nat) (o : Outcome)
    (hf : ∀ t ∈ s.tasks, t.uid = u → ∀ t' ∈ s.tasks, t'.addr = t.addr → t.uid ≤ t'.uid) : Ranked (s.finish c u o) := by
  unfold St.finish
  split
  · exact h
  · rename_i t hfi
    have htm := List.mem_of_find?_eq_some hfi
    have htu : t.uid = u := by simpa using List.find?_some hfi
    subst htu
    have hj : Ranked (s.joined t.uid) := ranked_congr h rfl (fun x hx => (List.mem_filter.1 hx).1)
    unfold St.result
    split
    · exact hj
    · rename_i e hg
      have hg' : get s.pending t.addr = some e := hg
      split
      · exact hj
      · rename_i hs
        have hs' : e.seq = t.seq := by omega
        have hih := untrack_inHand hi t htm e hg'
        obtain ⟨e1, e2⟩ := conclude_same hih t o
        intro x hx
        rw [e1]
        rw [e2] at hx
        have hx' := List.mem_filter.1 hx
        obtain ⟨y, hy, h2, h3⟩ := h x hx'.1
        have hxu : x.uid ≠ t.uid := by simpa using hx'.2
        have hne : x.addr ≠ t.addr := by
          intro eq
          rw [eq, hg'] at hy
          have ey := Option.some.inj hy
          subst ey
          obtain ⟨z, hz, k1, k2⟩ := h t htm
          rw [hg'] at hz
          have ez := Option.some.inj hz
          subst ez
          have := hf t htm rfl x hx'.1 eq
          omega
        refine ⟨y, ?_, h2, h3⟩
        simp only [St.untrack, St.joined, get_del, hne, decide_false, Bool.false_eq_true, if_false]
        exact hy

theorem reapAll_same (c : Cfg) (l : List (Nat × Nat)) : ∀ s : St,
    (l.foldl (St.reapOne c) s).pending = s.pending ∧ (l.foldl (St.reapOne c) s).tasks = s.tasks := by
  induction l with
  | nil => exact fun s => ⟨rfl, rfl⟩
  | cons x l ih =>
    intro s
    have : (s.reapOne c x).pending = s.pending ∧ (s.reapOne c x).tasks = s.tasks := by
      unfold St.reapOne
      split <;> exact ⟨rfl, rfl⟩
    exact ⟨(ih _).1.trans this.1, (ih _).2.trans this.2⟩

theorem ranked_check {c : Cfg} {s : St} (h : Ranked s) (hi : Inv c s) (known : List Known) (cbs : List Nat) :
    Ranked (s.check c known cbs) := by
  unfold St.check St.dialAll
  generalize ((s.reap c).chosen c known).zip cbs = l
  have h0 := inv_reap hi
  have hs := reapAll_same c s.dials s
  have h1 : Ranked (s.reap c) := ranked_congr h hs.1 (fun t ht => hs.2 ▸ ht)
  generalize s.reap c = s' at h0 h1
  induction l generalizing s' with
  | nil => exact h1
  | cons x l ih => exact ih _ (inv_dialKnown h0 x) (ranked_dial h1 h0 x.1.addr x.1.peer x.2)

theorem ranked_run (c : Cfg) (l : List Op) (hf : Fifo c l) : Ranked (St.run c l) := by
  induction l using List.reverseRecOn with
  | nil => intro t ht; simp [St.run, St.new] at ht
  | append_singleton l o ih =>
    have h := ih (fun l1 u o' l2 e => hf l1 u o' (l2 ++ [o]) (by rw [e]; simp))
    have hi := inv_run c l
    rw [run_snoc]
    cases o with
    | connect a p cb => exact ranked_dial h hi a p cb
    | incoming a p i aff => exact ranked_incoming h hi a p i aff
    | finish u o => exact ranked_finish h hi u o (hf l u o [] rfl)
    | cancelled u => exact ranked_congr h rfl (fun x hx => (List.mem_filter.1 hx).1)
    | fire k =>
      refine ranked_congr h ?_ ?_
      · simp only [St.step, St.fire]
        split
        · rfl
        · split
          · unfold St.expire; rw [expire_eq]; rfl
          · rfl
      · simp only [St.step, St.fire]
        split
        · exact fun t ht => ht
        · split
          · unfold St.expire; rw [expire_eq]; exact fun t ht => ht
          · exact fun t ht => ht
    | check known cbs => exact ranked_check h hi known cbs
    | peers o => cases o <;> exact h
    | time t => exact h

/-- When the results of the tasks of an address come in order, a pending connection is ended by the result of its own
latest task and of no other: in particular the result of an abandoned attempt is never taken for it, and the result of a
task that was not abandoned is never thrown away. -/
theorem own_result (c : Cfg) (l : List Op) (hf : Fifo c l) (t : Task) (ht : t ∈ (St.run c l).tasks) :
    ∃ e, get (St.run c l).pending t.addr = some e ∧ (e.seq = t.seq ↔ t.uid = e.task) ∧
      (t.aborted = false → e.seq = t.seq) := by
  obtain ⟨e, he, h1, h2⟩ := ranked_run c l hf t ht
  have hi := inv_run c l
  have key : t.uid = e.task → e.seq = t.seq := by
    intro eq
    obtain ⟨y, hy, g1, _, g3, g4⟩ := hi.tasks.own _ _ he
    rw [task_of_uid hi.tasks.uids ht hy (eq.trans g1.symm), g4]
  refine ⟨e, he, ⟨fun hs => ?_, key⟩, fun ha => ?_⟩
  · rcases h1 with h1 | h1
    · exact h1
    · omega
  · rcases h1 with h1 | h1
    · exact key h1
    · rw [ha] at h1; simp at h1

/-- When they come out of order, the numbers alone do not tell: the late result of an abandoned attempt at an address ends a
later attempt at that address with an error, although the task of that attempt is still running. -/
theorem stale_result : ∃ (c : Cfg) (l : List Op) (t t' : Task), t ∈ (St.run c l).tasks ∧ t.aborted = true ∧
    t' ∈ (St.run c l).tasks ∧ t'.aborted = false ∧ t'.addr = t.addr ∧
    (∃ e, get (St.run c l).pending t.addr = some e ∧ e.task = t'.uid ∧ e.cbs = [1]) ∧
    (1, Answer.err) ∈ ((St.run c l).step c (.finish t.uid .failed)).answered ∧
    t' ∈ ((St.run c l).step c (.finish t.uid .failed)).tasks :=
  ⟨⟨1, 5, 1, 1, 1, none⟩, [.connect 9 3 0, .incoming 9 3 7 none, .finish 1 (.ok 7), .peers (.remove 3), .connect 9 3 1],
    ⟨0, 9, 3, 0, .out, true⟩, ⟨2, 9, 3, 0, .out, false⟩, by decide, rfl, by decide, rfl, rfl,
    ⟨⟨0, .out, [1], 2⟩, by decide, rfl, rfl⟩, by decide, by decide⟩

end Tycho.Dialing
