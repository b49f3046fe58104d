import Verif.Dialing.Props
/-! Whoever asks for a connection with a peer gets one with that peer, as long as an address belongs to one peer. -/
namespace Tycho.Dialing
open Tycho.Table Tycho.ActivePeers
open Tycho.Table (get)

/-- Every address used belongs to the peer `f` says. -/
def Consistent (f : Nat → Nat) : Op → Prop
  | .connect a p _ => f a = p
  | .incoming a p _ _ => f a = p
  | .check known _ => ∀ k ∈ known, f k.addr = k.peer
  | _ => True

/-- Everything is kept for the right peer. -/
structure Right (f : Nat → Nat) (s : St) : Prop where
  tasks : ∀ t ∈ s.tasks, t.peer = f t.addr
  pend : ∀ a e, get s.pending a = some e → ∀ cb ∈ e.cbs, (cb, f a) ∈ s.asked
  delayed : ∀ d ∈ s.delayed, ∀ cb ∈ d.cbs, (cb, d.peer) ∈ s.asked
  answered : ∀ cb k, (cb, Answer.ok k) ∈ s.answered → (cb, k.peer) ∈ s.asked
  peers : PeersOk s

theorem right_spawn {f : Nat → Nat} {s : St} (h : Right f s) (a p : Nat) (hp : f a = p) (e : Entry)
    (he : ∀ cb ∈ e.cbs, (cb, f a) ∈ s.asked) : Right f (s.spawn a p e) where
  tasks := by
    intro t ht
    rcases List.mem_append.1 ht with h1 | h1
    · exact h.tasks t h1
    · rw [List.mem_singleton.1 h1]; exact hp.symm
  pend := by
    intro b x hx
    simp only [St.spawn, get_put] at hx
    split at hx
    · rename_i hb
      rw [← Option.some.inj hx, hb]
      exact he
    · exact h.pend b x hx
  delayed := h.delayed
  answered := h.answered
  peers := h.peers

theorem right_abort {f : Nat → Nat} {s : St} (h : Right f s) (u : Nat) : Right f (s.abort u) where
  tasks := by
    intro t ht
    obtain ⟨x, hx, e⟩ := List.mem_map.1 ht
    have := h.tasks x hx
    rw [← e]
    split <;> exact this
  pend := h.pend
  delayed := h.delayed
  answered := h.answered
  peers := h.peers

theorem right_ask {f : Nat → Nat} {s : St} (h : Right f s) (p cb : Nat) : Right f (s.ask p cb) where
  tasks := h.tasks
  pend := fun a e he x hx => List.mem_append_left _ (h.pend a e he x hx)
  delayed := fun d hd x hx => List.mem_append_left _ (h.delayed d hd x hx)
  answered := fun x k hx => List.mem_append_left _ (h.answered x k hx)
  peers := h.peers

theorem right_answer {f : Nat → Nat} {s : St} (h : Right f s) (cbs : List Nat) (a : Answer)
    (ha : ∀ k, a = .ok k → ∀ cb ∈ cbs, (cb, k.peer) ∈ s.asked) : Right f (s.answer cbs a) where
  tasks := h.tasks
  pend := h.pend
  delayed := h.delayed
  answered := by
    intro cb k hm
    rcases List.mem_append.1 hm with h1 | h1
    · exact h.answered cb k h1
    · obtain ⟨x, hx, e⟩ := List.mem_map.1 h1
      simp only [Prod.mk.injEq] at e
      exact e.1 ▸ ha k e.2 x hx
  peers := h.peers

theorem right_dial {f : Nat → Nat} {s : St} (h : Right f s) (c : Cfg) (a p cb : Nat) (hp : f a = p) :
    Right f (s.dial c a p cb) := by
  have hk := right_ask h p cb
  have hcb : (cb, f a) ∈ (s.ask p cb).asked := by rw [hp]; simp [St.ask]
  unfold St.dial
  split
  · rename_i k hg
    refine right_answer hk _ _ (fun k' e x hx => ?_)
    obtain ⟨l, hl⟩ := h.peers
    cases e
    rw [List.mem_singleton.1 hx, hl.own _ _ hg]
    exact List.mem_append_right _ (List.mem_singleton.2 rfl)
  · unfold St.dialNew
    split
    · exact right_spawn hk a p hp _ (fun x hx => by rw [List.mem_singleton.1 hx]; exact hcb)
    · rename_i e hg
      have hall : ∀ x ∈ e.cbs ++ [cb], (x, f a) ∈ (s.ask p cb).asked := by
        intro x hx
        rcases List.mem_append.1 hx with h1 | h1
        · exact hk.pend a e hg x h1
        · rw [List.mem_singleton.1 h1]; exact hcb
      unfold St.dialOver
      split
      · exact right_spawn (right_abort hk _) a p hp _ hall
      · refine ⟨hk.tasks, fun b x hx => ?_, hk.delayed, hk.answered, hk.peers⟩
        simp only [St.join, get_put] at hx
        split at hx
        · rename_i hb
          rw [← Option.some.inj hx, hb]
          exact hall
        · exact hk.pend b x hx

theorem right_incoming {f : Nat → Nat} {s : St} (h : Right f s) (c : Cfg) (a p i : Nat) (aff : Option Affinity) (hp : f a = p) :
    Right f (s.incoming c a p i aff) := by
  have hr : Right f { s with rejected := s.rejected ++ [i] } := ⟨h.tasks, h.pend, h.delayed, h.answered, h.peers⟩
  unfold St.incoming
  split
  · split
    · exact right_spawn h a p hp _ (fun x hx => by simp at hx)
    · rename_i e hg
      unfold St.incomingOver
      split
      · exact right_spawn (right_abort h _) a p hp _ (h.pend a e hg)
      · exact hr
  · exact hr

theorem right_finish {f : Nat → Nat} {c : Cfg} {s : St} (h : Right f s) (hi : Inv c s) (u : Nat) (o : Outcome) :
    Right f (s.finish c u o) := by
  unfold St.finish
  split
  · exact h
  · rename_i t hf
    have htm := List.mem_of_find?_eq_some hf
    have htp := h.tasks t htm
    have hj : Right f (s.joined u) :=
      ⟨fun x hx => h.tasks x (List.mem_filter.1 hx).1, h.pend, h.delayed, h.answered, h.peers⟩
    unfold St.result
    split
    · exact hj
    · rename_i e hg
      have hg' : get s.pending t.addr = some e := hg
      split
      · exact hj
      · have hu : Right f ((s.joined u).untrack t.addr) := by
          refine ⟨hj.tasks, fun a x hx => ?_, hj.delayed, hj.answered, hj.peers⟩
          simp only [St.untrack, get_del] at hx
          split at hx
          · simp at hx
          · exact hj.pend a x hx
        have hcbs : ∀ cb ∈ e.cbs, (cb, t.peer) ∈ s.asked := fun cb hc => htp ▸ h.pend t.addr e hg' cb hc
        have hd : ∀ o, Right f (((s.joined u).untrack t.addr).disconnected c t.peer o e.cbs) := by
          intro o
          unfold St.disconnected
          split
          · refine ⟨hu.tasks, hu.pend, fun d hd cb hc => ?_, hu.answered, hu.peers⟩
            rcases List.mem_append.1 hd with h1 | h1
            · exact hu.delayed d h1 cb hc
            · rw [List.mem_singleton.1 h1] at hc ⊢
              exact hcbs cb hc
          · exact right_answer hu _ _ (fun k e => by simp at e)
        cases o with
        | closed => exact hd _
        | failed => exact hd _
        | ok id =>
          have hap := added_peer h.peers c.me ⟨id, t.peer, t.origin⟩
          change Right f (((((s.joined u).untrack t.addr).addPeer c ⟨id, t.peer, t.origin⟩).resolve
            (addedConn (s.peers.add c.me ⟨id, t.peer, t.origin⟩).2)).answer e.cbs
              (.ok (addedConn (s.peers.add c.me ⟨id, t.peer, t.origin⟩).2)))
          generalize addedConn (s.peers.add c.me ⟨id, t.peer, t.origin⟩).2 = k at *
          have hadd : Right f (((s.joined u).untrack t.addr).addPeer c ⟨id, t.peer, t.origin⟩) := by
            obtain ⟨l, hl⟩ := h.peers
            exact ⟨hu.tasks, hu.pend, hu.delayed, hu.answered, ⟨_, inv_addPeer hl c.me ⟨id, t.peer, t.origin⟩⟩⟩
          rw [resolve_closed c (St.addPeer c ((s.joined u).untrack t.addr) ⟨id, t.peer, t.origin⟩) hi.timers]
          refine right_answer ?_ _ _ (fun k' e x hx => by cases e; rw [hap]; exact hcbs x hx)
          refine ⟨hadd.tasks, hadd.pend, fun d hd => hadd.delayed d (List.mem_filter.1 hd).1, fun cb k' hm => ?_, hadd.peers⟩
          rcases List.mem_append.1 hm with h1 | h1
          · exact hadd.answered cb k' h1
          · obtain ⟨d, hd, hm'⟩ := List.mem_flatMap.1 h1
            obtain ⟨x, hx, e⟩ := List.mem_map.1 hm'
            simp only [Prod.mk.injEq, Answer.ok.injEq] at e
            have hdm := List.mem_filter.1 hd
            have hdp : d.peer = k.peer := by simpa using hdm.2
            rw [← e.1, ← e.2, ← hdp]
            exact hadd.delayed d hdm.1 x hx

theorem right_fire {f : Nat → Nat} {s : St} (h : Right f s) (key : Nat) : Right f (s.fire key) := by
  unfold St.fire
  split
  · exact h
  · rename_i x hx
    split
    · unfold St.expire
      rw [expire_eq]
      refine ⟨h.tasks, h.pend, fun d hd => h.delayed d ((take_sub _ _ _).subset hd), fun cb k hm => ?_, h.peers⟩
      rcases List.mem_append.1 hm with h1 | h1
      · exact h.answered cb k h1
      · obtain ⟨d, hd, hm'⟩ := List.mem_flatMap.1 h1
        obtain ⟨y, hy, e⟩ := List.mem_map.1 hm'
        simp at e
    · exact h

theorem right_reapAll {f : Nat → Nat} {c : Cfg} (l : List (Nat × Nat)) : ∀ s : St, Right f s →
    Right f (l.foldl (St.reapOne c) s) := by
  induction l with
  | nil => exact fun s h => h
  | cons x l ih =>
    intro s h
    refine ih _ ?_
    unfold St.reapOne
    split
    all_goals exact ⟨h.tasks, h.pend, h.delayed, h.answered, h.peers⟩

theorem right_check {f : Nat → Nat} {c : Cfg} {s : St} (h : Right f s) (known : List Known) (cbs : List Nat)
    (hk : ∀ k ∈ known, f k.addr = k.peer) : Right f (s.check c known cbs) := by
  unfold St.check St.dialAll
  have h0 : Right f (s.reap c) := right_reapAll s.dials s h
  have hl : ∀ x ∈ ((s.reap c).chosen c known).zip cbs, f x.1.addr = x.1.peer := by
    intro x hx
    exact hk _ (List.mem_filter.1 (List.mem_of_mem_take (List.of_mem_zip hx).1)).1
  generalize ((s.reap c).chosen c known).zip cbs = l at hl
  generalize s.reap c = s' at h0
  induction l generalizing s' with
  | nil => exact h0
  | cons x l ih =>
    refine ih (fun y hy => hl y (List.mem_cons_of_mem _ hy)) _ ?_
    have := right_dial h0 c x.1.addr x.1.peer x.2 (hl x (by simp))
    exact ⟨this.tasks, this.pend, this.delayed, this.answered, this.peers⟩

theorem right_step {f : Nat → Nat} {c : Cfg} {s : St} (h : Right f s) (hi : Inv c s) (o : Op) (ho : Consistent f o) :
    Right f (s.step c o) := by
  cases o with
  | connect a p cb => exact right_dial h c a p cb ho
  | incoming a p i aff => exact right_incoming h c a p i aff ho
  | finish u o => exact right_finish h hi u o
  | cancelled u => exact ⟨fun x hx => h.tasks x (List.mem_filter.1 hx).1, h.pend, h.delayed, h.answered, h.peers⟩
  | fire k => exact right_fire h k
  | check known cbs => exact right_check h known cbs ho
  | peers o =>
    obtain ⟨l, hl⟩ := h.peers
    have hp : ActivePeers.Inv (l ++ [o]) (s.peers.step c.me o) := ActivePeers.inv_step hl c.me o
    cases o with
    | add k => exact h
    | remove p => exact ⟨h.tasks, h.pend, h.delayed, h.answered, ⟨_, hp⟩⟩
    | ended k => exact ⟨h.tasks, h.pend, h.delayed, h.answered, ⟨_, hp⟩⟩
    | tick i => exact ⟨h.tasks, h.pend, h.delayed, h.answered, ⟨_, hp⟩⟩
  | time t => exact ⟨h.tasks, h.pend, h.delayed, h.answered, h.peers⟩

/-- **The right peer.** When every address belongs to one peer, every connection given to a callback is a connection with
the peer the callback was handed over for. -/
theorem right_peer (c : Cfg) (f : Nat → Nat) (l : List Op) (hl : ∀ o ∈ l, Consistent f o) (cb : Nat) (k : Conn)
    (h : (cb, Answer.ok k) ∈ (St.run c l).answered) : (cb, k.peer) ∈ (St.run c l).asked := by
  suffices H : Right f (St.run c l) from H.answered cb k h
  clear h
  induction l using List.reverseRecOn with
  | nil =>
    refine ⟨by simp [St.run, St.new], fun a e h => by simp [St.run, St.new, Table.get] at h, by simp [St.run, St.new],
      by simp [St.run, St.new], ⟨[], ActivePeers.inv_new⟩⟩
  | append_singleton l o ih =>
    rw [run_snoc]
    exact right_step (ih (fun o ho => hl o (List.mem_append_left _ ho))) (inv_run c l) o (hl o (by simp))

/-- Without that, not: a request for peer 4 at an address where a dial of peer 3 is pending is answered with the connection
with peer 3. -/
theorem wrong_peer (c : Cfg) : ∃ l k, (St.run c l).asked = [(0, 3), (1, 4)] ∧ (1, Answer.ok k) ∈ (St.run c l).answered ∧
    k.peer = 3 := by
  refine ⟨[.connect 9 3 0, .connect 9 4 1, .finish 0 (.ok 7)], ⟨7, 3, .out⟩, ?_, ?_, rfl⟩
  · simp [St.run, St.step, St.new, Peers.new, St.dial, St.ask, St.dialNew, Table.get, St.spawn, St.dialOver, put, del,
      St.join, St.finish, St.joined, St.result, St.untrack, St.conclude, St.connected, St.addPeer, St.resolve, St.answer,
      Peers.addPeer, Peers.add, Peers.addVacant, addedConn]
  · simp [St.run, St.step, St.new, Peers.new, St.dial, St.ask, St.dialNew, Table.get, St.spawn, St.dialOver, put, del,
      St.join, St.finish, St.joined, St.result, St.untrack, St.conclude, St.connected, St.addPeer, St.resolve, St.answer,
      Peers.addPeer, Peers.add, Peers.addVacant, addedConn]

end Tycho.Dialing
