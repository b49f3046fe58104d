import Verif.Dialing.Fifo
/-! The connectivity check: whom it dials and when; the admission of incoming connections. -/
namespace Tycho.Dialing
open Tycho.Table Tycho.ActivePeers
open Tycho.Table (get)

/-! ### Specification -/

/-- What the last dial of the check to `p` came to, if it was answered. -/
def lastDial (s : St) (p : Nat) : Option Bool :=
  (get s.dials p).bind (fun cb => (s.answered.find? (fun x => decide (x.1 = cb))).map
    (fun x => match x.2 with | .ok _ => true | .err => false))

/-- The times of the checks that saw a dial of `p` fail since the last one that saw it succeed, the latest first. -/
def failTimes (c : Cfg) (p : Nat) (l : List Op) : St × List Nat :=
  l.foldl (fun x o => (x.1.step c o,
    match o with
    | .check _ _ => match lastDial x.1 p with
      | some true => []
      | some false => x.1.now :: x.2
      | none => x.2
    | _ => x.2)) (St.new, [])

/-! ### Proofs -/

theorem tryRecv_cases {c : Cfg} {s : St} (h : Inv c s) (cb : Nat) (hc : cb ∈ s.asked.map (·.1)) :
    s.tryRecv cb = match s.answered.find? (fun x => decide (x.1 = cb)) with | some x => .ready x.2 | none => .empty := by
  have hg := asked_not_gone h cb hc
  unfold St.tryRecv at *
  cases hf : s.answered.find? (fun x => decide (x.1 = cb)) with
  | some x => rfl
  | none =>
    rw [hf] at hg
    simp only at hg
    by_cases hw : cb ∈ s.waiting
    · simp [hw]
    · rw [if_neg hw] at hg; exact absurd rfl hg

theorem reapOne_rest (c : Cfg) (s : St) (x : Nat × Nat) :
    (s.reapOne c x).now = s.now ∧ (s.reapOne c x).peers = s.peers ∧ (s.reapOne c x).tasks = s.tasks ∧
    ∀ cb, (s.reapOne c x).tryRecv cb = s.tryRecv cb := by
  unfold St.reapOne
  split <;> exact ⟨rfl, rfl, rfl, fun cb => rfl⟩

/-- What the first part of the check does to the backoff of a peer. -/
def backoffAfter (c : Cfg) (s : St) (p : Nat) : Option Nat → Option Backoff
  | none => get s.backoff p
  | some cb => match s.tryRecv cb with
    | .ready (.ok _) => none
    | .ready .err => some (Backoff.update c s.now ((get s.backoff p).elim 0 (·.attempts)))
    | _ => get s.backoff p

/-- What it does to the dials. -/
def dialAfter (s : St) (p : Nat) : Option Nat → Option Nat
  | none => get s.dials p
  | some cb => match s.tryRecv cb with
    | .ready _ => none
    | _ => get s.dials p

theorem reapAll_effect (c : Cfg) (p : Nat) (l : List (Nat × Nat)) : ∀ s : St, Uniq l →
    get (l.foldl (St.reapOne c) s).backoff p = backoffAfter c s p (get l p) ∧
    get (l.foldl (St.reapOne c) s).dials p = dialAfter s p (get l p) ∧
    (l.foldl (St.reapOne c) s).now = s.now ∧ (l.foldl (St.reapOne c) s).peers = s.peers := by
  induction l with
  | nil => intro s _; exact ⟨rfl, rfl, rfl, rfl⟩
  | cons x l ih =>
    intro s hu
    unfold Uniq at hu
    simp only [List.map_cons, List.nodup_cons] at hu
    obtain ⟨h1, h2, h3, h4⟩ := ih (s.reapOne c x) hu.2
    obtain ⟨r1, r2, r3, r4⟩ := reapOne_rest c s x
    rw [List.foldl_cons, h1, h2, h3, h4]
    refine ⟨?_, ?_, r1, r2⟩
    · by_cases hx : x.1 = p
      · have hn : get l p = none := by
          cases hg : get l p with
          | none => rfl
          | some w => exact absurd (List.mem_map.2 ⟨_, mem_of_get l p w hg, rfl⟩) (hx ▸ hu.1)
        simp only [hn, Table.get, hx, if_true, backoffAfter]
        unfold St.reapOne
        cases hr : s.tryRecv x.2 with
        | ready a => cases a <;> simp [get_del, get_put, hx]
        | empty => rfl
        | gone => rfl
      · have hb : get (s.reapOne c x).backoff p = get s.backoff p := by
          unfold St.reapOne
          cases hr : s.tryRecv x.2 with
          | ready a => cases a <;> simp [get_del, get_put, Ne.symm hx]
          | empty => rfl
          | gone => rfl
        simp only [Table.get, hx, if_false]
        cases hg : get l p with
        | none => exact hb
        | some cb => simp only [backoffAfter, r4, r1, hb]
    · by_cases hx : x.1 = p
      · have hn : get l p = none := by
          cases hg : get l p with
          | none => rfl
          | some w => exact absurd (List.mem_map.2 ⟨_, mem_of_get l p w hg, rfl⟩) (hx ▸ hu.1)
        simp only [hn, Table.get, hx, if_true, dialAfter]
        unfold St.reapOne
        cases hr : s.tryRecv x.2 with
        | ready a => cases a <;> simp [get_del, hx]
        | empty => rfl
        | gone => rfl
      · have hb : get (s.reapOne c x).dials p = get s.dials p := by
          unfold St.reapOne
          cases hr : s.tryRecv x.2 with
          | ready a => cases a <;> simp [get_del, Ne.symm hx]
          | empty => rfl
          | gone => rfl
        simp only [Table.get, hx, if_false]
        cases hg : get l p with
        | none => exact hb
        | some cb => simp only [dialAfter, r4, hb]

theorem reap_backoff {c : Cfg} {s : St} (h : Inv c s) (p : Nat) :
    get (s.reap c).backoff p = (match lastDial s p with
      | some true => none
      | some false => some (Backoff.update c s.now ((get s.backoff p).elim 0 (·.attempts)))
      | none => get s.backoff p) ∧
    (get (s.reap c).dials p = none ↔ get s.dials p = none ∨ lastDial s p ≠ none) := by
  obtain ⟨h1, h2, _, _⟩ := reapAll_effect c p s.dials s h.dials.uniq
  unfold St.reap
  rw [h1, h2]
  unfold lastDial
  cases hg : get s.dials p with
  | none => simp [backoffAfter, dialAfter, hg]
  | some cb =>
    have ht := tryRecv_cases h cb (List.mem_map.2 ⟨_, h.dials.asked p cb hg, rfl⟩)
    simp only [backoffAfter, dialAfter, ht, Option.bind_some]
    cases hf : s.answered.find? (fun x => decide (x.1 = cb)) with
    | none => simp [hg]
    | some x =>
      simp only [Option.map_some]
      cases x.2 <;> simp

theorem dial_backoff (c : Cfg) (s : St) (a p cb : Nat) : (s.dial c a p cb).backoff = s.backoff := by
  unfold St.dial
  split
  · rfl
  · unfold St.dialNew
    split
    · rfl
    · unfold St.dialOver
      split <;> rfl

theorem dialAll_effect (c : Cfg) (l : List (Known × Nat)) : ∀ s : St,
    (l.foldl (St.dialKnown c) s).backoff = s.backoff ∧
    (l.foldl (St.dialKnown c) s).asked = s.asked ++ l.map (fun x => (x.2, x.1.peer)) ∧
    (l.foldl (St.dialKnown c) s).tasks.length ≤ s.tasks.length + l.length := by
  induction l with
  | nil => intro s; simp
  | cons x l ih =>
    intro s
    obtain ⟨h1, h2, h3⟩ := ih (s.dialKnown c x)
    rw [List.foldl_cons, h1, h2]
    have ha : (s.dialKnown c x).asked = s.asked ++ [(x.2, x.1.peer)] := dial_asked c s x.1.addr x.1.peer x.2
    have hb : (s.dialKnown c x).backoff = s.backoff := dial_backoff c s x.1.addr x.1.peer x.2
    have hl : (s.dialKnown c x).tasks.length ≤ s.tasks.length + 1 := by
      change (s.dial c x.1.addr x.1.peer x.2).tasks.length ≤ _
      unfold St.dial
      split
      · exact Nat.le_succ _
      · unfold St.dialNew
        split
        · simp [St.spawn, St.ask]
        · unfold St.dialOver
          split
          · simp [St.spawn, St.abort, St.ask]
          · exact Nat.le_succ _
    refine ⟨hb, by rw [ha]; simp, ?_⟩
    simp only [List.length_cons]
    omega

/-- **Whom the check dials.** It starts no more dials than the limit on outstanding connections leaves room for, so the
number of running tasks stays within that limit unless others exceed it; and everyone it dials is a known peer of high
affinity other than this node, without an active connection, whose previous dial by the check was answered and whose
backoff has passed. -/
theorem check_dials (c : Cfg) (l : List Op) (known : List Known) (cbs : List Nat) :
    ((St.run c l).check c known cbs).tasks.length ≤ max (St.run c l).tasks.length c.maxOutstanding ∧
    ∃ new : List (Known × Nat),
      ((St.run c l).check c known cbs).asked = (St.run c l).asked ++ new.map (fun x => (x.2, x.1.peer)) ∧
      new.length ≤ c.maxOutstanding - (St.run c l).tasks.length ∧
      (new.map (·.1)).Sublist known ∧
      ∀ x ∈ new, x.1.peer ≠ c.me ∧ get (St.run c l).peers.conns x.1.peer = none ∧
        (get (St.run c l).dials x.1.peer = none ∨ lastDial (St.run c l) x.1.peer ≠ none) ∧
        ∀ b, get ((St.run c l).check c known cbs).backoff x.1.peer = some b → b.next < (St.run c l).now := by
  have h := inv_run c l
  generalize St.run c l = s at *
  have hsame := reapAll_same c s.dials s
  have hask : (s.reap c).asked = s.asked := by
    have : ∀ (m : List (Nat × Nat)) (s : St), (m.foldl (St.reapOne c) s).asked = s.asked := by
      intro m
      induction m with
      | nil => exact fun s => rfl
      | cons x m ih => exact fun s => (ih _).trans (reapOne_same c s x).2.2.2
    exact this _ _
  have hlen : (((s.reap c).chosen c known).zip cbs).length ≤ c.maxOutstanding - s.tasks.length := by
    rw [List.length_zip]
    refine Nat.le_trans (Nat.min_le_left _ _) ?_
    unfold St.chosen
    rw [List.length_take]
    refine Nat.le_trans (Nat.min_le_left _ _) ?_
    have : (s.reap c).tasks = s.tasks := hsame.2
    exact this ▸ Nat.le_refl _
  obtain ⟨e1, e2, e3⟩ := dialAll_effect c (((s.reap c).chosen c known).zip cbs) (s.reap c)
  have hcheck : s.check c known cbs = (((s.reap c).chosen c known).zip cbs).foldl (St.dialKnown c) (s.reap c) := rfl
  refine ⟨?_, ((s.reap c).chosen c known).zip cbs, by rw [hcheck, e2, hask], hlen, ?_, fun x hx => ?_⟩
  · rw [hcheck]
    have : (s.reap c).tasks = s.tasks := hsame.2
    rw [this] at e3
    omega
  · have hz : ∀ (a : List Known) (b : List Nat), ((a.zip b).map (·.1)).Sublist a := by
      intro a
      induction a with
      | nil => intro b; simp
      | cons y a ih =>
        intro b
        cases b with
        | nil => simp
        | cons z b => simpa using (ih b).cons_cons y
    exact (hz _ _).trans ((List.take_sublist _ _).trans List.filter_sublist)
  · have hw := (List.mem_filter.1 (List.mem_of_mem_take (List.of_mem_zip hx).1)).2
    obtain ⟨_, hd⟩ := reap_backoff h x.1.peer
    obtain ⟨_, _, hnow, hpeers⟩ := reapAll_effect c x.1.peer s.dials s h.dials.uniq
    have hnow' : (s.reap c).now = s.now := hnow
    have hpeers' : (s.reap c).peers = s.peers := hpeers
    unfold St.wants at hw
    simp only [Bool.and_eq_true, decide_eq_true_eq, Option.isNone_iff_eq_none, hpeers', hnow'] at hw
    obtain ⟨⟨⟨w1, w2⟩, w3⟩, w4⟩ := hw
    refine ⟨w1, w2, hd.1 w3, fun b hb => ?_⟩
    rw [hcheck, e1] at hb
    rw [hb] at w4
    simpa using w4

theorem step_backoff (c : Cfg) (s : St) (h : Inv c s) (o : Op) (p : Nat) : get (s.step c o).backoff p = match o with
    | .check _ _ => (match lastDial s p with
      | some true => none
      | some false => some (Backoff.update c s.now ((get s.backoff p).elim 0 (·.attempts)))
      | none => get s.backoff p)
    | _ => get s.backoff p := by
  cases o with
  | connect a q cb => simp only [St.step, dial_backoff]
  | incoming a q i aff =>
    simp only [St.step, St.incoming]
    split
    · split
      · rfl
      · unfold St.incomingOver; split <;> rfl
    · rfl
  | finish u o =>
    simp only [St.step, St.finish]
    split
    · rfl
    · rename_i t hf
      have htm := List.mem_of_find?_eq_some hf
      have htu : t.uid = u := by simpa using List.find?_some hf
      subst htu
      unfold St.result
      split
      · rfl
      · rename_i e hg
        split
        · rfl
        · have hih := untrack_inHand h t htm e hg
          have hd : ∀ o, ((((s.joined t.uid).untrack t.addr).disconnected c t.peer o e.cbs).backoff) = s.backoff := by
            intro o
            unfold St.disconnected
            split <;> rfl
          cases o with
          | closed => exact congrArg (fun b => get b p) (hd .closed)
          | failed => exact congrArg (fun b => get b p) (hd .failed)
          | ok id =>
            simp only [St.conclude, St.connected]
            rw [resolve_closed c (St.addPeer c ((s.joined t.uid).untrack t.addr) ⟨id, t.peer, t.origin⟩) hih.timers]
            rfl
  | cancelled u => rfl
  | fire k =>
    simp only [St.step, St.fire]
    split
    · rfl
    · split
      · unfold St.expire; rw [expire_eq]; rfl
      · rfl
  | check known cbs =>
    simp only [St.step, St.check, St.dialAll]
    rw [(dialAll_effect c _ _).1]
    exact (reap_backoff h p).1
  | peers o => cases o <;> rfl
  | time t => rfl

/-- **Backoff.** After any history, a peer whose dials by the check failed `k` times in a row, the last failure having been
seen by the check at time `t`, is not to be dialed before `t + min(max, k * step)`; a peer whose last dial succeeded, or that
was never dialed, has no backoff. -/
theorem backoff_grows (c : Cfg) (p : Nat) (l : List Op) :
    (failTimes c p l).1 = St.run c l ∧
    get (St.run c l).backoff p = match (failTimes c p l).2 with
      | [] => none
      | t :: ts => some ⟨t + min c.maxBackoff (c.step * (ts.length + 1)), ts.length + 1⟩ := by
  induction l using List.reverseRecOn with
  | nil => exact ⟨rfl, rfl⟩
  | append_singleton l o ih =>
    obtain ⟨h1, h2⟩ := ih
    have hs : failTimes c p (l ++ [o]) = ((failTimes c p l).1.step c o,
        match o with
        | .check _ _ => match lastDial (failTimes c p l).1 p with
          | some true => []
          | some false => (failTimes c p l).1.now :: (failTimes c p l).2
          | none => (failTimes c p l).2
        | _ => (failTimes c p l).2) := by
      unfold failTimes; rw [List.foldl_append]; rfl
    rw [hs, h1, run_snoc]
    refine ⟨rfl, ?_⟩
    rw [step_backoff c _ (inv_run c l)]
    cases o with
    | check known cbs =>
      simp only
      cases hd : lastDial (St.run c l) p with
      | none => exact h2
      | some b =>
        cases b with
        | true => rfl
        | false =>
          simp only
          rw [h2]
          cases (failTimes c p l).2 with
          | nil => rfl
          | cons t ts => rfl
    | connect a q cb => exact h2
    | incoming a q i aff => exact h2
    | finish u o => exact h2
    | cancelled u => exact h2
    | fire k => exact h2
    | peers o => exact h2
    | time t => exact h2

/-- **Admission.** An incoming connection of a banned peer is always turned away; one of a peer this node knows and did not
ban never is for want of room; one of an unknown peer is turned away exactly when the number of active connections has
reached the limit. A connection that was let in runs its handshake unless it loses the tie against a pending dial. -/
theorem admission (c : Cfg) (s : St) (addr peer id : Nat) (aff : Option Affinity) :
    ((aff = some .never ∨ (aff = none ∧ ∃ n, c.maxConnections = some n ∧ n ≤ s.peers.len)) →
      s.incoming c addr peer id aff = { s with rejected := s.rejected ++ [id] }) ∧
    (¬ (aff = some .never ∨ (aff = none ∧ ∃ n, c.maxConnections = some n ∧ n ≤ s.peers.len)) →
      (∃ e, get s.pending addr = some e ∧ e.origin = .out ∧ peer ≤ c.me ∧
        s.incoming c addr peer id aff = { s with rejected := s.rejected ++ [id] }) ∨
      (∃ t ∈ (s.incoming c addr peer id aff).tasks, t.uid = s.nextTask ∧ t.addr = addr ∧ t.peer = peer ∧ t.origin = .inb ∧
        t.aborted = false ∧ (s.incoming c addr peer id aff).rejected = s.rejected)) := by
  have hadm : s.admits c aff = decide (¬ (aff = some .never ∨ (aff = none ∧ ∃ n, c.maxConnections = some n ∧ n ≤ s.peers.len))) := by
    unfold St.admits
    cases aff with
    | none =>
      cases hm : c.maxConnections with
      | none => simp
      | some n => simp
    | some a => cases a <;> simp
  constructor
  · intro h
    unfold St.incoming
    rw [hadm]
    simp [h]
  · intro h
    unfold St.incoming
    rw [hadm]
    simp only [h, not_false_eq_true, decide_true, if_true]
    cases hg : get s.pending addr with
    | none => exact .inr ⟨⟨s.nextTask, addr, peer, 0, .inb, false⟩, by simp [St.spawn], rfl, rfl, rfl, rfl, rfl, rfl⟩
    | some e =>
      simp only [St.incomingOver]
      by_cases ht : tieBreak c.me peer e.origin .inb = true
      · simp only [ht, if_true]
        exact .inr ⟨⟨s.nextTask, addr, peer, e.seq + 1, .inb, false⟩, by simp [St.spawn, St.abort], rfl, rfl, rfl, rfl, rfl, rfl⟩
      · simp only [ht, Bool.false_eq_true, if_false]
        refine .inl ⟨e, rfl, ?_, ?_, trivial⟩
        · cases ho : e.origin with
          | inb => rw [ho] at ht; simp [tieBreak] at ht
          | out => rfl
        · cases ho : e.origin with
          | inb => rw [ho] at ht; simp [tieBreak] at ht
          | out => rw [ho] at ht; simpa [tieBreak] using ht

end Tycho.Dialing
