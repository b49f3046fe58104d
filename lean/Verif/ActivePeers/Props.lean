import Verif.ActivePeers.Inv
/-! What the active connections of a node guarantee. -/
namespace Tycho.ActivePeers
open Tycho.Table
open Tycho.Table (get)

/-- After any history: every connection ever offered is either the active one of its peer or was closed by this node, and
with distinct stable ids never both; a peer has at most one active connection, which is a connection with that peer and
was offered. -/
theorem active_or_closed (me : Nat) (l : List Op) :
    (∀ c ∈ offered l, get (Peers.run me l).conns c.peer = some c ∨ c.id ∈ (Peers.run me l).closed) ∧
    (((offered l).map (·.id)).Nodup → ∀ p c, get (Peers.run me l).conns p = some c →
      c.id ∉ (Peers.run me l).closed) ∧
    (∀ p c, get (Peers.run me l).conns p = some c → c.peer = p ∧ c ∈ offered l) ∧
    Uniq (Peers.run me l).conns := by
  have h := inv_run me l
  exact ⟨h.fate, h.live, fun p c hc => ⟨h.own p c hc, h.known p c hc⟩, h.uniq⟩

/-- The connection a call of `add` returns is the active one of the peer right after it, and the entries of other peers
are untouched. -/
theorem add_returns_active (me : Nat) (s : Peers) (c : Conn) :
    (∀ d, (s.add me c).2 = .new d → d = c ∧ get (s.add me c).1.conns c.peer = some c) ∧
    (∀ d, (s.add me c).2 = .existing d →
      get s.conns c.peer = some d ∧ get (s.add me c).1.conns c.peer = some d ∧ c.id ∈ (s.add me c).1.closed) ∧
    (∀ p, p ≠ c.peer → get (s.add me c).1.conns p = get s.conns p) := by
  unfold Peers.add
  cases hg : get s.conns c.peer with
  | none =>
    refine ⟨fun d hd => ?_, fun d hd => by simp at hd, fun p hp => ?_⟩
    · simp only [Added.new.injEq] at hd
      exact ⟨hd.symm, by simp [Peers.addVacant, get_put]⟩
    · simp [Peers.addVacant, get_put, hp]
  | some old =>
    by_cases ht : tieBreak me c.peer old.dir c.dir = true
    · simp only [ht, if_true]
      refine ⟨fun d hd => ?_, fun d hd => by simp at hd, fun p hp => ?_⟩
      · simp only [Added.new.injEq] at hd
        exact ⟨hd.symm, by simp [Peers.addOver, get_put]⟩
      · simp [Peers.addOver, get_put, hp]
    · simp only [ht, Bool.false_eq_true, if_false]
      refine ⟨fun d hd => by simp at hd, fun d hd => ?_, fun p hp => rfl⟩
      simp only [Added.existing.injEq] at hd
      subst hd
      exact ⟨rfl, hg, by simp [Peers.addUnder]⟩

/-- The end of a request handler removes its own connection and no other one, in particular not a newer connection with
the same peer. -/
theorem ended_removes_own (me : Nat) (l : List Op) (c : Conn) (hn : ((offered l).map (·.id)).Nodup)
    (hc : c ∈ (Peers.run me l).handlers) (hk : c ∈ offered l) :
    get ((Peers.run me l).step me (.ended c)).conns c.peer ≠ some c ∧
    (∀ p d, d ≠ c → get (Peers.run me l).conns p = some d →
      get ((Peers.run me l).step me (.ended c)).conns p = some d) := by
  have h := inv_run me l
  generalize hs : Peers.run me l = s at *
  simp only [Peers.step, Peers.handlerEnd, hc, if_true, Peers.withHandlers, Peers.removeStable]
  cases hg : get s.conns c.peer with
  | none => exact ⟨by simp [hg], fun p d _ hd => hd⟩
  | some x =>
    simp only
    split
    · refine ⟨by simp [Peers.dropConn, get_del], fun p d hd hp => ?_⟩
      rename_i hid
      have hx : x = c := List.inj_on_of_nodup_map hn (h.known _ x hg) hk hid
      have : p ≠ c.peer := by
        intro e
        rw [e, hg] at hp
        exact hd ((Option.some.inj hp).symm.trans hx)
      simp [Peers.dropConn, get_del, this, hp]
    · rename_i hid
      exact ⟨by rw [hg]; intro e; exact hid (by rw [Option.some.inj e]), fun p d _ hd => hd⟩

/-- The counter is never below the number of connected peers, it never underflows, and it is exact when no call is in
progress. -/
theorem counter_exact (me : Nat) (l : List Op) :
    (Peers.run me l).conns.length ≤ (Peers.run me l).len ∧
    (∀ (i p : Nat), (Peers.run me l).pend[i]? = some (Pend.sub p) → 1 ≤ (Peers.run me l).len) ∧
    ((Peers.run me l).pend = [] → (Peers.run me l).len = (Peers.run me l).conns.length) := by
  have h := (inv_run me l).len
  refine ⟨by omega, fun i p hi => ?_, fun he => ?_⟩
  · have : 1 ≤ subs (Peers.run me l).pend := by
      unfold subs
      rw [Nat.one_le_iff_ne_zero, Ne, List.countP_eq_zero]
      intro hall
      exact hall (.sub p) (List.mem_of_getElem? hi) rfl
    omega
  · rw [he] at h
    exact h

/-- When no call is in progress, a subscriber has been told of a peer once more as new than as lost when the peer is
connected, and equally often otherwise: no event is lost or invented by any interleaving. -/
theorem events_balanced (me : Nat) (l : List Op) (hq : (Peers.run me l).pend = []) (p : Nat) :
    (Peers.run me l).events.count (.new p) =
      (Peers.run me l).events.count (.lost p) + (if (get (Peers.run me l).conns p).isSome then 1 else 0) := by
  have h := (inv_run me l).bal p
  rw [hq] at h
  simpa [news, losts] using h

/-- The assertion of the shutdown: when the last request handler has ended there is no active connection. -/
theorem no_handler_no_peer (me : Nat) (l : List Op) (h : (Peers.run me l).handlers = []) :
    (Peers.run me l).conns = [] := by
  have hi := inv_run me l
  cases hc : (Peers.run me l).conns with
  | nil => rfl
  | cons e t =>
    exfalso
    have hm : e ∈ (Peers.run me l).conns := by rw [hc]; simp
    have hg := get_of_mem _ hi.uniq e.1 e.2 hm
    have := hi.handled _ _ hg
    rw [h] at this
    simp at this

/-! ### Calls one after another -/

/-- What a subscriber knows about `p` after one more event: `none` if the event makes no sense. -/
def hear (p : Nat) : Option Bool → Ev → Option Bool
  | some b, .new q => if q = p then (if b then none else some true) else some b
  | some b, .lost q => if q = p then (if b then some false else none) else some b
  | none, _ => none

/-- What a subscriber knows about `p` after the events. -/
def heard (p : Nat) (l : List Ev) : Option Bool := l.foldl (hear p) (some false)

theorem heard_append (p : Nat) (l m : List Ev) : heard p (l ++ m) = m.foldl (hear p) (heard p l) := by
  unfold heard; rw [List.foldl_append]

/-- The calls run to their end, one after another. -/
def oneByOne (l : List Op) : List Op := l.flatMap (fun o => [o, .tick 0, .tick 0])

/-- A call, not a part of one. -/
def IsCall : Op → Prop
  | .tick _ => False
  | _ => True

/-- `s` is between two calls and its events tell the truth. -/
def Told (s : Peers) : Prop := s.pend = [] ∧ ∀ p, heard p s.events = some (get s.conns p).isSome

theorem told_drop (s : Peers) (h : Told s) (p : Nat) (c : Conn) (hc : get s.conns p = some c) (hs : List Conn) :
    Told ((((s.dropConn p c).withHandlers hs).tick 0).tick 0) := by
  have hp := h.1
  simp only [Peers.dropConn, Peers.withHandlers, Peers.tick, hp, List.nil_append, List.getElem?_cons_zero, List.set_cons_zero,
    List.eraseIdx_cons_zero]
  refine ⟨rfl, fun q => ?_⟩
  simp only [heard_append, h.2 q, get_del, List.foldl_cons, List.foldl_nil]
  by_cases hq : p = q
  · subst hq; simp [hear, hc]
  · simp [hear, hq, Ne.symm hq]

theorem told_tick (s : Peers) (h : Told s) : Told ((s.tick 0).tick 0) := by
  have hp := h.1
  have : s.tick 0 = s := by simp [Peers.tick, hp]
  rw [this, this]
  exact h

theorem told_step (me : Nat) (s : Peers) (h : Told s) (o : Op) (ho : IsCall o) :
    Told (((s.step me o).tick 0).tick 0) := by
  have hp := h.1
  cases o with
  | tick i => exact absurd ho id
  | remove p =>
    simp only [Peers.step, Peers.remove]
    cases hc : get s.conns p with
    | none => exact told_tick s h
    | some c => exact told_drop s h p c hc s.handlers
  | ended c =>
    simp only [Peers.step, Peers.handlerEnd, Peers.removeStable]
    split
    · cases hc : get s.conns c.peer with
      | none => exact told_tick _ h
      | some d =>
        simp only
        split
        · exact told_drop s h _ d hc _
        · exact told_tick _ h
    · exact told_tick s h
  | add c =>
    simp only [Peers.step, Peers.addPeer, Peers.add]
    cases hg : get s.conns c.peer with
    | none =>
      simp only [Peers.addVacant, Peers.tick, hp, List.nil_append, List.getElem?_cons_zero,
        List.eraseIdx_cons_zero, List.getElem?_nil]
      refine ⟨rfl, fun q => ?_⟩
      simp only [heard_append, h.2 q, get_put, List.foldl_cons, List.foldl_nil]
      by_cases hq : c.peer = q
      · subst hq; simp [hear, hg]
      · simp [hear, hq, Ne.symm hq]
    | some old =>
      simp only
      by_cases ht : tieBreak me c.peer old.dir c.dir = true
      · simp only [ht, if_true, Peers.addOver, Peers.tick, hp, List.nil_append, List.getElem?_cons_zero,
          List.eraseIdx_cons_zero, List.getElem?_nil]
        refine ⟨rfl, fun q => ?_⟩
        simp only [heard_append, h.2 q, get_put, List.foldl_cons, List.foldl_nil]
        by_cases hq : c.peer = q
        · subst hq; simp [hear, hg]
        · simp [hear, hq, Ne.symm hq]
      · simp only [ht, Bool.false_eq_true, if_false]
        exact told_tick _ h

/-- When the calls do not overlap, the events about every peer alternate, starting with `new`, and the last one says
whether the peer is connected. -/
theorem events_truthful (me : Nat) (l : List Op) (hl : ∀ o ∈ l, IsCall o) (p : Nat) :
    heard p (Peers.run me (oneByOne l)).events = some (get (Peers.run me (oneByOne l)).conns p).isSome := by
  suffices H : Told (Peers.run me (oneByOne l)) from H.2 p
  induction l using List.reverseRecOn with
  | nil => exact ⟨rfl, fun p => rfl⟩
  | append_singleton l o ih =>
    have h1 := ih (fun o ho => hl o (List.mem_append_left _ ho))
    have : oneByOne (l ++ [o]) = oneByOne l ++ [o, .tick 0, .tick 0] := by simp [oneByOne]
    rw [this]
    unfold Peers.run at *
    rw [List.foldl_append]
    exact told_step me _ h1 o (hl o (by simp))

/-- With overlapping calls the last event can be wrong: a call that removes the connection just added overtakes the event
of the call that added it, so that a subscriber hears `lost` first and then `new`, and the peer is not connected. -/
theorem events_overtaken : ∃ me l p, (Peers.run me l).pend = [] ∧
    (Peers.run me l).events = [.lost p, .new p] ∧ get (Peers.run me l).conns p = none :=
  ⟨1, [.add ⟨0, 2, .inb⟩, .remove 2, .tick 1, .tick 1, .tick 0], 2, by decide⟩

end Tycho.ActivePeers
