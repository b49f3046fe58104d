import Verif.ActivePeers.Props
/-!
Two nodes dialing each other: each keeps its own active connections, and the tie break must make them keep the same one.
-/
namespace Tycho.ActivePeers
open Tycho.Table
open Tycho.Table (get)

/-- A connection between two nodes: `dialer` is the id of the node that dialed. -/
structure Link where
  id : Nat
  dialer : Nat
  deriving DecidableEq, Repr

/-- The connection as the node `me` sees it. -/
def Link.at (k : Link) (me other : Nat) : Conn := ⟨k.id, other, if k.dialer = me then .out else .inb⟩

/-- Both nodes decide a tie the same way: of two connections dialed by different nodes, the one dialed by the node with the
larger id wins on both sides, whichever came first; of two connections dialed by the same node the newer one wins. -/
theorem tie_agreed (me other : Nat) (hne : me ≠ other) (old new : Link) (ho : old.dialer = me ∨ old.dialer = other)
    (hn : new.dialer = me ∨ new.dialer = other) :
    tieBreak me other (old.at me other).dir (new.at me other).dir =
      decide (old.dialer = new.dialer ∨ new.dialer = max me other) := by
  unfold Link.at
  rcases ho with ho | ho <;> rcases hn with hn | hn <;> simp only [ho, hn, hne.symm, if_true, if_false, tieBreak]
  · simp
  · simp [hne]; omega
  · simp [hne.symm]; omega
  · simp

/-- One of the two nodes: its active connections and the links it was offered. -/
structure Side where
  peers : Peers
  added : List Link
  deriving DecidableEq

/-- Both nodes. -/
abbrev Duo := Bool → Side

/-- What happens at one of the nodes: it adds a link, the request handler of a link ends there, or a pending step runs. -/
inductive DOp
  | add (side : Bool) (k : Link) | ended (side : Bool) (k : Link) | tick (side : Bool) (i : Nat)
  deriving DecidableEq

/-- One step of two nodes with the given ids. A node adds a link at most once, and without failures of the network a
request handler ends only when one of the nodes closed the link. -/
def Duo.step (ids : Bool → Nat) (d : Duo) : DOp → Duo
  | .add b k =>
    if k ∈ (d b).added then d
    else fun c => if c = b then ⟨(d b).peers.step (ids b) (.add (k.at (ids b) (ids !b))), k :: (d b).added⟩ else d c
  | .ended b k =>
    if k.id ∈ (d true).peers.closed ∨ k.id ∈ (d false).peers.closed then
      fun c => if c = b then ⟨(d b).peers.step (ids b) (.ended (k.at (ids b) (ids !b))), (d b).added⟩ else d c
    else d
  | .tick b i => fun c => if c = b then ⟨(d b).peers.step (ids b) (.tick i), (d b).added⟩ else d c

/-- A history of two nodes. -/
def Duo.run (ids : Bool → Nat) (l : List DOp) : Duo := l.foldl (Duo.step ids) (fun _ => ⟨Peers.new, []⟩)

/-- The links that are the subject of a step. -/
def DOp.link : DOp → Option Link
  | .add _ k => some k
  | .ended _ k => some k
  | .tick _ _ => none

/-- The invariant about the winning link. -/
structure Won (ids : Bool → Nat) (w : Link) (d : Duo) : Prop where
  opn : ∀ b, w.id ∉ (d b).peers.closed
  kept : ∀ b, w ∈ (d b).added → get (d b).peers.conns (ids !b) = some (w.at (ids b) (ids !b))
  only : ∀ b p c, get (d b).peers.conns p = some c → p = ids !b ∧ ∃ k ∈ (d b).added, c = k.at (ids b) (ids !b)
  links : ∀ b, ∀ k ∈ (d b).added, (k.id = w.id → k = w) ∧ (k = w ∨ k.dialer = min (ids true) (ids false))

theorem removeStable_other (s : Peers) (p id : Nat) (c : Conn) (h : get s.conns p = some c) (hc : c.id ≠ id) :
    s.removeStable p id = s := by
  unfold Peers.removeStable
  rw [h]
  simp [hc]

theorem tick_conns (s : Peers) (i : Nat) : (s.tick i).conns = s.conns ∧ (s.tick i).closed = s.closed := by
  unfold Peers.tick
  cases s.pend[i]? with
  | none => exact ⟨rfl, rfl⟩
  | some a => cases a <;> exact ⟨rfl, rfl⟩

/-- One side after it was offered a link. -/
theorem won_side {ids : Bool → Nat} {w : Link} {d : Duo} (h : Won ids w d) (hne : ids true ≠ ids false)
    (hw : w.dialer = max (ids true) (ids false)) (b : Bool) (k : Link) (hk : k ∉ (d b).added)
    (h1 : k.id = w.id → k = w) (h2 : k = w ∨ k.dialer = min (ids true) (ids false)) :
    (w.id ∉ ((d b).peers.addPeer (ids b) (k.at (ids b) (ids !b))).closed) ∧
    (w = k ∨ w ∈ (d b).added →
      get ((d b).peers.addPeer (ids b) (k.at (ids b) (ids !b))).conns (ids !b) = some (w.at (ids b) (ids !b))) ∧
    (∀ p c, get ((d b).peers.addPeer (ids b) (k.at (ids b) (ids !b))).conns p = some c →
      get (d b).peers.conns p = some c ∨ (p = ids !b ∧ c = k.at (ids b) (ids !b))) := by
  have hb : ids b ≠ ids !b := by cases b <;> simp [hne, hne.symm]
  have hmax : max (ids b) (ids !b) = max (ids true) (ids false) := by cases b <;> simp [Nat.max_comm]
  have hmin : min (ids true) (ids false) < max (ids true) (ids false) := by omega
  have hdial : ∀ k' : Link, (k' = w ∨ k'.dialer = min (ids true) (ids false)) →
      k'.dialer = ids b ∨ k'.dialer = ids !b := by
    intro k' hk'
    rcases hk' with e | e
    · rw [e, hw]; cases b <;> simp <;> omega
    · rw [e]; cases b <;> simp <;> omega
  unfold Peers.addPeer Peers.add
  have hp : (k.at (ids b) (ids !b)).peer = ids !b := rfl
  rw [hp]
  cases hg : get (d b).peers.conns (ids !b) with
  | none =>
    refine ⟨h.opn b, fun hor => ?_, fun p c hc => ?_⟩
    · rcases hor with e | e
      · subst e; simp [Peers.addVacant, get_put, hp]
      · rw [h.kept b e] at hg; simp at hg
    · simp only [Peers.addVacant, get_put, hp] at hc
      split at hc
      · rename_i e; exact .inr ⟨e, (Option.some.inj hc).symm⟩
      · exact .inl hc
  | some old =>
    obtain ⟨_, k0, hk0, e0⟩ := h.only b _ old hg
    have hl0 := h.links b k0 hk0
    have ht := tie_agreed (ids b) (ids !b) hb k0 k (hdial k0 hl0.2) (hdial k h2)
    rw [hmax] at ht
    subst e0
    have hid0 : (k0.at (ids b) (ids !b)).id = k0.id := rfl
    have hid : (k.at (ids b) (ids !b)).id = k.id := rfl
    simp only [ht]
    by_cases hc : k0.dialer = k.dialer ∨ k.dialer = max (ids true) (ids false)
    · simp only [hc, decide_true, if_true]
      have hk0w : k0 ≠ w := by
        intro e
        subst e
        rcases h2 with e2 | e2
        · exact hk (e2 ▸ hk0)
        · rcases hc with e3 | e3 <;> omega
      refine ⟨?_, fun hor => ?_, fun p c hc => ?_⟩
      · simp only [Peers.addOver, List.mem_append, List.mem_singleton, not_or, hid0]
        exact ⟨h.opn b, fun e => hk0w (hl0.1 e.symm)⟩
      · rcases hor with e | e
        · subst e; simp [Peers.addOver, get_put, hp]
        · have hkw := h.kept b e
          rw [hg] at hkw
          have : k0.id = w.id := by
            have := congrArg Conn.id (Option.some.inj hkw)
            exact this
          exact absurd (hl0.1 this) hk0w
      · simp only [Peers.addOver, get_put, hp] at hc
        split at hc
        · rename_i e; exact .inr ⟨e, (Option.some.inj hc).symm⟩
        · exact .inl hc
    · simp only [hc, decide_false, Bool.false_eq_true, if_false]
      have hkw : k ≠ w := by
        intro e
        subst e
        exact hc (.inr hw)
      refine ⟨?_, fun hor => ?_, fun p c hc => .inl hc⟩
      · simp only [Peers.addUnder, List.mem_append, List.mem_singleton, not_or, hid]
        exact ⟨h.opn b, fun e => hkw (h1 e.symm)⟩
      · rcases hor with e | e
        · exact absurd e.symm hkw
        · exact h.kept b e

theorem won_add {ids : Bool → Nat} {w : Link} {d : Duo} (h : Won ids w d) (hne : ids true ≠ ids false)
    (hw : w.dialer = max (ids true) (ids false)) (b : Bool) (k : Link)
    (h1 : k.id = w.id → k = w) (h2 : k = w ∨ k.dialer = min (ids true) (ids false)) :
    Won ids w (d.step ids (.add b k)) := by
  unfold Duo.step
  simp only
  split
  · exact h
  · rename_i hk
    obtain ⟨a1, a2, a3⟩ := won_side h hne hw b k hk h1 h2
    constructor
    · intro c
      by_cases e : c = b
      · subst e; simpa [Peers.step] using a1
      · simpa [e] using h.opn c
    · intro c hc
      by_cases e : c = b
      · subst e
        simp only [if_true, List.mem_cons] at hc
        simpa [Peers.step] using a2 hc
      · simp only [e, if_false] at hc ⊢
        exact h.kept c hc
    · intro c p x hx
      by_cases e : c = b
      · subst e
        simp only [if_true, Peers.step] at hx ⊢
        rcases a3 p x hx with h3 | ⟨h3, h4⟩
        · obtain ⟨e1, k', hk', e2⟩ := h.only c p x h3
          exact ⟨e1, k', List.mem_cons_of_mem _ hk', e2⟩
        · exact ⟨h3, k, by simp, h4⟩
      · simp only [e, if_false] at hx ⊢
        exact h.only c p x hx
    · intro c k' hk'
      by_cases e : c = b
      · subst e
        simp only [if_true, List.mem_cons] at hk'
        rcases hk' with e' | e'
        · subst e'; exact ⟨h1, h2⟩
        · exact h.links c k' e'
      · simp only [e, if_false] at hk'
        exact h.links c k' hk'

theorem won_ended {ids : Bool → Nat} {w : Link} {d : Duo} (h : Won ids w d) (b : Bool) (k : Link) :
    Won ids w (d.step ids (.ended b k)) := by
  unfold Duo.step
  simp only
  split
  · rename_i hcl
    have hkw : w.id ≠ k.id := by
      intro e
      rcases hcl with hcl | hcl
      · exact h.opn true (e ▸ hcl)
      · exact h.opn false (e ▸ hcl)
    have side : w.id ∉ ((d b).peers.handlerEnd (k.at (ids b) (ids !b))).closed ∧
        (w ∈ (d b).added →
          get ((d b).peers.handlerEnd (k.at (ids b) (ids !b))).conns (ids !b) = some (w.at (ids b) (ids !b))) ∧
        (∀ p c, get ((d b).peers.handlerEnd (k.at (ids b) (ids !b))).conns p = some c →
          get (d b).peers.conns p = some c) := by
      unfold Peers.handlerEnd
      split
      · simp only [Peers.withHandlers]
        unfold Peers.removeStable
        cases hg : get (d b).peers.conns (k.at (ids b) (ids !b)).peer with
        | none => exact ⟨h.opn b, h.kept b, fun p c hc => hc⟩
        | some x =>
          simp only
          split
          · rename_i hid
            refine ⟨?_, fun hm => ?_, fun p c hc => ?_⟩
            · simp only [Peers.dropConn, List.mem_append, List.mem_singleton, not_or]
              exact ⟨h.opn b, fun e => hkw (e.trans hid)⟩
            · have h3 := h.kept b hm
              have h4 : get (d b).peers.conns (ids !b) = some x := hg
              rw [h3] at h4
              exact absurd ((congrArg Conn.id (Option.some.inj h4)).trans hid) hkw
            · simp only [Peers.dropConn, get_del] at hc
              split at hc
              · simp at hc
              · exact hc
          · exact ⟨h.opn b, h.kept b, fun p c hc => hc⟩
      · exact ⟨h.opn b, h.kept b, fun p c hc => hc⟩
    obtain ⟨a1, a2, a3⟩ := side
    constructor
    · intro c
      by_cases e : c = b
      · subst e; simpa [Peers.step] using a1
      · simpa [e] using h.opn c
    · intro c hc
      by_cases e : c = b
      · subst e
        simp only [if_true] at hc
        simpa [Peers.step] using a2 hc
      · simp only [e, if_false] at hc ⊢
        exact h.kept c hc
    · intro c p x hx
      by_cases e : c = b
      · subst e
        simp only [if_true, Peers.step] at hx ⊢
        exact h.only c p x (a3 p x hx)
      · simp only [e, if_false] at hx ⊢
        exact h.only c p x hx
    · intro c k' hk'
      by_cases e : c = b
      · subst e
        simp only [if_true] at hk'
        exact h.links c k' hk'
      · simp only [e, if_false] at hk'
        exact h.links c k' hk'
  · exact h

theorem won_tick {ids : Bool → Nat} {w : Link} {d : Duo} (h : Won ids w d) (b : Bool) (i : Nat) :
    Won ids w (d.step ids (.tick b i)) := by
  have ht := tick_conns (d b).peers i
  have e1 : ∀ c, ((d.step ids (.tick b i)) c).peers.conns = (d c).peers.conns := by
    intro c; by_cases e : c = b
    · subst e; simp [Duo.step, Peers.step, ht.1]
    · simp [Duo.step, e]
  have e2 : ∀ c, ((d.step ids (.tick b i)) c).peers.closed = (d c).peers.closed := by
    intro c; by_cases e : c = b
    · subst e; simp [Duo.step, Peers.step, ht.2]
    · simp [Duo.step, e]
  have e3 : ∀ c, ((d.step ids (.tick b i)) c).added = (d c).added := by
    intro c; by_cases e : c = b
    · subst e; simp [Duo.step]
    · simp [Duo.step, e]
  refine ⟨fun c => ?_, fun c hc => ?_, fun c p x hx => ?_, fun c k hk => ?_⟩
  · rw [e2]; exact h.opn c
  · rw [e1]; exact h.kept c (e3 c ▸ hc)
  · rw [e3]; rw [e1] at hx; exact h.only c p x hx
  · rw [e3] at hk; exact h.links c k hk

/-- **Simultaneous dials converge.** Let two nodes dial each other, the node with the larger id once, the other one any
number of times, and let no connection fail by itself. Then in every interleaving of the additions and of the ends of the
handlers on both sides, the connection dialed by the node with the larger id is never closed by either, and on each side
that added it, it is the active connection from then on. -/
theorem dials_converge (ids : Bool → Nat) (hne : ids true ≠ ids false) (w : Link)
    (hw : w.dialer = max (ids true) (ids false)) (l : List DOp)
    (hl : ∀ b k, DOp.add b k ∈ l → (k.id = w.id → k = w) ∧ (k = w ∨ k.dialer = min (ids true) (ids false))) (b : Bool) :
    w.id ∉ (Duo.run ids l b).peers.closed ∧
    (w ∈ (Duo.run ids l b).added →
      get (Duo.run ids l b).peers.conns (ids !b) = some (w.at (ids b) (ids !b))) := by
  suffices H : Won ids w (Duo.run ids l) from ⟨H.opn b, H.kept b⟩
  induction l using List.reverseRecOn with
  | nil =>
    refine ⟨fun b => ?_, fun b hb => ?_, fun b p c hc => ?_, fun b k hk => ?_⟩
    · simp [Duo.run, Peers.new]
    · simp [Duo.run] at hb
    · simp [Duo.run, Peers.new, Table.get] at hc
    · simp [Duo.run] at hk
  | append_singleton l o ih =>
    have h := ih (fun b k hk => hl b k (List.mem_append_left _ hk))
    have e : Duo.run ids (l ++ [o]) = (Duo.run ids l).step ids o := by
      unfold Duo.run; rw [List.foldl_append]; rfl
    rw [e]
    cases o with
    | add c k => exact won_add h hne hw c k (hl c k (by simp)).1 (hl c k (by simp)).2
    | ended c k => exact won_ended h c k
    | tick c i => exact won_tick h c i

/-- When both nodes were offered it, they talk over the same connection. -/
theorem dials_same (ids : Bool → Nat) (hne : ids true ≠ ids false) (w : Link)
    (hw : w.dialer = max (ids true) (ids false)) (l : List DOp)
    (hl : ∀ b k, DOp.add b k ∈ l → (k.id = w.id → k = w) ∧ (k = w ∨ k.dialer = min (ids true) (ids false)))
    (ha : w ∈ (Duo.run ids l true).added) (hb : w ∈ (Duo.run ids l false).added) :
    (get (Duo.run ids l true).peers.conns (ids false)).map (·.id) = some w.id ∧
    (get (Duo.run ids l false).peers.conns (ids true)).map (·.id) = some w.id := by
  have h1 := (dials_converge ids hne w hw l hl true).2 ha
  have h2 := (dials_converge ids hne w hw l hl false).2 hb
  simp only [Bool.not_true, Bool.not_false] at h1 h2
  rw [h1, h2]
  exact ⟨rfl, rfl⟩

/-- Two connections dialed by the same node need not converge: when the nodes add them in different orders, each closes
the connection the other one keeps, and when the handlers have ended neither node is connected. -/
theorem same_direction_diverges : ∃ (ids : Bool → Nat) (l : List DOp), ids true ≠ ids false ∧
    get (Duo.run ids l true).peers.conns (ids false) = none ∧ get (Duo.run ids l false).peers.conns (ids true) = none ∧
    (∀ k : Link, k ∈ (Duo.run ids l true).added → k.dialer = ids true) ∧
    (Duo.run ids l true).added.length = 2 ∧ (Duo.run ids l false).added.length = 2 := by
  refine ⟨fun b => if b then 2 else 1, [.add true ⟨7, 2⟩, .add true ⟨8, 2⟩, .add false ⟨8, 2⟩, .add false ⟨7, 2⟩,
    .ended true ⟨8, 2⟩, .ended false ⟨7, 2⟩], by decide, by decide, by decide, by decide, by decide, by decide⟩

end Tycho.ActivePeers
