import Verif.ActivePeers.Model
import Mathlib.Data.List.Nodup
import Mathlib.Data.List.Induction
/-! Invariants of the histories of the active connections. -/
namespace Tycho.ActivePeers
open Tycho.Table
open Tycho.Table (get)

/-- The connections given to `add` in a history, in order. -/
def offered (l : List Op) : List Conn := l.filterMap (fun | .add c => some c | _ => none)

theorem length_del_absent {ν : Type} (t : Table Nat ν) (p : Nat) (h : get t p = none) :
    del t (fun q => decide (q = p)) = t := by
  induction t with
  | nil => rfl
  | cons e t ih =>
    simp only [Table.get] at h
    split at h
    · simp at h
    · rename_i hk
      have := ih h
      unfold del at *
      rw [List.filter_cons_of_pos (by simp [hk]), this]

theorem length_del_present {ν : Type} (t : Table Nat ν) (hu : Uniq t) (p : Nat) (v : ν) (h : get t p = some v) :
    (del t (fun q => decide (q = p))).length + 1 = t.length := by
  induction t with
  | nil => simp [Table.get] at h
  | cons e t ih =>
    simp only [Table.get] at h
    unfold Uniq at hu
    simp only [List.map_cons, List.nodup_cons] at hu
    split at h
    · rename_i hk
      have : get t p = none := by
        cases hg : get t p with
        | none => rfl
        | some w =>
          exact absurd (List.mem_map.2 ⟨_, mem_of_get t p w hg, rfl⟩) (hk ▸ hu.1)
      have h2 := length_del_absent t p this
      unfold del at *
      rw [List.filter_cons_of_neg (by simp [hk]), h2]
      rfl
    · rename_i hk
      have := ih hu.2 h
      unfold del at *
      rw [List.filter_cons_of_pos (by simp [hk]), List.length_cons, List.length_cons, this]

/-- Number of removed connections not yet subtracted from the counter. -/
def subs (l : List Pend) : Nat := l.countP (fun | .sub _ => true | _ => false)

/-- Number of times a peer is to be reported as lost. -/
def losts (p : Nat) (l : List Pend) : Nat :=
  l.countP (fun | .sub q => decide (q = p) | .ev (.lost q) => decide (q = p) | _ => false)

/-- Number of times a peer is to be reported as new. -/
def news (p : Nat) (l : List Pend) : Nat := l.countP (fun | .ev (.new q) => decide (q = p) | _ => false)

/-- The invariant of a history. -/
structure Inv (l : List Op) (s : Peers) : Prop where
  uniq : Uniq s.conns
  own : ∀ p c, get s.conns p = some c → c.peer = p
  len : s.len = s.conns.length + subs s.pend
  bal : ∀ p, s.events.count (.new p) + news p s.pend
    = s.events.count (.lost p) + losts p s.pend + (if (get s.conns p).isSome then 1 else 0)
  known : ∀ p c, get s.conns p = some c → c ∈ offered l
  handled : ∀ p c, get s.conns p = some c → c ∈ s.handlers
  fate : ∀ c ∈ offered l, get s.conns c.peer = some c ∨ c.id ∈ s.closed
  closed : ∀ i ∈ s.closed, ∃ c ∈ offered l, c.id = i
  live : ((offered l).map (·.id)).Nodup → ∀ p c, get s.conns p = some c → c.id ∉ s.closed

theorem offered_snoc (l : List Op) (o : Op) :
    offered (l ++ [o]) = offered l ++ (match o with | .add c => [c] | _ => []) := by
  unfold offered
  rw [List.filterMap_append]
  cases o <;> rfl

theorem inv_new : Inv [] Peers.new where
  uniq := uniq_nil
  own := by intro p c h; simp [Peers.new, Table.get] at h
  len := rfl
  bal := by intro p; simp [Peers.new, Table.get, news, losts]
  known := by intro p c h; simp [Peers.new, Table.get] at h
  handled := by intro p c h; simp [Peers.new, Table.get] at h
  fate := by intro c h; simp [offered] at h
  closed := by intro c h; simp [Peers.new] at h
  live := by intro _ p c h; simp [Peers.new, Table.get] at h

theorem subs_append (a b : List Pend) : subs (a ++ b) = subs a + subs b := List.countP_append
theorem losts_append (p : Nat) (a b : List Pend) : losts p (a ++ b) = losts p a + losts p b := List.countP_append
theorem news_append (p : Nat) (a b : List Pend) : news p (a ++ b) = news p a + news p b := List.countP_append

/-- The removal of the entry of `p`. -/
theorem inv_drop {l : List Op} {s : Peers} (h : Inv l s) (p : Nat) (c : Conn) (hc : get s.conns p = some c)
    (hs : List Conn) (hh : ∀ q d, q ≠ p → get s.conns q = some d → d ∈ hs) :
    Inv l ((s.dropConn p c).withHandlers hs) where
  uniq := uniq_del s.conns (fun q => decide (q = p)) h.uniq
  own := by
    intro q d hq
    simp only [Peers.withHandlers, Peers.dropConn, get_del] at hq
    split at hq
    · simp at hq
    · exact h.own q d hq
  len := by
    have := length_del_present s.conns h.uniq p c hc
    have h1 := h.len
    simp only [Peers.withHandlers, Peers.dropConn, subs_append]
    have : subs [Pend.sub p] = 1 := rfl
    omega
  bal := by
    intro q
    have h1 := h.bal q
    simp only [Peers.withHandlers, Peers.dropConn, news_append, losts_append, get_del]
    have hn : news q [Pend.sub p] = 0 := by simp [news]
    by_cases hq : q = p
    · subst hq
      have hl : losts q [Pend.sub q] = 1 := by simp [losts]
      rw [hc] at h1
      simp only [Option.isSome_some, if_true] at h1
      simp only [decide_true, if_true, Option.isSome_none, Bool.false_eq_true, if_false]
      omega
    · have hl : losts q [Pend.sub p] = 0 := by simp [losts, Ne.symm hq]
      simp only [hq, decide_false, Bool.false_eq_true, if_false]
      omega
  known := by
    intro q d hq
    simp only [Peers.withHandlers, Peers.dropConn, get_del] at hq
    split at hq
    · simp at hq
    · exact h.known q d hq
  handled := by
    intro q d hq
    simp only [Peers.withHandlers, Peers.dropConn, get_del] at hq
    split at hq
    · simp at hq
    · rename_i hn
      exact hh q d (by simpa using hn) hq
  fate := by
    intro d hd
    simp only [Peers.withHandlers, Peers.dropConn, get_del, List.mem_append, List.mem_singleton]
    rcases h.fate d hd with h1 | h1
    · by_cases hp : d.peer = p
      · rw [hp, hc] at h1
        right; right; rw [Option.some.inj h1]
      · left; simp [hp, h1]
    · exact .inr (.inl h1)
  closed := by
    intro i hi
    simp only [Peers.withHandlers, Peers.dropConn, List.mem_append, List.mem_singleton] at hi
    rcases hi with hi | hi
    · exact h.closed i hi
    · exact ⟨c, h.known p c hc, hi.symm⟩
  live := by
    intro hn q d hq
    simp only [Peers.withHandlers, Peers.dropConn, get_del] at hq
    split at hq
    · simp at hq
    · rename_i hqp
      simp only [Peers.withHandlers, Peers.dropConn, List.mem_append, List.mem_singleton, not_or]
      refine ⟨h.live hn q d hq, fun e => ?_⟩
      have := List.inj_on_of_nodup_map hn (h.known q d hq) (h.known p c hc) e
      subst this
      simp only [decide_eq_true_eq] at hqp
      exact hqp ((h.own q d hq).symm.trans (h.own p d hc))

theorem inv_remove {l : List Op} {s : Peers} (h : Inv l s) (p : Nat) : Inv l (s.remove p) := by
  unfold Peers.remove
  cases hc : get s.conns p with
  | none => exact h
  | some c => exact inv_drop h p c hc s.handlers (fun q d _ hq => h.handled q d hq)

theorem inv_ended {l : List Op} {s : Peers} (h : Inv l s) (c : Conn) : Inv l (s.handlerEnd c) := by
  unfold Peers.handlerEnd
  split
  · have keep : (∀ d, get s.conns c.peer = some d → d ≠ c) → Inv l (s.withHandlers (s.handlers.erase c)) := by
      intro hne
      have hd : ∀ q d, get s.conns q = some d → d ∈ s.handlers.erase c := by
        intro q d hq
        by_cases e : d = c
        · subst e
          exact absurd rfl (hne d ((h.own q d hq) ▸ hq))
        · exact (List.mem_erase_of_ne e).2 (h.handled q d hq)
      exact ⟨h.uniq, h.own, h.len, h.bal, h.known, hd, h.fate, h.closed, h.live⟩
    unfold Peers.removeStable
    cases hc : get s.conns c.peer with
    | none => exact keep (by rw [hc]; simp)
    | some d =>
      simp only
      split
      · refine inv_drop h c.peer d hc _ (fun q e hq he => ?_)
        by_cases ec : e = c
        · subst ec
          exact absurd (h.own q e he).symm hq
        · exact (List.mem_erase_of_ne ec).2 (h.handled q e he)
      · rename_i hid
        exact keep (by rw [hc]; intro e he ee; rw [← Option.some.inj he] at ee; exact hid (ee ▸ rfl))
  · exact h

theorem count_set {α : Type} (f : α → Bool) (l : List α) (i : Nat) (a b : α) (h : l[i]? = some a) :
    (l.set i b).countP f + (if f a then 1 else 0) = l.countP f + (if f b then 1 else 0) := by
  induction l generalizing i with
  | nil => simp at h
  | cons x l ih =>
    cases i with
    | zero => simp at h; subst h; simp [List.countP_cons]; omega
    | succ i =>
      simp only [List.getElem?_cons_succ] at h
      have := ih i h
      simp only [List.set_cons_succ, List.countP_cons]
      omega

theorem count_eraseIdx {α : Type} (f : α → Bool) (l : List α) (i : Nat) (a : α) (h : l[i]? = some a) :
    (l.eraseIdx i).countP f + (if f a then 1 else 0) = l.countP f := by
  induction l generalizing i with
  | nil => simp at h
  | cons x l ih =>
    cases i with
    | zero => simp at h; subst h; simp [List.countP_cons]
    | succ i =>
      simp only [List.getElem?_cons_succ] at h
      have := ih i h
      simp only [List.eraseIdx_cons_succ, List.countP_cons]
      omega

theorem inv_tick {l : List Op} {s : Peers} (h : Inv l s) (i : Nat) : Inv l (s.tick i) := by
  unfold Peers.tick
  cases hi : s.pend[i]? with
  | none => exact h
  | some a =>
    cases a with
    | sub p =>
      refine { h with len := ?_, bal := ?_ }
      · have h1 := h.len
        have h2 := count_set (fun | .sub _ => true | _ => false) s.pend i (.sub p) (.ev (.lost p)) hi
        simp only [if_true, Bool.false_eq_true, if_false] at h2
        simp only [subs] at *
        omega
      · intro q
        have h1 := h.bal q
        have h2 := count_set (fun | .ev (.new r) => decide (r = q) | _ => false) s.pend i (.sub p) (.ev (.lost p)) hi
        have h3 := count_set (fun | .sub r => decide (r = q) | .ev (.lost r) => decide (r = q) | _ => false)
          s.pend i (.sub p) (.ev (.lost p)) hi
        simp only [Bool.false_eq_true, if_false] at h2
        simp only [news, losts] at *
        omega
    | ev e =>
      refine { h with len := ?_, bal := ?_ }
      · have h1 := h.len
        have h2 := count_eraseIdx (fun | .sub _ => true | _ => false) s.pend i (.ev e) hi
        simp only [Bool.false_eq_true, if_false] at h2
        simp only [subs] at *
        omega
      · intro q
        have h1 := h.bal q
        have h2 := count_eraseIdx (fun | .ev (.new r) => decide (r = q) | _ => false) s.pend i (.ev e) hi
        have h3 := count_eraseIdx (fun | .sub r => decide (r = q) | .ev (.lost r) => decide (r = q) | _ => false)
          s.pend i (.ev e) hi
        simp only [news, losts, List.count_append, List.count_singleton] at *
        cases e with
        | new r =>
          simp only [Bool.false_eq_true, if_false, decide_eq_true_eq] at h2 h3
          by_cases hr : r = q
          · subst hr; simp at *; omega
          · simp [hr] at *; omega
        | lost r =>
          simp only [Bool.false_eq_true, if_false, decide_eq_true_eq] at h2 h3
          by_cases hr : r = q
          · subst hr; simp at *; omega
          · simp [hr] at *; omega

theorem offered_add (l : List Op) (c : Conn) : offered (l ++ [.add c]) = offered l ++ [c] := offered_snoc l _

theorem offered_other (l : List Op) (o : Op) (h : ∀ c, o ≠ .add c) : offered (l ++ [o]) = offered l := by
  rw [offered_snoc]
  cases o with
  | add c => exact absurd rfl (h c)
  | remove p => exact List.append_nil _
  | ended c => exact List.append_nil _
  | tick i => exact List.append_nil _

theorem inv_congr {l m : List Op} {s : Peers} (h : Inv l s) (e : offered m = offered l) : Inv m s where
  uniq := h.uniq
  own := h.own
  len := h.len
  bal := h.bal
  known := fun p c hp => e ▸ h.known p c hp
  handled := h.handled
  fate := fun c hc => h.fate c (e ▸ hc)
  closed := fun i hi => e ▸ h.closed i hi
  live := fun hn => h.live (e ▸ hn)

theorem fresh_of_nodup {l : List Conn} {c : Conn} (hn : ((l ++ [c]).map (·.id)).Nodup) :
    (l.map (·.id)).Nodup ∧ ∀ d ∈ l, d.id ≠ c.id := by
  rw [List.map_append, List.nodup_append] at hn
  exact ⟨hn.1, fun d hd => hn.2.2 _ (List.mem_map.2 ⟨d, hd, rfl⟩) _ (by simp)⟩

theorem inv_vacant {l : List Op} {s : Peers} (h : Inv l s) (c : Conn) (hg : get s.conns c.peer = none) :
    Inv (l ++ [.add c]) ((s.addVacant c).withHandlers (s.handlers ++ [c])) where
  uniq := uniq_put s.conns c.peer c h.uniq
  own := by
    intro q d hq
    simp only [Peers.withHandlers, Peers.addVacant, get_put] at hq
    split at hq
    · rename_i e; rw [← Option.some.inj hq, e]
    · exact h.own q d hq
  len := by
    have h1 := h.len
    simp only [Peers.withHandlers, Peers.addVacant, subs_append, put, length_del_absent _ _ hg, List.length_cons]
    have : subs [Pend.ev (.new c.peer)] = 0 := rfl
    omega
  bal := by
    intro q
    have h1 := h.bal q
    simp only [Peers.withHandlers, Peers.addVacant, news_append, losts_append, get_put]
    have hl : losts q [Pend.ev (.new c.peer)] = 0 := by simp [losts]
    by_cases hq : q = c.peer
    · subst hq
      have hn : news c.peer [Pend.ev (.new c.peer)] = 1 := by simp [news]
      rw [hg] at h1
      simp only [Option.isSome_none, Bool.false_eq_true, if_false] at h1
      simp only [if_true, Option.isSome_some]
      omega
    · have hn : news q [Pend.ev (.new c.peer)] = 0 := by simp [news, Ne.symm hq]
      simp only [hq, if_false]
      omega
  known := by
    intro q d hq
    rw [offered_add]
    simp only [Peers.withHandlers, Peers.addVacant, get_put] at hq
    split at hq
    · rw [← Option.some.inj hq]; simp
    · exact List.mem_append_left _ (h.known q d hq)
  handled := by
    intro q d hq
    simp only [Peers.withHandlers, Peers.addVacant, get_put] at hq ⊢
    split at hq
    · rw [← Option.some.inj hq]; simp
    · exact List.mem_append_left _ (h.handled q d hq)
  fate := by
    intro d hd
    rw [offered_add, List.mem_append, List.mem_singleton] at hd
    simp only [Peers.withHandlers, Peers.addVacant, get_put]
    rcases hd with hd | hd
    · rcases h.fate d hd with h1 | h1
      · left
        have : d.peer ≠ c.peer := by intro e; rw [e, hg] at h1; simp at h1
        simp [this, h1]
      · exact .inr h1
    · subst hd; simp
  closed := by
    intro i hi
    rw [offered_add]
    obtain ⟨d, hd, he⟩ := h.closed i hi
    exact ⟨d, List.mem_append_left _ hd, he⟩
  live := by
    intro hn q d hq
    rw [offered_add] at hn
    have hf := fresh_of_nodup hn
    simp only [Peers.withHandlers, Peers.addVacant, get_put] at hq ⊢
    split at hq
    · rw [← Option.some.inj hq]
      intro hc
      obtain ⟨x, hx, he⟩ := h.closed _ hc
      exact hf.2 x hx he
    · exact h.live hf.1 q d hq

theorem inv_over {l : List Op} {s : Peers} (h : Inv l s) (c old : Conn) (hg : get s.conns c.peer = some old) :
    Inv (l ++ [.add c]) ((s.addOver old c).withHandlers (s.handlers ++ [c])) where
  uniq := uniq_put s.conns c.peer c h.uniq
  own := by
    intro q d hq
    simp only [Peers.withHandlers, Peers.addOver, get_put] at hq
    split at hq
    · rename_i e; rw [← Option.some.inj hq, e]
    · exact h.own q d hq
  len := by
    have h1 := h.len
    have h2 := length_del_present s.conns h.uniq c.peer old hg
    simp only [Peers.withHandlers, Peers.addOver, subs_append, put, List.length_cons]
    have : subs [Pend.ev (.new c.peer)] = 0 := rfl
    omega
  bal := by
    intro q
    have h1 := h.bal q
    simp only [Peers.withHandlers, Peers.addOver, news_append, losts_append, get_put, List.count_append,
      List.count_singleton]
    have hl : losts q [Pend.ev (.new c.peer)] = 0 := by simp [losts]
    by_cases hq : q = c.peer
    · subst hq
      have hn : news c.peer [Pend.ev (.new c.peer)] = 1 := by simp [news]
      rw [hg] at h1
      simp only [Option.isSome_some, if_true] at h1
      simp
      omega
    · have hn : news q [Pend.ev (.new c.peer)] = 0 := by simp [news, Ne.symm hq]
      simp [hq, Ne.symm hq]
      omega
  known := by
    intro q d hq
    rw [offered_add]
    simp only [Peers.withHandlers, Peers.addOver, get_put] at hq
    split at hq
    · rw [← Option.some.inj hq]; simp
    · exact List.mem_append_left _ (h.known q d hq)
  handled := by
    intro q d hq
    simp only [Peers.withHandlers, Peers.addOver, get_put] at hq ⊢
    split at hq
    · rw [← Option.some.inj hq]; simp
    · exact List.mem_append_left _ (h.handled q d hq)
  fate := by
    intro d hd
    rw [offered_add, List.mem_append, List.mem_singleton] at hd
    simp only [Peers.withHandlers, Peers.addOver, get_put, List.mem_append, List.mem_singleton]
    rcases hd with hd | hd
    · rcases h.fate d hd with h1 | h1
      · by_cases hp : d.peer = c.peer
        · rw [hp, hg] at h1
          right; right; rw [Option.some.inj h1]
        · left; simp [hp, h1]
      · exact .inr (.inl h1)
    · subst hd; simp
  closed := by
    intro i hi
    rw [offered_add]
    simp only [Peers.withHandlers, Peers.addOver, List.mem_append, List.mem_singleton] at hi
    rcases hi with hi | hi
    · obtain ⟨d, hd, he⟩ := h.closed i hi
      exact ⟨d, List.mem_append_left _ hd, he⟩
    · exact ⟨old, List.mem_append_left _ (h.known _ _ hg), hi.symm⟩
  live := by
    intro hn q d hq
    rw [offered_add] at hn
    have hf := fresh_of_nodup hn
    simp only [Peers.withHandlers, Peers.addOver, get_put, List.mem_append, List.mem_singleton, not_or] at hq ⊢
    split at hq
    · rw [← Option.some.inj hq]
      refine ⟨fun hc => ?_, fun e => hf.2 old (h.known _ _ hg) e.symm⟩
      obtain ⟨x, hx, he⟩ := h.closed _ hc
      exact hf.2 x hx he
    · rename_i hqp
      refine ⟨h.live hf.1 q d hq, fun e => ?_⟩
      have := List.inj_on_of_nodup_map hf.1 (h.known q d hq) (h.known _ old hg) e
      subst this
      exact hqp ((h.own q d hq).symm.trans (h.own _ d hg))

theorem inv_under {l : List Op} {s : Peers} (h : Inv l s) (c old : Conn) (hg : get s.conns c.peer = some old) :
    Inv (l ++ [.add c]) (s.addUnder c) where
  uniq := h.uniq
  own := h.own
  len := h.len
  bal := h.bal
  known := fun q d hq => by rw [offered_add]; exact List.mem_append_left _ (h.known q d hq)
  handled := h.handled
  fate := by
    intro d hd
    rw [offered_add, List.mem_append, List.mem_singleton] at hd
    simp only [Peers.addUnder, List.mem_append, List.mem_singleton]
    rcases hd with hd | hd
    · exact (h.fate d hd).imp id .inl
    · subst hd; simp
  closed := by
    intro i hi
    rw [offered_add]
    simp only [Peers.addUnder, List.mem_append, List.mem_singleton] at hi
    rcases hi with hi | hi
    · obtain ⟨d, hd, he⟩ := h.closed i hi
      exact ⟨d, List.mem_append_left _ hd, he⟩
    · exact ⟨c, by simp, hi.symm⟩
  live := by
    intro hn q d hq
    rw [offered_add] at hn
    have hf := fresh_of_nodup hn
    simp only [Peers.addUnder, List.mem_append, List.mem_singleton, not_or]
    exact ⟨h.live hf.1 q d hq, fun e => hf.2 d (h.known q d hq) e⟩

theorem inv_addPeer {l : List Op} {s : Peers} (h : Inv l s) (me : Nat) (c : Conn) :
    Inv (l ++ [.add c]) (s.addPeer me c) := by
  unfold Peers.addPeer Peers.add
  cases hg : get s.conns c.peer with
  | none => exact inv_vacant h c hg
  | some old =>
    simp only
    by_cases ht : tieBreak me c.peer old.dir c.dir = true
    · simp only [ht, if_true]
      exact inv_over h c old hg
    · simp only [ht, Bool.false_eq_true, if_false]
      exact inv_under h c old hg

theorem inv_step {l : List Op} {s : Peers} (h : Inv l s) (me : Nat) (o : Op) : Inv (l ++ [o]) (s.step me o) := by
  cases o with
  | add c => exact inv_addPeer h me c
  | remove p => exact inv_congr (inv_remove h p) (offered_other _ _ (by simp))
  | ended c => exact inv_congr (inv_ended h c) (offered_other _ _ (by simp))
  | tick i => exact inv_congr (inv_tick h i) (offered_other _ _ (by simp))

theorem run_snoc (me : Nat) (l : List Op) (o : Op) : Peers.run me (l ++ [o]) = (Peers.run me l).step me o := by
  unfold Peers.run; rw [List.foldl_append]; rfl

theorem inv_run (me : Nat) (l : List Op) : Inv l (Peers.run me l) := by
  induction l using List.reverseRecOn with
  | nil => exact inv_new
  | append_singleton l o ih => rw [run_snoc]; exact inv_step ih me o

end Tycho.ActivePeers
