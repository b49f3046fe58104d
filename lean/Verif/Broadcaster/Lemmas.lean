import Mathlib.Data.List.Nodup
import Mathlib.Data.List.Perm.Basic
import Verif.Broadcaster.Spec

namespace Tycho.Broadcaster
open Tycho.Table

/-- The state after broadcasts to `l`. -/
def bcastAll (s : St) (l : List Nat) : St :=
  { s with inflight := (l.filter (· ∉ s.removed)).reverse ++ s.inflight,
           bcasts := (l.filter (· ∉ s.removed)).reverse ++ s.bcasts,
           sent := s.sent ++ (l.filter (· ∉ s.removed)).map .bcast }

/-- The state after requests of signatures to `l`. -/
def reqAll (c : Cfg) (s : St) (a : Bool) (l : List Nat) : St :=
  let m := l.filter (fun p => p ∉ s.removed ∧ p ∈ c.signers)
  { s with inflight := m.reverse ++ s.inflight,
           sigReqs := (m.map (·, a)).reverse ++ s.sigReqs,
           sent := s.sent ++ m.map .sig }

theorem broadcast_eq {c s p} (h : p ∉ s.inflight) : broadcast c s p = some (bcastAll s [p]) := by
  unfold broadcast bcastAll
  by_cases hr : p ∈ s.removed
  · simp [hr]
  · simp [hr, h]

theorem request_eq {c s a p} (h : p ∉ s.inflight) :
    requestSignature c s a p = some (reqAll c s a [p]) := by
  unfold requestSignature reqAll
  by_cases hr : p ∉ s.removed ∧ p ∈ c.signers
  · simp [hr, h]
  · rw [if_neg hr]; simp [hr]

theorem bcastAll_append (s : St) (l m : List Nat) :
    bcastAll (bcastAll s l) m = bcastAll s (l ++ m) := by
  simp [bcastAll]

theorem reqAll_append (c : Cfg) (s : St) (a : Bool) (l m : List Nat) :
    reqAll c (reqAll c s a l) a m = reqAll c s a (l ++ m) := by
  simp [reqAll]

theorem foldBroadcast {c : Cfg} (l : List Nat) : ∀ {s : St}, l.Nodup →
    (∀ p ∈ l, p ∉ s.inflight) → l.foldlM (broadcast c) s = some (bcastAll s l) := by
  induction l with
  | nil => intro s _ _; simp [bcastAll]
  | cons p l ih =>
    intro s hn hd
    rw [List.foldlM_cons, broadcast_eq (hd p (by simp))]
    simp only [Option.bind_eq_bind, Option.bind_some]
    rw [ih (List.nodup_cons.mp hn).2, bcastAll_append]; · rfl
    intro q hq hi
    have hne : q ≠ p := fun h => (List.nodup_cons.mp hn).1 (h ▸ hq)
    simp only [bcastAll, List.mem_append, List.mem_reverse, List.mem_filter, List.mem_singleton] at hi
    rcases hi with ⟨h1, _⟩ | h1
    · exact hne h1
    · exact hd q (by simp [hq]) h1

theorem foldRequest {c : Cfg} {a : Bool} (l : List Nat) : ∀ {s : St}, l.Nodup →
    (∀ p ∈ l, p ∉ s.inflight) →
    l.foldlM (fun t p => requestSignature c t a p) s = some (reqAll c s a l) := by
  induction l with
  | nil => intro s _ _; simp [reqAll]
  | cons p l ih =>
    intro s hn hd
    rw [List.foldlM_cons, request_eq (hd p (by simp))]
    simp only [Option.bind_eq_bind, Option.bind_some]
    rw [ih (List.nodup_cons.mp hn).2, reqAll_append]; · rfl
    intro q hq hi
    have hne : q ≠ p := fun h => (List.nodup_cons.mp hn).1 (h ▸ hq)
    simp only [reqAll, List.mem_append, List.mem_reverse, List.mem_filter, List.mem_singleton] at hi
    rcases hi with ⟨h1, _⟩ | h1
    · exact hne h1
    · exact hd q (by simp [hq]) h1

/-- What holds of the queries in every reachable state; the peers of `X` are being dealt with. -/
structure InvX (c : Cfg) (s : St) (X : List Nat) : Prop where
  perm : s.inflight.Perm (s.bcasts ++ s.sigReqs.map (·.1))
  nodup : s.inflight.Nodup
  qnd : s.sigPeers.Nodup
  disj : ∀ p ∈ s.sigPeers, p ∉ s.inflight
  rnd : s.removed.Nodup
  jnd : s.rejections.Nodup
  bnd : s.bcastPeers.Nodup
  idle : s.phase = .idle → s.inflight = [] ∧ s.sigPeers = []
  begun : s.phase ≠ .idle → s.bcastPeers = []
  uniq : GoodEvidence c s.sigs
  told : ∀ p ∈ c.signers, s.told p → p ∉ s.removed → p ∉ X →
    p ∈ s.inflight ∨ p ∈ s.sigPeers ∨ p ∈ s.rejections ∨ s.signed p

abbrev Inv (c : Cfg) (s : St) : Prop := InvX c s []

theorem inv_bcastAll {c s l} (h : InvX c s l) (hn : l.Nodup) (hd : ∀ p ∈ l, p ∉ s.inflight)
    (hq : ∀ p ∈ l, p ∉ s.sigPeers) (hi : s.phase ≠ .idle) : Inv c (bcastAll s l) := by
  obtain ⟨h1, h2, h3, h4, h5, h6, h7, h8, h9, h10, h11⟩ := h
  refine ⟨?_, ?_, h3, ?_, h5, h6, h7, fun e => absurd e hi, h9, h10, ?_⟩
  · simp only [bcastAll, List.append_assoc]; exact List.Perm.append_left _ h1
  · simp only [bcastAll]
    refine List.nodup_append.mpr ⟨by rw [List.nodup_reverse]; exact hn.filter _, h2, ?_⟩
    intro a ha b hb e; subst e
    simp only [List.mem_reverse, List.mem_filter] at ha
    exact hd a ha.1 hb
  · intro p hp hi'
    simp only [bcastAll, List.mem_append, List.mem_reverse, List.mem_filter] at hi'
    rcases hi' with ⟨h, _⟩ | h
    · exact hq p h hp
    · exact h4 p hp h
  · intro p hp ht hr _
    simp only [St.told, bcastAll, List.mem_append, List.mem_map, List.mem_filter] at ht
    rcases ht with ht | ⟨q, ⟨hq1, hq2⟩, e⟩
    · by_cases hpl : p ∈ l
      · exact .inl (by simp only [bcastAll, List.mem_append, List.mem_reverse, List.mem_filter]; exact .inl ⟨hpl, by simpa [bcastAll] using hr⟩)
      rcases h11 p hp ht hr hpl with h | h | h | h
      · exact .inl (by simp [bcastAll, h])
      · exact .inr (.inl h)
      · exact .inr (.inr (.inl h))
      · exact .inr (.inr (.inr h))
    · cases e
      exact .inl (by simp only [bcastAll, List.mem_append, List.mem_reverse, List.mem_filter]; exact .inl ⟨hq1, hq2⟩)

theorem map_fst_pair (l : List Nat) (a : Bool) : (l.map (·, a)).map (·.1) = l := by
  rw [List.map_map]; exact List.map_id _

/-- Requests to the peers of `l`, which held the only claim on being asked (`l` was the queue, or
the peer just answered). -/
theorem inv_reqAll {c s a l} (h : InvX c s l) (hn : l.Nodup) (hd : ∀ p ∈ l, p ∉ s.inflight)
    (hq : ∀ p ∈ l, p ∉ s.sigPeers) (hi : s.phase ≠ .idle) : Inv c (reqAll c s a l) := by
  obtain ⟨h1, h2, h3, h4, h5, h6, h7, h8, h9, h10, h11⟩ := h
  refine ⟨?_, ?_, h3, ?_, h5, h6, h7, fun e => absurd e hi, h9, h10, ?_⟩
  · simp only [reqAll, List.map_append, List.map_reverse, map_fst_pair]
    refine ((List.Perm.append_left _ h1).trans ?_)
    rw [← List.append_assoc, ← List.append_assoc]
    exact List.Perm.append_right _ List.perm_append_comm
  · simp only [reqAll]
    refine List.nodup_append.mpr ⟨by rw [List.nodup_reverse]; exact hn.filter _, h2, ?_⟩
    intro x hx b hb e; subst e
    simp only [List.mem_reverse, List.mem_filter] at hx
    exact hd x hx.1 hb
  · intro p hp hi'
    simp only [reqAll, List.mem_append, List.mem_reverse, List.mem_filter] at hi'
    rcases hi' with ⟨h, _⟩ | h
    · exact hq p h hp
    · exact h4 p hp h
  · intro p hp ht hr _
    simp only [St.told, reqAll, List.mem_append, List.mem_map, List.mem_filter] at ht
    rcases ht with ht | ⟨q, _, e⟩
    · by_cases hpl : p ∈ l
      · exact .inl (by simp only [reqAll, List.mem_append, List.mem_reverse, List.mem_filter]; exact .inl ⟨hpl, by simpa using ⟨hr, hp⟩⟩)
      rcases h11 p hp ht hr hpl with h | h | h | h
      · exact .inl (by simp [reqAll, h])
      · exact .inr (.inl h)
      · exact .inr (.inr (.inl h))
      · exact .inr (.inr (.inr h))
    · cases e

theorem nodup_insert {l : List Nat} {p : Nat} (h : l.Nodup) : (l.insert p).Nodup := by
  by_cases hp : p ∈ l
  · rwa [List.insert_of_mem hp]
  · rw [List.insert_of_not_mem hp]; exact List.nodup_cons.mpr ⟨hp, h⟩

theorem put_good {c : Cfg} {ev : Table Nat Nat} {p x} (h : GoodEvidence c ev) (hp : p ∈ c.signers)
    (hv : c.valid p x = true) : GoodEvidence c (put ev p x) := by
  refine ⟨?_, ?_⟩
  · simp only [put, List.map_cons, List.nodup_cons]
    refine ⟨?_, uniq_del _ _ h.1⟩
    intro hm
    obtain ⟨e, he, hk⟩ := List.mem_map.mp hm
    simp [del] at he
    exact he.2 hk
  · intro q y hq
    simp only [put, List.mem_cons, Prod.mk.injEq, del, List.mem_filter] at hq
    rcases hq with ⟨rfl, rfl⟩ | ⟨hq, _⟩
    · exact ⟨hp, hv⟩
    · exact h.2 q y hq

theorem mem_keys_put {t : Table Nat Nat} {p x q : Nat} :
    q ∈ (put t p x).map (·.1) ↔ q = p ∨ q ∈ t.map (·.1) := by
  simp only [put, List.map_cons, List.mem_cons, del, List.mem_map, List.mem_filter]
  constructor
  · rintro (h | ⟨e, ⟨he, _⟩, rfl⟩)
    · exact .inl h
    · exact .inr ⟨e, he, rfl⟩
  · rintro (h | ⟨e, he, rfl⟩)
    · exact .inl h
    · by_cases hk : e.1 = p
      · exact .inl hk
      · exact .inr ⟨e, ⟨he, by simpa using hk⟩, rfl⟩

theorem inv_new {c : Cfg} (hc : c.WF) : Inv c (new c) := by
  refine ⟨?_, ?_, ?_, ?_, ?_, ?_, hc.2, fun _ => ⟨rfl, rfl⟩, ?_, ?_, ?_⟩ <;> simp [new, GoodEvidence, St.told]

/-- The answer of a peer is taken out of flight. -/
theorem inv_answer {c s p} {bs : List Nat} {ss : List (Nat × Bool)} (h : Inv c s)
    (hp : s.inflight.Perm (p :: (bs ++ ss.map (·.1)))) :
    InvX c { s with bcasts := bs, sigReqs := ss, inflight := s.inflight.erase p } [p] ∧
      p ∈ s.inflight ∧ p ∉ s.inflight.erase p ∧ p ∉ s.sigPeers := by
  obtain ⟨h1, h2, h3, h4, h5, h6, h7, h8, h9, h10, h11⟩ := h
  have hm : p ∈ s.inflight := hp.mem_iff.mpr (by simp)
  have hq : ∀ q, q ∈ s.inflight.erase p ↔ q ≠ p ∧ q ∈ s.inflight := fun q => h2.mem_erase_iff
  refine ⟨⟨?_, h2.erase _, h3, ?_, h5, h6, h7, ?_, h9, h10, ?_⟩, hm, fun h => ((hq p).mp h).1 rfl,
    fun h => h4 p h hm⟩
  · have := hp.erase p
    rwa [List.erase_cons_head] at this
  · intro q hq1 hq2
    exact h4 q hq1 ((hq q).mp hq2).2
  · intro hi
    rw [(h8 hi).1] at hm; cases hm
  · intro q hqs ht hr hX
    rcases h11 q hqs ht hr (by simp) with h | h
    · exact .inl ((hq q).mpr ⟨by simpa using hX, h⟩)
    · exact .inr h

/-- The peer dealt with is put into the queue. -/
theorem inv_queue {c s p} (h : InvX c s [p]) (hi : p ∉ s.inflight) (hph : s.phase ≠ .idle) :
    Inv c { s with sigPeers := s.sigPeers.insert p } := by
  obtain ⟨h1, h2, h3, h4, h5, h6, h7, h8, h9, h10, h11⟩ := h
  refine ⟨h1, h2, nodup_insert h3, ?_, h5, h6, h7, fun e => absurd e hph, h9, h10, ?_⟩
  · intro q hq
    rcases List.mem_insert_iff.mp hq with rfl | hq
    · exact hi
    · exact h4 q hq
  · intro q hqs ht hr _
    by_cases hqp : q = p
    · exact .inr (.inl (List.mem_insert_iff.mpr (.inl hqp)))
    · rcases h11 q hqs ht hr (by simpa using hqp) with h | h | h | h
      · exact .inl h
      · exact .inr (.inl (List.mem_insert_iff.mpr (.inr h)))
      · exact .inr (.inr (.inl h))
      · exact .inr (.inr (.inr h))

theorem inv_reject {c s p} (h : InvX c s [p]) :
    Inv c { s with rejections := s.rejections.insert p } := by
  obtain ⟨h1, h2, h3, h4, h5, h6, h7, h8, h9, h10, h11⟩ := h
  refine ⟨h1, h2, h3, h4, h5, nodup_insert h6, h7, h8, h9, h10, ?_⟩
  intro q hqs ht hr _
  by_cases hqp : q = p
  · exact .inr (.inr (.inl (List.mem_insert_iff.mpr (.inl hqp))))
  · rcases h11 q hqs ht hr (by simpa using hqp) with h | h | h | h
    · exact .inl h
    · exact .inr (.inl h)
    · exact .inr (.inr (.inl (List.mem_insert_iff.mpr (.inr h))))
    · exact .inr (.inr (.inr h))

theorem inv_sign {c s p x} (h : InvX c s [p]) (hp : p ∈ c.signers) (hv : c.valid p x = true) :
    Inv c { s with sigs := put s.sigs p x } := by
  obtain ⟨h1, h2, h3, h4, h5, h6, h7, h8, h9, h10, h11⟩ := h
  refine ⟨h1, h2, h3, h4, h5, h6, h7, h8, h9, put_good h10 hp hv, ?_⟩
  intro q hqs ht hr _
  by_cases hqp : q = p
  · exact .inr (.inr (.inr (.inl (mem_keys_put.mpr (.inl hqp)))))
  · rcases h11 q hqs ht hr (by simpa using hqp) with h | h | h | h | h
    · exact .inl h
    · exact .inr (.inl h)
    · exact .inr (.inr (.inl h))
    · exact .inr (.inr (.inr (.inl (mem_keys_put.mpr (.inr h)))))
    · exact .inr (.inr (.inr (.inr h)))

theorem inv_ignore {c s p} (h : InvX c s [p]) (hp : p ∉ c.signers) : Inv c s := by
  obtain ⟨h1, h2, h3, h4, h5, h6, h7, h8, h9, h10, h11⟩ := h
  refine ⟨h1, h2, h3, h4, h5, h6, h7, h8, h9, h10, fun q hqs ht hr _ => h11 q hqs ht hr ?_⟩
  simp only [List.mem_singleton]; rintro rfl; exact hp hqs

theorem live_ne_idle {s : St} (h : s.live) : s.phase ≠ .idle := by
  intro e; rw [St.live, e] at h; exact h

theorem mem_singleton_ne {p : Nat} {P : Nat → Prop} (h : P p) : ∀ q ∈ [p], P q := by
  intro q hq; rw [List.mem_singleton.mp hq]; exact h

end Tycho.Broadcaster
