import Verif.PeerSchedule.Model
import Mathlib.Tactic.ByContra
import Mathlib.Tactic.Tauto
/-!
The invariant of the peer schedule: what holds after every history of calls.
-/
namespace Tycho.PeerSchedule
open Tycho.Table

/-- Keys of a map. -/
abbrev keys {ν : Type} (t : Table Peer ν) : List Peer := t.map (·.1)

theorem hasKey_iff (t : Table Peer Bool) (p : Peer) : hasKey t p = true ↔ p ∈ keys t := by
  induction t with
  | nil => simp [hasKey, Table.get]
  | cons e t ih =>
    simp only [hasKey, Table.get, keys, List.map_cons, List.mem_cons] at ih ⊢
    by_cases h : e.1 = p
    · simp [h]
    · rw [if_neg h, ih]
      constructor
      · exact fun h => Or.inr h
      · rintro (h' | h')
        · exact absurd h'.symm h
        · exact h'

@[simp] theorem keys_setIn (t : Table Peer Bool) (p : Peer) (st : Bool) : keys (setIn t p st) = keys t := by
  induction t with
  | nil => rfl
  | cons e t ih =>
    simp only [setIn, keys, List.map_cons, List.map_map] at ih ⊢
    rw [ih]
    by_cases h : e.1 = p <;> simp [h]

@[simp] theorem keys_statesOf (ps r : List Peer) : keys (statesOf ps r) = ps := by
  simp [keys, statesOf, List.map_map, Function.comp_def]

theorem get_setIn (t : Table Peer Bool) (p q : Peer) (st : Bool) :
    Table.get (setIn t p st) q = if q = p then (Table.get t q).map (fun _ => st) else Table.get t q := by
  induction t with
  | nil => simp [setIn, Table.get]
  | cons e t ih =>
    have hc : setIn (e :: t) p st = (if e.1 = p then (e.1, st) else e) :: setIn t p st := rfl
    rw [hc]
    by_cases h : e.1 = p
    · rw [if_pos h]
      simp only [Table.get]
      by_cases hq : q = p
      · subst hq; simp [h]
      · have : ¬ e.1 = q := fun e1 => hq (e1.symm.trans h)
        rw [if_neg this, if_neg this, ih, if_neg hq]
    · rw [if_neg h]
      simp only [Table.get]
      by_cases hq : q = p
      · subst hq; rw [if_neg h, if_neg h, ih]
      · rw [ih]; simp [hq]

theorem get_statesOf (ps r : List Peer) (p : Peer) :
    Table.get (statesOf ps r) p = if p ∈ ps then some (r.contains p) else none := by
  induction ps with
  | nil => simp [statesOf, Table.get]
  | cons q ps ih =>
    have hc : statesOf (q :: ps) r = (q, r.contains q) :: statesOf ps r := rfl
    rw [hc, Table.get]
    by_cases h : q = p
    · simp [h]
    · rw [if_neg h, ih]
      have : ¬ p = q := fun e => h e.symm
      simp [this]

theorem mem_removeEntry (l : List Peer) (p q : Peer) : q ∈ removeEntry l p ↔ q ∈ l ∧ q ≠ p := by
  simp [removeEntry]

theorem mem_insertEntry (l : List Peer) (p q : Peer) : q ∈ insertEntry l p ↔ q = p ∨ q ∈ l := by
  unfold insertEntry
  by_cases h : l.contains p = true
  · rw [if_pos h]
    have : p ∈ l := by simpa using h
    constructor
    · exact Or.inr
    · rintro (rfl | h') <;> assumption
  · rw [if_neg h]; simp

theorem mem_foldl_remove (ps l : List Peer) (q : Peer) : q ∈ ps.foldl removeEntry l ↔ q ∈ l ∧ q ∉ ps := by
  induction ps generalizing l with
  | nil => simp
  | cons p ps ih => rw [List.foldl_cons, ih, mem_removeEntry]; simp [and_assoc]

theorem mem_foldl_insert (ps l : List Peer) (q : Peer) : q ∈ ps.foldl insertEntry l ↔ q ∈ l ∨ q ∈ ps := by
  induction ps generalizing l with
  | nil => simp
  | cons p ps ih =>
    rw [List.foldl_cons, ih, mem_insertEntry]
    simp only [List.mem_cons]
    tauto

theorem inAnyVset_iff (d : Stateful) (p : Peer) :
    d.inAnyVset p = true ↔ p ∈ keys d.vset.oldest ∨ p ∈ keys d.vset.prev ∨ p ∈ keys d.vset.curr ∨ p ∈ keys d.vset.next := by
  simp only [Stateful.inAnyVset, Bool.or_eq_true, hasKey_iff, or_assoc]

/-- What holds of one published snapshot. -/
structure SnapOk (a : Stateless) : Prop where
  setOldest : a.sets.oldest = a.vecs.oldest
  setPrev : a.sets.prev = a.vecs.prev
  setCurr : a.sets.curr = a.vecs.curr
  setNext : a.sets.next = a.vecs.next
  future : ∀ n, a.starts.next = some n → a.starts.curr < n
  noNext : a.starts.next = none → a.vecs.next = []
  op : a.starts.oldest ≤ a.starts.prev
  pc : a.starts.prev ≤ a.starts.curr

/-- What holds of the schedule between calls. -/
structure Inv (s : Sched) : Prop where
  snap : SnapOk s.atomic
  loc : s.atomic.localId = s.localId
  starts : s.data.starts = s.atomic.starts
  actOldest : keys s.data.active.oldest = s.atomic.vecs.oldest
  actPrev : keys s.data.active.prev = s.atomic.vecs.prev
  actCurr : keys s.data.active.curr = s.atomic.vecs.curr
  actNext : keys s.data.active.next = s.atomic.vecs.next
  ban : ∀ p, p ∈ s.atomic.banned ↔ p ∈ s.banned
  ent : ∀ p, p ∈ s.entries ↔ s.data.inAnyVset p = true ∧ p ∉ s.banned
  pub : ∀ a ∈ s.published, SnapOk a ∧ a.localId = s.localId
  top : s.published.head? = some s.atomic

theorem SnapOk.new (l : Peer) : SnapOk (.new l) := by
  constructor <;> simp [Stateless.new, EpochStarts.init]

theorem Inv.new (l : Peer) : Inv (.new l) := by
  constructor
  · exact SnapOk.new l
  all_goals try rfl
  · intro p; simp [Sched.new, Stateless.new]
  · intro p; simp [Sched.new, Stateful.new, Stateful.inAnyVset, hasKey, Table.get]
  · intro a ha
    simp only [Sched.new, List.mem_singleton] at ha
    subst ha
    exact ⟨SnapOk.new l, rfl⟩

/-- Only the parts named are read by the invariant. -/
theorem Inv.congr {s s' : Sched} (h : Inv s) (h1 : s'.atomic = s.atomic) (h2 : s'.localId = s.localId)
    (h3 : s'.data.starts = s.data.starts) (h4 : s'.data.active = s.data.active) (h5 : s'.banned = s.banned)
    (h6 : s'.entries = s.entries) (h7 : s'.data.vset = s.data.vset) (h8 : s'.published = s.published) : Inv s' := by
  have hv : ∀ p, s'.data.inAnyVset p = s.data.inAnyVset p := by intro p; simp only [Stateful.inAnyVset, h7]
  constructor
  · rw [h1]; exact h.snap
  · rw [h1, h2]; exact h.loc
  · rw [h1, h3]; exact h.starts
  · rw [h1, h4]; exact h.actOldest
  · rw [h1, h4]; exact h.actPrev
  · rw [h1, h4]; exact h.actCurr
  · rw [h1, h4]; exact h.actNext
  · intro p; rw [h1, h5]; exact h.ban p
  · intro p; rw [h6, hv, h5]; exact h.ent p
  · rw [h8, h2]; exact h.pub
  · rw [h1, h8]; exact h.top

theorem inv_restart {s : Sched} (h : Inv s) : Inv s.restart :=
  h.congr rfl rfl rfl rfl rfl rfl rfl rfl

theorem setState_starts (d : Stateful) (p : Peer) (st : Bool) : (d.setState p st).1.starts = d.starts := by
  unfold Stateful.setState; split <;> rfl

theorem setState_vset (d : Stateful) (p : Peer) (st : Bool) :
    (d.setState p st).1.vset = (d.setMaps p st).vset := by
  unfold Stateful.setState; split <;> rfl

theorem setState_active (d : Stateful) (p : Peer) (st : Bool) :
    (d.setState p st).1.active = (d.setMaps p st).active := by
  unfold Stateful.setState; split <;> rfl

theorem setState_any (d : Stateful) (p q : Peer) (st : Bool) :
    (d.setState p st).1.inAnyVset q = d.inAnyVset q := by
  rw [Bool.eq_iff_iff, inAnyVset_iff, inAnyVset_iff, setState_vset]
  simp only [Stateful.setMaps, keys_setIn]

/-- The parts of the invariant a loop over banned peers keeps. -/
structure Inv0 (s : Sched) : Prop where
  snap : SnapOk s.atomic
  loc : s.atomic.localId = s.localId
  starts : s.data.starts = s.atomic.starts
  actOldest : keys s.data.active.oldest = s.atomic.vecs.oldest
  actPrev : keys s.data.active.prev = s.atomic.vecs.prev
  actCurr : keys s.data.active.curr = s.atomic.vecs.curr
  actNext : keys s.data.active.next = s.atomic.vecs.next
  ent : ∀ p, p ∈ s.entries ↔ s.data.inAnyVset p = true ∧ p ∉ s.banned
  pub : ∀ a ∈ s.published, SnapOk a ∧ a.localId = s.localId
  top : s.published.head? = some s.atomic

theorem Inv.to0 {s : Sched} (h : Inv s) : Inv0 s :=
  ⟨h.snap, h.loc, h.starts, h.actOldest, h.actPrev, h.actCurr, h.actNext, h.ent, h.pub, h.top⟩

theorem Inv0.full {s : Sched} (h : Inv0 s) (hb : ∀ p, p ∈ s.atomic.banned ↔ p ∈ s.banned) : Inv s :=
  ⟨h.snap, h.loc, h.starts, h.actOldest, h.actPrev, h.actCurr, h.actNext, hb, h.ent, h.pub, h.top⟩

theorem inv0_change {s : Sched} (h : Inv0 s) (p : Peer) (st : Bool) : Inv0 (s.change p st) := by
  constructor
  · exact h.snap
  · exact h.loc
  · simp only [Sched.change, setState_starts]; exact h.starts
  · simp only [Sched.change, setState_active, Stateful.setMaps, keys_setIn]; exact h.actOldest
  · simp only [Sched.change, setState_active, Stateful.setMaps, keys_setIn]; exact h.actPrev
  · simp only [Sched.change, setState_active, Stateful.setMaps, keys_setIn]; exact h.actCurr
  · simp only [Sched.change, setState_active, Stateful.setMaps, keys_setIn]; exact h.actNext
  · intro q; simp only [Sched.change, setState_any]; exact h.ent q
  · exact h.pub
  · exact h.top

theorem inv_change {s : Sched} (h : Inv s) (p : Peer) (st : Bool) : Inv (s.change p st) :=
  (inv0_change h.to0 p st).full h.ban

theorem Inv0.withBan {s : Sched} (h : Inv0 s) (b e : List Peer)
    (he : ∀ p, p ∈ e ↔ s.data.inAnyVset p = true ∧ p ∉ b) : Inv0 { s with banned := b, entries := e } :=
  ⟨h.snap, h.loc, h.starts, h.actOldest, h.actPrev, h.actCurr, h.actNext, he, h.pub, h.top⟩

theorem inv0_banOne {s : Sched} (h : Inv0 s) (p : Peer) : Inv0 (s.banOne p) := by
  have hw : Inv0 { s with banned := p :: s.banned, entries := removeEntry s.entries p } := by
    apply h.withBan
    intro q
    rw [mem_removeEntry, h.ent]
    simp only [List.mem_cons, not_or]
    tauto
  unfold Sched.banOne
  split
  · exact inv0_change hw p false
  · exact hw

theorem inv0_unbanOne {s : Sched} (h : Inv0 s) (p : Peer) : Inv0 (s.unbanOne p) := by
  unfold Sched.unbanOne
  by_cases hv : s.data.inAnyVset p = true
  · rw [if_pos hv]
    have hw : Inv0 { s with banned := removeEntry s.banned p, entries := insertEntry s.entries p } := by
      apply h.withBan
      intro q
      rw [mem_insertEntry, h.ent, mem_removeEntry]
      by_cases hq : q = p
      · subst hq; simp [hv]
      · simp [hq]
    split
    · exact inv0_change hw p true
    · exact hw
  · rw [if_neg hv]
    have hw : Inv0 { s with banned := removeEntry s.banned p, entries := s.entries } := by
      apply h.withBan
      intro q
      rw [h.ent, mem_removeEntry]
      by_cases hq : q = p
      · subst hq; simp [hv]
      · simp [hq]
    exact hw

theorem banOne_atomic (s : Sched) (p : Peer) : (s.banOne p).atomic = s.atomic := by
  unfold Sched.banOne; split <;> rfl
theorem unbanOne_atomic (s : Sched) (p : Peer) : (s.unbanOne p).atomic = s.atomic := by
  unfold Sched.unbanOne; split
  · split <;> rfl
  · rfl
theorem banOne_banned (s : Sched) (p : Peer) : (s.banOne p).banned = p :: s.banned := by
  unfold Sched.banOne; split <;> rfl
theorem unbanOne_banned (s : Sched) (p : Peer) : (s.unbanOne p).banned = removeEntry s.banned p := by
  unfold Sched.unbanOne; split
  · split <;> rfl
  · rfl

theorem banLoop_ok (ps : List Peer) : ∀ (s : Sched), Inv0 s →
    Inv0 (s.banLoop ps).1 ∧ (s.banLoop ps).1.atomic = s.atomic ∧
      ∀ p, p ∈ (s.banLoop ps).1.banned ↔ p ∈ ps ∨ p ∈ s.banned := by
  induction ps with
  | nil => intro s h; exact ⟨h, rfl, by simp [Sched.banLoop]⟩
  | cons q ps ih =>
    intro s h
    obtain ⟨i1, i2, i3⟩ := ih (s.banOne q) (inv0_banOne h q)
    refine ⟨i1, i2.trans (banOne_atomic s q), ?_⟩
    intro p
    simp only [Sched.banLoop]
    rw [i3, banOne_banned]
    simp only [List.mem_cons]; tauto

theorem unbanLoop_ok (ps : List Peer) : ∀ (s : Sched), Inv0 s →
    Inv0 (s.unbanLoop ps).1 ∧ (s.unbanLoop ps).1.atomic = s.atomic ∧
      ∀ p, p ∈ (s.unbanLoop ps).1.banned ↔ p ∈ s.banned ∧ p ∉ ps := by
  induction ps with
  | nil => intro s h; exact ⟨h, rfl, by simp [Sched.unbanLoop]⟩
  | cons q ps ih =>
    intro s h
    obtain ⟨i1, i2, i3⟩ := ih (s.unbanOne q) (inv0_unbanOne h q)
    refine ⟨i1, i2.trans (unbanOne_atomic s q), ?_⟩
    intro p
    simp only [Sched.unbanLoop]
    rw [i3, unbanOne_banned, mem_removeEntry]
    simp only [List.mem_cons]; tauto

/-- A snapshot with other bans. -/
theorem SnapOk.withBan {a : Stateless} (h : SnapOk a) (b : List Peer) : SnapOk { a with banned := b } :=
  ⟨h.setOldest, h.setPrev, h.setCurr, h.setNext, h.future, h.noNext, h.op, h.pc⟩

theorem Inv0.pubBan {s : Sched} (h : Inv0 s) (b : List Peer) (hb : ∀ p, p ∈ b ↔ p ∈ s.banned) :
    Inv (s.publish { s.atomic with banned := b }) := by
  constructor
  · exact h.snap.withBan b
  · exact h.loc
  · exact h.starts
  · exact h.actOldest
  · exact h.actPrev
  · exact h.actCurr
  · exact h.actNext
  · exact hb
  · exact h.ent
  · intro a ha
    simp only [Sched.publish, List.mem_cons] at ha
    rcases ha with rfl | ha
    · exact ⟨h.snap.withBan b, h.loc⟩
    · exact h.pub a ha
  · rfl

theorem inv0_restart {s : Sched} (h : Inv0 s) : Inv0 s.restart :=
  ⟨h.snap, h.loc, h.starts, h.actOldest, h.actPrev, h.actCurr, h.actNext, h.ent, h.pub, h.top⟩

theorem inv_setBanned {s : Sched} (h : Inv s) (ps : List Peer) : Inv (s.setBanned ps) := by
  unfold Sched.setBanned
  split
  · exact h
  · obtain ⟨i1, i2, i3⟩ := banLoop_ok ps s h.to0
    have h0 : Inv0 (s.setBannedLocked ps) ∧ (s.setBannedLocked ps).atomic = s.atomic ∧
        (s.setBannedLocked ps).banned = (s.banLoop ps).1.banned := by
      unfold Sched.setBannedLocked
      split
      · exact ⟨inv0_restart i1, i2, rfl⟩
      · exact ⟨i1, i2, rfl⟩
    apply h0.1.pubBan
    intro p
    rw [h0.2.2, i3, h0.2.1, List.mem_append, h.ban]

theorem inv_removeBans {s : Sched} (h : Inv s) (ps : List Peer) : Inv (s.removeBans ps) := by
  unfold Sched.removeBans
  split
  · exact h
  · obtain ⟨i1, i2, i3⟩ := unbanLoop_ok ps s h.to0
    have h0 : Inv0 (s.removeBansLocked ps) ∧ (s.removeBansLocked ps).atomic = s.atomic ∧
        (s.removeBansLocked ps).banned = (s.unbanLoop ps).1.banned := by
      unfold Sched.removeBansLocked
      split
      · exact ⟨inv0_restart i1, i2, rfl⟩
      · exact ⟨i1, i2, rfl⟩
    apply h0.1.pubBan
    intro p
    rw [h0.2.2, i3, h0.2.1, List.mem_filter, h.ban]
    simp

theorem mem_forgetNext (d : Stateful) (new : Table Peer Bool) (p : Peer) :
    p ∈ d.forgetNext new ↔ p ∈ keys d.vset.next ∧ p ∉ keys d.vset.oldest ∧ p ∉ keys d.vset.prev ∧
      p ∉ keys d.vset.curr ∧ p ∉ keys new := by
  simp only [Stateful.forgetNext, List.mem_filter, Bool.not_eq_true', Bool.or_eq_false_iff]
  simp only [← Bool.not_eq_true, hasKey_iff, and_assoc]

theorem mem_newEntries (s : Sched) (vset : List Peer) (p : Peer) :
    p ∈ s.newEntries vset ↔ p ∈ s.entries ∨ (p ∈ vset ∧ p ∉ s.banned) := by
  simp [Sched.newEntries, mem_foldl_insert]

theorem inv_setNextSet {s : Sched} (h : Inv s) (vset : List Peer) : Inv (s.setNextSet vset) := by
  apply inv_restart
  constructor
  · exact h.snap
  · exact h.loc
  · exact h.starts
  · exact h.actOldest
  · exact h.actPrev
  · exact h.actCurr
  · exact h.actNext
  · exact h.ban
  · intro p
    rw [inAnyVset_iff]
    simp only [Stateful.setNextVset, mem_foldl_remove, mem_newEntries, mem_forgetNext, keys_statesOf, h.ent p,
      inAnyVset_iff]
    by_cases hb : p ∈ s.banned <;> simp only [hb, not_true, not_false_iff, and_false, and_true, false_and, or_false]
    tauto
  · exact h.pub
  · exact h.top

theorem setNextSet_atomic (s : Sched) (vset : List Peer) : (s.setNextSet vset).atomic = s.atomic := rfl
theorem setNextSet_published (s : Sched) (vset : List Peer) : (s.setNextSet vset).published = s.published := rfl
theorem setNextSet_starts (s : Sched) (vset : List Peer) : (s.setNextSet vset).data.starts = s.data.starts := rfl

theorem SnapOk.setNext' {a : Stateless} (h : SnapOk a) (start : Round) (sub : List (Peer × Nat))
    (hs : a.starts.curr < start) : SnapOk (a.setNextPeers start sub) := by
  constructor
  · exact h.setOldest
  · exact h.setPrev
  · exact h.setCurr
  · rfl
  · intro n hn; injection hn with hn; subst hn; exact hs
  · intro hn; cases hn
  · exact h.op
  · exact h.pc

theorem inv_setNextSubset {s : Sched} (h : Inv s) (vset : List Peer) (start : Round) (sub : List (Peer × Nat)) :
    Inv (s.setNextSubset vset start sub) := by
  unfold Sched.setNextSubset
  by_cases hc : start ≤ s.data.starts.curr ∨ sub.isEmpty
  · rw [if_pos hc]; exact h
  · rw [if_neg hc]
    have hlt : s.atomic.starts.curr < start := by
      rw [← h.starts]
      by_contra hn
      exact hc (Or.inl (Nat.le_of_not_lt hn))
    have h1 := inv_setNextSet h vset
    have hok : SnapOk (s.atomic.setNextPeers start sub) := h.snap.setNext' start sub hlt
    constructor
    · exact hok
    · exact h.loc
    · change { (s.setNextSet vset).data.starts with next := some start } = { s.atomic.starts with next := some start }
      rw [h1.starts]; rfl
    · exact h1.actOldest
    · exact h1.actPrev
    · exact h1.actCurr
    · change keys (statesOf (sub.map (·.1)) _) = sub.map (·.1)
      rw [keys_statesOf]
    · exact h1.ban
    · exact h1.ent
    · intro a ha
      rcases List.mem_cons.1 ha with rfl | ha
      · exact ⟨hok, h.loc⟩
      · exact h.pub a ha
    · rfl

theorem mem_onlyOldest (d : Stateful) (p : Peer) :
    p ∈ keys d.onlyOldest ↔ p ∈ keys d.vset.oldest ∧ p ∉ keys d.vset.prev ∧ p ∉ keys d.vset.curr ∧
      p ∉ keys d.vset.next := by
  have hk : ∀ (t : Table Peer Bool), hasKey t p = false ↔ p ∉ keys t := by
    intro t; rw [← Bool.not_eq_true, hasKey_iff]
  rw [← hk, ← hk, ← hk]
  simp only [Stateful.onlyOldest, keys, List.mem_map, List.mem_filter, Bool.and_eq_true, Bool.not_eq_true']
  constructor
  · rintro ⟨e, ⟨he, ⟨h1, h2⟩, h3⟩, rfl⟩
    exact ⟨⟨e, he, rfl⟩, h1, h2, h3⟩
  · rintro ⟨⟨e, he, rfl⟩, h1, h2, h3⟩
    exact ⟨e, ⟨he, ⟨h1, h2⟩, h3⟩, rfl⟩

/-- The snapshot after a rotation to an epoch that starts at `n`. -/
def Stateless.rotated (a : Stateless) (n : Round) : Stateless :=
  ⟨a.localId, ⟨a.slots.prev, a.slots.curr, a.slots.next, []⟩, ⟨a.vecs.prev, a.vecs.curr, a.vecs.next, []⟩,
    ⟨a.sets.prev, a.sets.curr, a.sets.next, []⟩, a.banned, ⟨a.starts.prev, a.starts.curr, n, none⟩⟩

/-- The locked part after a rotation to an epoch that starts at `n`. -/
def Stateful.rotated (d : Stateful) (n : Round) : Stateful :=
  ⟨⟨d.vset.prev, d.vset.curr, d.vset.next, []⟩, ⟨d.active.prev, d.active.curr, d.active.next, []⟩,
    ⟨d.starts.prev, d.starts.curr, n, none⟩, d.forgetOldest.1.receivers, d.forgetOldest.1.allResolved,
    d.forgetOldest.1.toForget⟩

/-- The rotation always succeeds when something is scheduled, and gives exactly this. -/
theorem rotate_ok {s : Sched} (h : Inv s) (n : Round) (hn : s.data.starts.next = some n) :
    ∃ s', s.rotate = some s' ∧ Inv s' ∧ s'.atomic = s.atomic.rotated n ∧ s'.data = s.data.rotated n ∧
      s'.published = s'.atomic :: s.published ∧ s'.banned = s.banned ∧ s'.localId = s.localId ∧
      s'.resolved = s.resolved ∧ s'.sent = s.sent ∧ s'.popped = s.popped := by
  have hna : s.atomic.starts.next = some n := by rw [← h.starts]; exact hn
  have hlt := h.snap.future n hna
  have hr : s.atomic.starts.rotate = some ⟨s.atomic.starts.prev, s.atomic.starts.curr, n, none⟩ := by
    simp [EpochStarts.rotate, hna, hlt]
  have ha : s.atomic.forgetOldest.rotate = some (s.atomic.rotated n) := by
    unfold Stateless.rotate
    rw [if_pos (by simp [Stateless.forgetOldest])]
    have : s.atomic.forgetOldest.starts = s.atomic.starts := rfl
    rw [this, hr]
    rfl
  have hd : s.forgetOldest.data.rotate = some (s.data.rotated n) := by
    unfold Stateful.rotate
    rw [if_pos (by simp [Sched.forgetOldest, Sched.restart, Stateful.forgetOldest])]
    have : s.forgetOldest.data.starts = s.atomic.starts := h.starts
    rw [this, hr]
    simp only [Stateful.rotated, h.starts]
    rfl
  have hs : s.rotate = some (Sched.publish { s.forgetOldest with data := s.data.rotated n } (s.atomic.rotated n)) := by
    unfold Sched.rotate; rw [hd, ha]
  refine ⟨_, hs, ?_, rfl, rfl, rfl, rfl, rfl, rfl, rfl, rfl⟩
  have hok : SnapOk (s.atomic.rotated n) := by
    constructor
    · exact h.snap.setPrev
    · exact h.snap.setCurr
    · exact h.snap.setNext
    · rfl
    · intro m hm; cases hm
    · intro _; rfl
    · exact h.snap.pc
    · exact Nat.le_of_lt hlt
  constructor
  · exact hok
  · exact h.loc
  · change (⟨s.data.starts.prev, s.data.starts.curr, n, none⟩ : EpochStarts) = _
    rw [h.starts]; rfl
  · exact h.actPrev
  · exact h.actCurr
  · exact h.actNext
  · rfl
  · exact h.ban
  · intro p
    rw [inAnyVset_iff]
    have he : p ∈ (s.data.forgetOldest.2).foldl removeEntry s.entries ↔
        (p ∈ keys s.data.vset.prev ∨ p ∈ keys s.data.vset.curr ∨ p ∈ keys s.data.vset.next ∨
          p ∈ keys ([] : Table Peer Bool)) ∧ p ∉ s.banned := by
      rw [mem_foldl_remove, h.ent, inAnyVset_iff]
      have : p ∈ s.data.forgetOldest.2 ↔ p ∈ keys s.data.onlyOldest := Iff.rfl
      rw [this, mem_onlyOldest]
      simp only [keys, List.map_nil, List.not_mem_nil, or_false]
      by_cases hb : p ∈ s.banned <;> simp only [hb, not_true, not_false_iff, and_false, and_true, false_and]
      tauto
    exact he
  · intro a ha
    rcases List.mem_cons.1 ha with rfl | ha
    · exact ⟨hok, h.loc⟩
    · exact h.pub a ha
  · rfl

theorem inv_applyImpl {s : Sched} (h : Inv s) (c : Round) : ∃ s', s.applyImpl c = some s' ∧ Inv s' := by
  unfold Sched.applyImpl
  by_cases hy : s.data.starts.notYet c = true
  · rw [if_pos hy]; exact ⟨s, rfl, h⟩
  · rw [if_neg hy]
    cases hn : s.data.starts.next with
    | none => exact absurd (by simp [EpochStarts.notYet, hn]) hy
    | some n =>
      obtain ⟨s', h1, h2, _⟩ := rotate_ok h n hn
      exact ⟨s', h1, h2⟩

theorem inv_setCurr {s : Sched} (h : Inv s) (start : Round) (i : InitPeers) :
    ∃ s', s.setCurr start i = some s' ∧ Inv s' := by
  have h1 := inv_setNextSubset h i.currVset start i.currSub
  unfold Sched.setCurr
  split
  · exact ⟨_, rfl, h1⟩
  · obtain ⟨s2, e2, h2⟩ := inv_applyImpl h1 start
    rw [e2]
    exact ⟨_, rfl, inv_setNextSet h2 _⟩

theorem inv_setPeers {s : Sched} (h : Inv s) (i : InitPeers) : ∃ s', s.setPeers i = some s' ∧ Inv s' := by
  obtain ⟨s1, e1, h1⟩ := inv_applyImpl (inv_setNextSubset h i.prevVset i.prevStart i.prevSub) i.prevStart
  unfold Sched.setPeers
  rw [e1]
  exact inv_setCurr h1 _ _

theorem inv_initPrev {s : Sched} (h : Inv s) (g : Round) (i : InitPeers) :
    ∃ s', s.initPrev g i = some s' ∧ Inv s' := by
  unfold Sched.initPrev
  split
  · exact inv_applyImpl (inv_setNextSubset h _ _ _) _
  · exact ⟨s, rfl, h⟩

theorem inv_init {s : Sched} (h : Inv s) (g : Round) (au : Peer) (i : InitPeers) :
    ∃ s', s.init g au i = some s' ∧ Inv s' := by
  obtain ⟨s1, e1, h1⟩ := inv_applyImpl (inv_setNextSubset h [] (g - 1) [(au, 0)]) (g - 1)
  obtain ⟨s2, e2, h2⟩ := inv_initPrev h1 g i
  obtain ⟨s3, e3, h3⟩ := inv_setCurr h2 (max i.currStart (g + 1)) i
  refine ⟨s3.restart, ?_, inv_restart h3⟩
  simp only [Sched.init, e1, e2, e3]

theorem inv_applyResolved {s : Sched} (h : Inv s) (p : Peer) : Inv (s.applyResolved p) := by
  unfold Sched.applyResolved
  split
  · rename_i hb
    have hb' : p ∈ s.banned := by simpa using hb
    have h0 : Inv0 { s with banned := s.banned, entries := removeEntry s.entries p } := by
      apply h.to0.withBan
      intro q
      rw [mem_removeEntry, h.ent]
      constructor
      · exact fun h => h.1
      · exact fun hq => ⟨hq, fun e => hq.2 (e ▸ hb')⟩
    exact (h0.full h.ban).congr rfl rfl rfl rfl rfl rfl rfl rfl
  · have h1 : Inv { s with popped := s.popped.erase p } := h.congr rfl rfl rfl rfl rfl rfl rfl rfl
    exact inv_change h1 p true

/-- No step panics, and every step keeps the invariant. -/
theorem inv_act {s : Sched} (h : Inv s) (a : Act) : ∃ s', s.act a = some s' ∧ Inv s' := by
  cases a with
  | init g au i => exact inv_init h g au i
  | setPeers i => exact inv_setPeers h i
  | apply c =>
    simp only [Sched.act, Sched.apply]
    split
    · exact ⟨s, rfl, h⟩
    · exact inv_applyImpl h c
  | applyLate c => exact inv_applyImpl h c
  | ban ps => exact ⟨_, rfl, inv_setBanned h ps⟩
  | unban ps => exact ⟨_, rfl, inv_removeBans h ps⟩
  | takeForget => exact ⟨_, rfl, h.congr rfl rfl rfl rfl rfl rfl rfl rfl⟩
  | resolve p on =>
    refine ⟨_, rfl, ?_⟩
    split
    · exact h.congr rfl rfl rfl rfl rfl rfl rfl rfl
    · exact h
  | pop p =>
    refine ⟨_, rfl, ?_⟩
    split
    · exact h.congr rfl rfl rfl rfl rfl rfl rfl rfl
    · exact h
  | applyResolved p =>
    refine ⟨_, rfl, ?_⟩
    split
    · exact inv_applyResolved h p
    · exact h

theorem inv_run (as : List Act) : ∀ {s : Sched}, Inv s → ∃ s', s.run as = some s' ∧ Inv s' := by
  induction as with
  | nil => intro s h; exact ⟨s, rfl, h⟩
  | cons a as ih =>
    intro s h
    obtain ⟨s1, e1, h1⟩ := inv_act h a
    obtain ⟨s2, e2, h2⟩ := ih h1
    exact ⟨s2, by simp only [Sched.run, e1, e2], h2⟩

theorem inv_of_run {as : List Act} {s s' : Sched} (h : Inv s) (hr : s.run as = some s') : Inv s' := by
  obtain ⟨t, e, ht⟩ := inv_run as h
  rw [e] at hr; injection hr with hr; exact hr ▸ ht

end Tycho.PeerSchedule
