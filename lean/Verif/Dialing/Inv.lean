import Verif.Dialing.Model
import Verif.ActivePeers.Inv
import Mathlib.Data.List.Nodup
import Mathlib.Data.List.Induction
/-! Invariants of the connection manager. -/
namespace Tycho.Dialing
open Tycho.Table Tycho.ActivePeers
open Tycho.Table (get)

/-! ### Callbacks in the table -/

/-- How often a callback is kept in the entries. -/
def kept (t : Table Nat Entry) (cb : Nat) : Nat := (t.flatMap (·.2.cbs)).count cb

/-- How often it is kept in the entry of an address. -/
def keptAt (t : Table Nat Entry) (a cb : Nat) : Nat := (get t a).elim 0 (fun e => e.cbs.count cb)

theorem kept_del (t : Table Nat Entry) (hu : Uniq t) (a cb : Nat) :
    kept (del t (fun x => decide (x = a))) cb + keptAt t a cb = kept t cb := by
  induction t with
  | nil => rfl
  | cons e t ih =>
    unfold Uniq at hu
    simp only [List.map_cons, List.nodup_cons] at hu
    unfold kept keptAt at *
    by_cases hk : e.1 = a
    · have hn : get t a = none := by
        cases hg : get t a with
        | none => rfl
        | some w => exact absurd (List.mem_map.2 ⟨_, mem_of_get t a w hg, rfl⟩) (hk ▸ hu.1)
      have h2 := length_del_absent t a hn
      unfold del at *
      rw [List.filter_cons_of_neg (by simp [hk]), h2]
      simp only [Table.get, hk, if_true, Option.elim, List.flatMap_cons, List.count_append]
      omega
    · have := ih hu.2
      unfold del at *
      rw [List.filter_cons_of_pos (by simp [hk])]
      simp only [Table.get, hk, if_false, List.flatMap_cons, List.count_append]
      simp only at this
      omega

theorem kept_put (t : Table Nat Entry) (hu : Uniq t) (a : Nat) (e : Entry) (cb : Nat) :
    kept (put t a e) cb + keptAt t a cb = kept t cb + e.cbs.count cb := by
  have := kept_del t hu a cb
  unfold put
  unfold kept at *
  simp only [List.flatMap_cons, List.count_append]
  omega

/-! ### The parts of the invariant -/

/-- Every entry has its own running task with its sequence number. -/
structure Tasked (pend : Table Nat Entry) (tasks : List Task) (next : Nat) : Prop where
  uniq : Uniq pend
  own : ∀ a e, get pend a = some e → ∃ t ∈ tasks, t.uid = e.task ∧ t.aborted = false ∧ t.addr = a ∧ t.seq = e.seq
  uids : (tasks.map (·.uid)).Nodup
  old : ∀ t ∈ tasks, t.uid < next

/-- Every delayed error has its expiration and the other way round. -/
structure Timers (c : Cfg) (now : Nat) (dl : List Delayed) (exps : List Exp) (next : Nat) : Prop where
  exps : exps = dl.map Delayed.exp
  keys : (dl.map (·.key)).Nodup
  old : ∀ d ∈ dl, d.key < next
  sorted : dl.Pairwise (fun a b => a.due ≤ b.due)
  horizon : ∀ d ∈ dl, d.due ≤ now + c.delay

/-- Every callback handed over is kept, delayed or answered, exactly once. -/
def Counted (pend : Table Nat Entry) (dl : List Delayed) (ans : List (Nat × Answer)) (asked : List (Nat × Nat)) : Prop :=
  ∀ cb, kept pend cb + (dl.flatMap (·.cbs)).count cb + (ans.map (·.1)).count cb = (asked.map (·.1)).count cb

/-- The dials of the check are callbacks of the manager. -/
structure Dials (dials : Table Nat Nat) (asked : List (Nat × Nat)) : Prop where
  uniq : Uniq dials
  asked : ∀ p cb, get dials p = some cb → (cb, p) ∈ asked

/-- The invariant. -/
structure Inv (c : Cfg) (s : St) : Prop where
  tasks : Tasked s.pending s.tasks s.nextTask
  timers : Timers c s.now s.delayed s.exps s.nextKey
  counted : Counted s.pending s.delayed s.answered s.asked
  dials : Dials s.dials s.asked
  calm : s.panic = false

theorem inv_new (c : Cfg) : Inv c St.new where
  tasks := ⟨uniq_nil, by intro a e h; simp [St.new, Table.get] at h, by simp [St.new], by simp [St.new]⟩
  timers := ⟨rfl, by simp [St.new], by simp [St.new], by simp [St.new], by simp [St.new]⟩
  counted := by intro cb; simp [St.new, kept]
  dials := ⟨uniq_nil, by intro a e h; simp [St.new, Table.get] at h⟩
  calm := rfl

/-! ### Answers -/

/-- A state whose count is short of the given callbacks. -/
def Short (s : St) (cbs : List Nat) : Prop :=
  ∀ cb, kept s.pending cb + (s.delayed.flatMap (·.cbs)).count cb + (s.answered.map (·.1)).count cb + cbs.count cb
    = (s.asked.map (·.1)).count cb

/-- The invariant but for the count, and the callbacks that are in hand. -/
structure InHand (c : Cfg) (s : St) (cbs : List Nat) : Prop where
  tasks : Tasked s.pending s.tasks s.nextTask
  timers : Timers c s.now s.delayed s.exps s.nextKey
  counted : Short s cbs
  dials : Dials s.dials s.asked
  calm : s.panic = false

theorem map_fst_answer (cbs : List Nat) (a : Answer) : (cbs.map (fun c => (c, a))).map (·.1) = cbs := by
  induction cbs with
  | nil => rfl
  | cons x l ih => simp only [List.map_cons, ih]

theorem inv_answer {c : Cfg} {s : St} {cbs : List Nat} (h : InHand c s cbs) (a : Answer) : Inv c (s.answer cbs a) where
  tasks := h.tasks
  timers := h.timers
  counted := by
    intro cb
    have := h.counted cb
    simp only [St.answer, List.map_append, map_fst_answer, List.count_append]
    omega
  dials := h.dials
  calm := h.calm

theorem inv_inHand {c : Cfg} {s : St} (h : Inv c s) : InHand c s [] where
  tasks := h.tasks
  timers := h.timers
  counted := by intro cb; have := h.counted cb; simpa using this
  dials := h.dials
  calm := h.calm

theorem inv_ask {c : Cfg} {s : St} (h : Inv c s) (p cb : Nat) : InHand c (s.ask p cb) [cb] where
  tasks := h.tasks
  timers := h.timers
  counted := by
    intro x
    have := h.counted x
    simp only [St.ask, List.map_append, List.map_cons, List.map_nil, List.count_append]
    omega
  dials := ⟨h.dials.uniq, fun p x hp => List.mem_append_left _ (h.dials.asked p x hp)⟩
  calm := h.calm

/-! ### Tasks -/

theorem task_of_uid {l : List Task} (h : (l.map (·.uid)).Nodup) {a b : Task} (ha : a ∈ l) (hb : b ∈ l)
    (e : a.uid = b.uid) : a = b := List.inj_on_of_nodup_map h ha hb e

theorem abort_uids (l : List Task) (u : Nat) :
    (l.map (fun t => if t.uid = u then { t with aborted := true } else t)).map (·.uid) = l.map (·.uid) := by
  induction l with
  | nil => rfl
  | cons x l ih =>
    simp only [List.map_cons, ih]
    split <;> rfl

/-- A task started over whatever entry the address has. -/
theorem tasked_spawn {pend : Table Nat Entry} {tasks : List Task} {next : Nat} (h : Tasked pend tasks next)
    (a p : Nat) (e : Entry) :
    Tasked (put pend a { e with task := next }) (tasks ++ [⟨next, a, p, e.seq, e.origin, false⟩]) (next + 1) where
  uniq := uniq_put _ _ _ h.uniq
  own := by
    intro b x hx
    rw [get_put] at hx
    split at hx
    · rename_i hb
      rw [← Option.some.inj hx, hb]
      exact ⟨⟨next, a, p, e.seq, e.origin, false⟩, by simp, rfl, rfl, rfl, rfl⟩
    · obtain ⟨t, ht, h1⟩ := h.own b x hx
      exact ⟨t, List.mem_append_left _ ht, h1⟩
  uids := by
    rw [List.map_append, List.nodup_append]
    refine ⟨h.uids, by simp, fun x hx y hy => ?_⟩
    simp only [List.map_cons, List.map_nil, List.mem_singleton] at hy
    obtain ⟨t, ht, e⟩ := List.mem_map.1 hx
    have := h.old t ht
    omega
  old := by
    intro t ht
    rcases List.mem_append.1 ht with h1 | h1
    · have := h.old t h1; omega
    · rw [List.mem_singleton.1 h1]; exact Nat.lt_succ_self _

/-- The task of an entry aborted and another one started. -/
theorem tasked_respawn {pend : Table Nat Entry} {tasks : List Task} {next : Nat} (h : Tasked pend tasks next)
    (a p : Nat) (e0 e : Entry) (h0 : get pend a = some e0) :
    Tasked (put pend a { e with task := next })
      (tasks.map (fun t => if t.uid = e0.task then { t with aborted := true } else t) ++
        [⟨next, a, p, e.seq, e.origin, false⟩]) (next + 1) where
  uniq := uniq_put _ _ _ h.uniq
  own := by
    intro b x hx
    rw [get_put] at hx
    split at hx
    · rename_i hb
      rw [← Option.some.inj hx, hb]
      exact ⟨⟨next, a, p, e.seq, e.origin, false⟩, by simp, rfl, rfl, rfl, rfl⟩
    · rename_i hb
      obtain ⟨t, ht, h1, h2, h3, h4⟩ := h.own b x hx
      obtain ⟨t0, ht0, g1, g2, g3, g4⟩ := h.own a e0 h0
      have hne : t.uid ≠ e0.task := by
        intro eq
        have := task_of_uid h.uids ht ht0 (eq.trans g1.symm)
        rw [this] at h3
        exact hb (h3.symm.trans g3)
      exact ⟨t, List.mem_append_left _ (List.mem_map.2 ⟨t, ht, by simp [hne]⟩), h1, h2, h3, h4⟩
  uids := by
    rw [List.map_append, abort_uids, List.nodup_append]
    refine ⟨h.uids, by simp, fun x hx y hy => ?_⟩
    simp only [List.map_cons, List.map_nil, List.mem_singleton] at hy
    obtain ⟨t, ht, e⟩ := List.mem_map.1 hx
    have := h.old t ht
    omega
  old := by
    intro t ht
    rcases List.mem_append.1 ht with h1 | h1
    · obtain ⟨t', ht', e⟩ := List.mem_map.1 h1
      have := h.old t' ht'
      have hu : t.uid = t'.uid := by rw [← e]; split <;> rfl
      omega
    · rw [List.mem_singleton.1 h1]; exact Nat.lt_succ_self _

theorem tasked_join {pend : Table Nat Entry} {tasks : List Task} {next : Nat} (h : Tasked pend tasks next)
    (a : Nat) (e : Entry) (cbs : List Nat) (h0 : get pend a = some e) :
    Tasked (put pend a { e with cbs := cbs }) tasks next where
  uniq := uniq_put _ _ _ h.uniq
  own := by
    intro b x hx
    rw [get_put] at hx
    split at hx
    · rename_i hb
      rw [← Option.some.inj hx, hb]
      exact h.own a e h0
    · exact h.own b x hx
  uids := h.uids
  old := h.old

theorem inv_spawn {c : Cfg} {s : St} {cbs : List Nat} (h : InHand c s cbs) (a p : Nat) (o : Dir) (e : Entry)
    (hn : get s.pending a = none) (he : e.cbs = cbs) : Inv c (s.spawn a p { e with origin := o }) where
  tasks := tasked_spawn h.tasks a p { e with origin := o }
  timers := h.timers
  counted := by
    intro cb
    have h1 := h.counted cb
    have h2 := kept_put s.pending h.tasks.uniq a { e with origin := o, task := s.nextTask } cb
    have h3 : keptAt s.pending a cb = 0 := by unfold keptAt; rw [hn]; rfl
    simp only [St.spawn]
    rw [← he] at h1
    simp only at h2
    omega
  dials := h.dials
  calm := h.calm

theorem inv_respawn {c : Cfg} {s : St} {cbs : List Nat} (h : InHand c s cbs) (a p : Nat) (e0 e : Entry)
    (hn : get s.pending a = some e0) (he : ∀ cb, e.cbs.count cb = e0.cbs.count cb + cbs.count cb) :
    Inv c ((s.abort e0.task).spawn a p e) where
  tasks := tasked_respawn h.tasks a p e0 e hn
  timers := h.timers
  counted := by
    intro cb
    have h1 := h.counted cb
    have h2 := kept_put s.pending h.tasks.uniq a { e with task := s.nextTask } cb
    have h3 : keptAt s.pending a cb = e0.cbs.count cb := by unfold keptAt; rw [hn]; rfl
    have h4 := he cb
    simp only [St.spawn, St.abort]
    simp only at h2
    omega
  dials := h.dials
  calm := h.calm

theorem inv_join {c : Cfg} {s : St} {cb : Nat} (h : InHand c s [cb]) (a : Nat) (e : Entry)
    (hn : get s.pending a = some e) : Inv c (s.join a e cb) where
  tasks := tasked_join h.tasks a e (e.cbs ++ [cb]) hn
  timers := h.timers
  counted := by
    intro x
    have h1 := h.counted x
    have h2 := kept_put s.pending h.tasks.uniq a { e with cbs := e.cbs ++ [cb] } x
    have h3 : keptAt s.pending a x = e.cbs.count x := by unfold keptAt; rw [hn]; rfl
    simp only [List.count_append] at h2
    simp only [St.join]
    omega
  dials := h.dials
  calm := h.calm

theorem inv_dial {c : Cfg} {s : St} (h : Inv c s) (a p cb : Nat) : Inv c (s.dial c a p cb) := by
  unfold St.dial
  split
  · exact inv_answer (inv_ask h p cb) _
  · unfold St.dialNew
    have hk := inv_ask h p cb
    split
    · rename_i hg
      exact inv_spawn hk a p .out ⟨0, .out, [cb], 0⟩ hg rfl
    · rename_i e hg
      unfold St.dialOver
      split
      · exact inv_respawn hk a p e ⟨e.seq + 1, .out, e.cbs ++ [cb], 0⟩ hg (fun x => by simp [List.count_append])
      · exact inv_join hk a e hg

theorem inv_reject {c : Cfg} {s : St} (h : Inv c s) (i : Nat) : Inv c { s with rejected := s.rejected ++ [i] } :=
  ⟨h.tasks, h.timers, h.counted, h.dials, h.calm⟩

theorem inv_incoming {c : Cfg} {s : St} (h : Inv c s) (a p i : Nat) (aff : Option Affinity) :
    Inv c (s.incoming c a p i aff) := by
  unfold St.incoming
  split
  · split
    · rename_i hg
      exact inv_spawn (inv_inHand h) a p .inb ⟨0, .inb, [], 0⟩ hg rfl
    · rename_i e hg
      unfold St.incomingOver
      split
      · exact inv_respawn (inv_inHand h) a p e ⟨e.seq + 1, .inb, e.cbs, 0⟩ hg (fun x => by simp)
      · exact inv_reject h i
  · exact inv_reject h i

end Tycho.Dialing
