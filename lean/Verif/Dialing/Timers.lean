import Verif.Dialing.Inv
/-! Invariants of the connection manager: delayed errors, results, the check. -/
namespace Tycho.Dialing
open Tycho.Table Tycho.ActivePeers
open Tycho.Table (get)

/-- The answers given to the callbacks of some delayed errors. -/
def given (l : List Delayed) (a : Answer) : List (Nat × Answer) := l.flatMap (fun d => d.cbs.map (fun c => (c, a)))

theorem given_fst (l : List Delayed) (a : Answer) : (given l a).map (·.1) = l.flatMap (·.cbs) := by
  induction l with
  | nil => rfl
  | cons d l ih =>
    unfold given at *
    rw [List.flatMap_cons, List.map_append, ih, map_fst_answer, List.flatMap_cons]

/-- The expirations without those of some delayed errors. -/
def without (exps : List Exp) (l : List Delayed) : List Exp := exps.filter (fun x => decide (x.key ∉ l.map (·.key)))

theorem without_cons (exps : List Exp) (d : Delayed) (l : List Delayed) :
    without (exps.filter (fun x => decide (x.key ≠ d.key))) l = without exps (d :: l) := by
  unfold without
  rw [List.filter_filter]
  congr 1
  funext x
  rw [Bool.eq_iff_iff]
  simp only [Bool.and_eq_true, decide_eq_true_eq, List.map_cons, List.mem_cons, not_or, ne_eq]
  exact And.comm

theorem resolve_eq (k : Conn) (l : List Delayed) : ∀ s : St, (l.map (·.key)).Nodup →
    (∀ d ∈ l, ∃ x ∈ s.exps, x.key = d.key) →
    l.foldl (St.resolveOne k) s = { s with answered := s.answered ++ given l (.ok k), exps := without s.exps l } := by
  induction l with
  | nil =>
    intro s _ _
    simp [given, without]
  | cons d l ih =>
    intro s hn he
    simp only [List.map_cons, List.nodup_cons] at hn
    rw [List.foldl_cons, ih]
    · have hp : s.exps.any (fun x => decide (x.key = d.key)) = true := by
        obtain ⟨x, hx, e⟩ := he d (by simp)
        exact List.any_eq_true.2 ⟨x, hx, by simpa using e⟩
      simp only [St.resolveOne, St.unexpire, St.panicIf, St.answer, hp, Bool.not_true, Bool.or_false, without_cons]
      simp [given]
    · exact hn.2
    · intro d' hd'
      obtain ⟨x, hx, e⟩ := he d' (List.mem_cons_of_mem _ hd')
      refine ⟨x, List.mem_filter.2 ⟨hx, ?_⟩, e⟩
      have : x.key ≠ d.key := by
        intro e2
        exact hn.1 (List.mem_map.2 ⟨d', hd', by omega⟩)
      simpa using this

theorem expire_eq (l : List Delayed) : ∀ s : St,
    l.foldl St.expireOne s = { s with answered := s.answered ++ given l .err, exps := without s.exps l } := by
  induction l with
  | nil =>
    intro s
    simp [given, without]
  | cons d l ih =>
    intro s
    rw [List.foldl_cons, ih]
    simp only [St.expireOne, St.unexpire, St.answer, without_cons]
    simp [given]

/-- The delayed errors that stay when some are taken. -/
theorem without_map (dl l : List Delayed) (hn : (dl.map (·.key)).Nodup) (hl : ∀ d ∈ l, d ∈ dl) :
    without (dl.map Delayed.exp) l = (dl.filter (fun d => decide (d ∉ l))).map Delayed.exp := by
  unfold without
  rw [List.filter_map]
  congr 1
  apply List.filter_congr
  intro d hd
  rw [Bool.eq_iff_iff]
  simp only [Function.comp, decide_eq_true_eq]
  change d.key ∉ l.map (·.key) ↔ d ∉ l
  constructor
  · intro h hd'
    exact h (List.mem_map.2 ⟨d, hd', rfl⟩)
  · intro h hk
    obtain ⟨x, hx, e⟩ := List.mem_map.1 hk
    exact h ((List.inj_on_of_nodup_map hn (hl x hx) hd e) ▸ hx)

theorem take_mem (p now : Nat) (l : List Delayed) (d : Delayed) :
    d ∈ (takeExpired p now l).1 → d ∈ l ∧ d.peer = p ∧ d.due ≤ now := by
  induction l with
  | nil => intro h; simp [takeExpired] at h
  | cons x l ih =>
    intro h
    unfold takeExpired at h
    split at h
    · have := ih h; exact ⟨List.mem_cons_of_mem _ this.1, this.2⟩
    · rename_i hp
      split at h
      · rename_i hd
        rcases List.mem_cons.1 h with e | e
        · subst e; exact ⟨by simp, by simpa using hp, hd⟩
        · have := ih e; exact ⟨List.mem_cons_of_mem _ this.1, this.2⟩
      · simp at h

theorem take_sub (p now : Nat) (l : List Delayed) : (takeExpired p now l).2.Sublist l := by
  induction l with
  | nil => exact List.Sublist.refl _
  | cons x l ih =>
    unfold takeExpired
    split
    · exact ih.cons_cons x
    · split
      · exact ih.cons x
      · exact List.Sublist.refl _

theorem take_rest (p now : Nat) (l : List Delayed) (hn : l.Nodup) :
    (takeExpired p now l).2 = l.filter (fun d => decide (d ∉ (takeExpired p now l).1)) := by
  induction l with
  | nil => rfl
  | cons x l ih =>
    simp only [List.nodup_cons] at hn
    have hx : x ∉ (takeExpired p now l).1 := fun h => hn.1 (take_mem p now l x h).1
    unfold takeExpired
    split
    · rw [List.filter_cons_of_pos (by simpa using hx), ← ih hn.2]
    · split
      · rw [List.filter_cons_of_neg (by simp)]
        simp only
        conv => lhs; rw [ih hn.2]
        apply List.filter_congr
        intro d hd
        rw [Bool.eq_iff_iff]
        simp only [decide_eq_true_eq, List.mem_cons, not_or]
        constructor
        · exact fun h => ⟨fun e => hn.1 (e ▸ hd), h⟩
        · exact fun h => h.2
      · simp

theorem take_count (p now : Nat) (l : List Delayed) (cb : Nat) :
    ((takeExpired p now l).1.flatMap (·.cbs)).count cb + ((takeExpired p now l).2.flatMap (·.cbs)).count cb
      = (l.flatMap (·.cbs)).count cb := by
  induction l with
  | nil => rfl
  | cons x l ih =>
    unfold takeExpired
    split
    · simp only [List.flatMap_cons, List.count_append]; omega
    · split
      · simp only [List.flatMap_cons, List.count_append]; omega
      · simp

/-- A due error of the peer is taken, since those before it are due as well. -/
theorem take_due (p now : Nat) (l : List Delayed) (hs : l.Pairwise (fun a b => a.due ≤ b.due)) (d : Delayed) (hd : d ∈ l)
    (hp : d.peer = p) (hn : d.due ≤ now) : d ∈ (takeExpired p now l).1 := by
  induction l with
  | nil => simp at hd
  | cons x l ih =>
    rw [List.pairwise_cons] at hs
    unfold takeExpired
    rcases List.mem_cons.1 hd with e | e
    · subst e
      simp [hp, hn]
    · have h1 := ih hs.2 e
      have h2 := hs.1 d e
      split
      · exact h1
      · split
        · exact List.mem_cons_of_mem _ h1
        · omega

theorem nodup_of_keys {l : List Delayed} (h : (l.map (·.key)).Nodup) : l.Nodup := List.Nodup.of_map _ h

theorem timers_sub {c : Cfg} {now : Nat} {dl dl' : List Delayed} {exps exps' : List Exp} {next : Nat}
    (h : Timers c now dl exps next) (hs : dl'.Sublist dl) (he : exps' = dl'.map Delayed.exp) : Timers c now dl' exps' next where
  exps := he
  keys := List.Nodup.sublist (hs.map _) h.keys
  old := fun d hd => h.old d (hs.subset hd)
  sorted := h.sorted.sublist hs
  horizon := fun d hd => h.horizon d (hs.subset hd)

theorem filter_partition_count (p : Nat) (l : List Delayed) (cb : Nat) :
    ((l.filter (fun d => decide (d.peer = p))).flatMap (·.cbs)).count cb +
      ((l.filter (fun d => decide (d.peer ≠ p))).flatMap (·.cbs)).count cb = (l.flatMap (·.cbs)).count cb := by
  induction l with
  | nil => rfl
  | cons x l ih =>
    by_cases h : x.peer = p
    · rw [List.filter_cons_of_pos (by simpa using h), List.filter_cons_of_neg (by simpa using h)]
      simp only [List.flatMap_cons, List.count_append]; omega
    · rw [List.filter_cons_of_neg (by simpa using h), List.filter_cons_of_pos (by simpa using h)]
      simp only [List.flatMap_cons, List.count_append]; omega

theorem inHand_resolve {c : Cfg} {s : St} {cbs : List Nat} (h : InHand c s cbs) (k : Conn) : InHand c (s.resolve k) cbs := by
  have ht := h.timers
  unfold St.resolve
  rw [resolve_eq]
  · refine ⟨h.tasks, ?_, ?_, h.dials, h.calm⟩
    · refine timers_sub ht List.filter_sublist ?_
      simp only
      rw [ht.exps, without_map _ _ ht.keys (fun d hd => (List.mem_filter.1 hd).1)]
      congr 1
      apply List.filter_congr
      intro d hd
      rw [Bool.eq_iff_iff]
      simp [List.mem_filter, hd]
    · intro cb
      have h1 := h.counted cb
      have h2 := filter_partition_count k.peer s.delayed cb
      simp only [List.map_append, given_fst, List.count_append]
      omega
  · exact List.Nodup.sublist (List.filter_sublist.map _) ht.keys
  · intro d hd
    refine ⟨d.exp, ?_, rfl⟩
    simp only [ht.exps]
    exact List.mem_map.2 ⟨d, (List.mem_filter.1 hd).1, rfl⟩

/-- The expiration of `key` fires. -/
theorem inv_fire {c : Cfg} {s : St} (h : Inv c s) (key : Nat) : Inv c (s.fire key) := by
  have ht := h.timers
  unfold St.fire
  split
  · exact h
  · rename_i x hx
    split
    · rename_i hdue
      unfold St.expire
      rw [expire_eq]
      have hxm := List.mem_of_find?_eq_some hx
      have hxk : x.key = key := by simpa using List.find?_some hx
      rw [ht.exps] at hxm
      obtain ⟨d, hd, he⟩ := List.mem_map.1 hxm
      have hdp : d.peer = x.peer := by rw [← he]; rfl
      have hdd : d.due = x.due := by rw [← he]; rfl
      have hdk : d.key = x.key := by rw [← he]; rfl
      have htk := take_due x.peer s.now s.delayed ht.sorted d hd hdp (by omega)
      refine ⟨h.tasks, ?_, ?_, h.dials, h.calm⟩
      · refine timers_sub ht (take_sub x.peer s.now s.delayed) ?_
        simp only [St.unexpire]
        have e1 : without (s.exps.filter (fun y => decide (y.key ≠ key))) (takeExpired x.peer s.now s.delayed).1 =
            without s.exps (takeExpired x.peer s.now s.delayed).1 := by
          unfold without
          rw [List.filter_filter]
          apply List.filter_congr
          intro y hy
          rw [Bool.eq_iff_iff]
          simp only [Bool.and_eq_true, decide_eq_true_eq]
          refine ⟨fun g => g.1, fun g => ⟨g, fun e => g ?_⟩⟩
          exact List.mem_map.2 ⟨d, htk, by omega⟩
        rw [e1, ht.exps, without_map _ _ ht.keys (fun y hy => (take_mem _ _ _ y hy).1),
          ← take_rest _ _ _ (nodup_of_keys ht.keys)]
      · intro cb
        have h1 := h.counted cb
        have h2 := take_count x.peer s.now s.delayed cb
        simp only [St.unexpire, List.map_append, given_fst, List.count_append]
        omega
    · exact h

theorem inv_delay {c : Cfg} {s : St} {cbs : List Nat} (h : InHand c s cbs) (p : Nat) : Inv c (s.delay c p cbs) := by
  have ht := h.timers
  refine ⟨h.tasks, ⟨?_, ?_, ?_, ?_, ?_⟩, ?_, h.dials, h.calm⟩
  · simp [St.delay, ht.exps, Delayed.exp]
  · simp only [St.delay, List.map_append, List.nodup_append]
    refine ⟨ht.keys, by simp, fun x hx y hy => ?_⟩
    simp only [List.map_cons, List.map_nil, List.mem_singleton] at hy
    obtain ⟨d, hd, e⟩ := List.mem_map.1 hx
    have := ht.old d hd
    omega
  · intro d hd
    simp only [St.delay, List.mem_append, List.mem_singleton] at hd ⊢
    rcases hd with hd | hd
    · have := ht.old d hd; omega
    · rw [hd]; exact Nat.lt_succ_self _
  · simp only [St.delay, List.pairwise_append]
    refine ⟨ht.sorted, by simp, fun x hx y hy => ?_⟩
    rw [List.mem_singleton.1 hy]
    exact ht.horizon x hx
  · intro d hd
    simp only [St.delay, List.mem_append, List.mem_singleton] at hd ⊢
    rcases hd with hd | hd
    · exact ht.horizon d hd
    · exact hd ▸ Nat.le_refl _
  · intro cb
    have h1 := h.counted cb
    simp only [St.delay, List.flatMap_append, List.count_append, List.flatMap_cons, List.flatMap_nil, List.append_nil]
    omega

theorem inHand_addPeer {c : Cfg} {s : St} {cbs : List Nat} (h : InHand c s cbs) (k : Conn) : InHand c (s.addPeer c k) cbs :=
  ⟨h.tasks, h.timers, h.counted, h.dials, h.calm⟩

theorem inv_conclude {c : Cfg} {s : St} {cbs : List Nat} (h : InHand c s cbs) (t : Task) (o : Outcome) :
    Inv c (s.conclude c t cbs o) := by
  have hd : ∀ o, Inv c (s.disconnected c t.peer o cbs) := by
    intro o
    unfold St.disconnected
    split
    · exact inv_delay h t.peer
    · exact inv_answer h _
  cases o with
  | ok id => exact inv_answer (inHand_resolve (inHand_addPeer h _) _) _
  | closed => exact hd _
  | failed => exact hd _

/-- A task leaves the set and its entry, if it is its own, is removed. -/
theorem tasked_finish {pend : Table Nat Entry} {tasks : List Task} {next : Nat} (h : Tasked pend tasks next) (t : Task)
    (ht : t ∈ tasks) :
    Tasked (del pend (fun a => decide (a = t.addr))) (tasks.filter (fun x => decide (x.uid ≠ t.uid))) next where
  uniq := uniq_del _ _ h.uniq
  own := by
    intro a x hx
    rw [get_del] at hx
    split at hx
    · simp at hx
    · rename_i ha
      obtain ⟨y, hy, h1, h2, h3, h4⟩ := h.own a x hx
      refine ⟨y, List.mem_filter.2 ⟨hy, ?_⟩, h1, h2, h3, h4⟩
      have : y.uid ≠ t.uid := by
        intro eq
        have := task_of_uid h.uids hy ht eq
        rw [this] at h3
        simp [h3] at ha
      simpa using this
  uids := List.Nodup.sublist (List.filter_sublist.map _) h.uids
  old := fun x hx => h.old x (List.mem_filter.1 hx).1

theorem tasked_leave {pend : Table Nat Entry} {tasks : List Task} {next : Nat} (h : Tasked pend tasks next) (q : Task → Bool)
    (hq : ∀ t ∈ tasks, q t = false → ∀ a e, get pend a = some e → e.task ≠ t.uid) :
    Tasked pend (tasks.filter q) next where
  uniq := h.uniq
  own := by
    intro a x hx
    obtain ⟨y, hy, h1, h2, h3, h4⟩ := h.own a x hx
    refine ⟨y, List.mem_filter.2 ⟨hy, ?_⟩, h1, h2, h3, h4⟩
    cases hqy : q y with
    | true => rfl
    | false => exact absurd h1.symm (hq y hy hqy a x hx)
  uids := List.Nodup.sublist (List.filter_sublist.map _) h.uids
  old := fun x hx => h.old x (List.mem_filter.1 hx).1

theorem inv_finish {c : Cfg} {s : St} (h : Inv c s) (u : Nat) (o : Outcome) : Inv c (s.finish c u o) := by
  unfold St.finish
  split
  · exact h
  · rename_i t hf
    have htm := List.mem_of_find?_eq_some hf
    have htu : t.uid = u := by simpa using List.find?_some hf
    subst htu
    have leave : (∀ e, get s.pending t.addr = some e → e.seq ≠ t.seq) → Inv c (s.joined t.uid) := by
      intro hne
      refine ⟨tasked_leave h.tasks _ (fun x hx hq a e ha hu => ?_), h.timers, h.counted, h.dials, h.calm⟩
      obtain ⟨y, hy, h1, h2, h3, h4⟩ := h.tasks.own a e ha
      have e1 := task_of_uid h.tasks.uids hy hx (h1.trans hu)
      have e2 : x.uid = t.uid := by simpa using hq
      have e3 := task_of_uid h.tasks.uids hx htm e2
      subst e1; subst e3
      subst h3
      exact hne e ha h4.symm
    unfold St.result
    split
    · rename_i hg
      exact leave (fun e he => by have hg' : get s.pending t.addr = none := hg; rw [hg'] at he; simp at he)
    · rename_i e hg
      have hg' : get s.pending t.addr = some e := hg
      split
      · rename_i hs
        exact leave (fun e' he' => by rw [hg'] at he'; exact Option.some.inj he' ▸ hs)
      · have hi : InHand c ((s.joined t.uid).untrack t.addr) e.cbs := by
          refine ⟨tasked_finish h.tasks t htm, h.timers, ?_, h.dials, h.calm⟩
          intro cb
          have h1 := h.counted cb
          have h2 := kept_del s.pending h.tasks.uniq t.addr cb
          have h3 : keptAt s.pending t.addr cb = e.cbs.count cb := by unfold keptAt; rw [hg']; rfl
          simp only [St.untrack, St.joined]
          omega
        exact inv_conclude hi t o

theorem inv_cancelled {c : Cfg} {s : St} (h : Inv c s) (u : Nat) : Inv c (s.cancelled u) := by
  refine ⟨tasked_leave h.tasks _ (fun x hx hq a e ha hu => ?_), h.timers, h.counted, h.dials, h.calm⟩
  obtain ⟨y, hy, h1, h2, h3, h4⟩ := h.tasks.own a e ha
  have e1 := task_of_uid h.tasks.uids hy hx (h1.trans hu)
  subst e1
  simp [h2] at hq

/-! ### The check -/

theorem asked_not_gone {c : Cfg} {s : St} (h : Inv c s) (cb : Nat) (hc : cb ∈ s.asked.map (·.1)) : s.tryRecv cb ≠ .gone := by
  unfold St.tryRecv
  split
  · simp
  · rename_i hf
    split
    · simp
    · rename_i hw
      exfalso
      have h1 := h.counted cb
      have h2 : 0 < (s.asked.map (·.1)).count cb := List.count_pos_iff.2 hc
      have h3 : (s.answered.map (·.1)).count cb = 0 := by
        rw [List.count_eq_zero]
        intro hm
        obtain ⟨x, hx, e⟩ := List.mem_map.1 hm
        have := List.find?_eq_none.1 hf x hx
        simp [e] at this
      unfold St.waiting at hw
      have h4 : kept s.pending cb = 0 := List.count_eq_zero.2 (fun hm => hw (List.mem_append_left _ hm))
      have h5 : (s.delayed.flatMap (·.cbs)).count cb = 0 := List.count_eq_zero.2 (fun hm => hw (List.mem_append_right _ hm))
      omega

theorem reapOne_same (c : Cfg) (s : St) (x : Nat × Nat) :
    (s.reapOne c x).pending = s.pending ∧ (s.reapOne c x).delayed = s.delayed ∧ (s.reapOne c x).answered = s.answered ∧
    (s.reapOne c x).asked = s.asked := by
  unfold St.reapOne
  split <;> exact ⟨rfl, rfl, rfl, rfl⟩

theorem inv_reapOne {c : Cfg} {s : St} (h : Inv c s) (x : Nat × Nat) (hx : x.2 ∈ s.asked.map (·.1)) : Inv c (s.reapOne c x) := by
  have hd : Dials (del s.dials (fun p => decide (p = x.1))) s.asked := by
    refine ⟨uniq_del _ _ h.dials.uniq, fun p cb hp => ?_⟩
    rw [get_del] at hp
    split at hp
    · simp at hp
    · exact h.dials.asked p cb hp
  unfold St.reapOne
  cases hr : s.tryRecv x.2 with
  | ready a =>
    cases a with
    | ok k => exact ⟨h.tasks, h.timers, h.counted, hd, h.calm⟩
    | err => exact ⟨h.tasks, h.timers, h.counted, hd, h.calm⟩
  | empty => exact h
  | gone => exact absurd hr (asked_not_gone h x.2 hx)

theorem inv_reapAll {c : Cfg} (l : List (Nat × Nat)) : ∀ s : St, Inv c s → (∀ x ∈ l, x.2 ∈ s.asked.map (·.1)) →
    Inv c (l.foldl (St.reapOne c) s) := by
  induction l with
  | nil => exact fun s h _ => h
  | cons x l ih =>
    intro s h hl
    rw [List.foldl_cons]
    refine ih _ (inv_reapOne h x (hl x (by simp))) (fun y hy => ?_)
    rw [(reapOne_same c s x).2.2.2]
    exact hl y (List.mem_cons_of_mem _ hy)

theorem inv_reap {c : Cfg} {s : St} (h : Inv c s) : Inv c (s.reap c) := by
  refine inv_reapAll s.dials s h (fun x hx => ?_)
  exact List.mem_map.2 ⟨_, h.dials.asked x.1 x.2 (get_of_mem _ h.dials.uniq x.1 x.2 hx), rfl⟩

theorem dial_asked (c : Cfg) (s : St) (a p cb : Nat) : (s.dial c a p cb).asked = s.asked ++ [(cb, p)] := by
  unfold St.dial
  split
  · rfl
  · unfold St.dialNew
    split
    · rfl
    · unfold St.dialOver
      split <;> rfl

theorem inv_dialKnown {c : Cfg} {s : St} (h : Inv c s) (x : Known × Nat) : Inv c (s.dialKnown c x) := by
  have h1 := inv_dial h x.1.addr x.1.peer x.2
  refine ⟨h1.tasks, h1.timers, h1.counted, ⟨uniq_put _ _ _ h1.dials.uniq, fun p cb hp => ?_⟩, h1.calm⟩
  simp only [St.dialKnown, St.track, get_put] at hp ⊢
  split at hp
  · rename_i e; rw [dial_asked, ← Option.some.inj hp, e]; simp
  · exact h1.dials.asked p cb hp

theorem inv_check {c : Cfg} {s : St} (h : Inv c s) (known : List Known) (cbs : List Nat) : Inv c (s.check c known cbs) := by
  unfold St.check St.dialAll
  generalize ((s.reap c).chosen c known).zip cbs = l
  have h0 := inv_reap h
  generalize s.reap c = s' at h0
  induction l generalizing s' with
  | nil => exact h0
  | cons x l ih => exact ih _ (inv_dialKnown h0 x)

theorem inv_step {c : Cfg} {s : St} (h : Inv c s) (o : Op) : Inv c (s.step c o) := by
  cases o with
  | connect a p cb => exact inv_dial h a p cb
  | incoming a p i aff => exact inv_incoming h a p i aff
  | finish u o => exact inv_finish h u o
  | cancelled u => exact inv_cancelled h u
  | fire k => exact inv_fire h k
  | check known cbs => exact inv_check h known cbs
  | peers o =>
    cases o with
    | add k => exact h
    | remove p => exact ⟨h.tasks, h.timers, h.counted, h.dials, h.calm⟩
    | ended k => exact ⟨h.tasks, h.timers, h.counted, h.dials, h.calm⟩
    | tick i => exact ⟨h.tasks, h.timers, h.counted, h.dials, h.calm⟩
  | time t =>
    have ht := h.timers
    exact ⟨h.tasks, ⟨ht.exps, ht.keys, ht.old, ht.sorted, fun d hd => by have := ht.horizon d hd; simp only [St.step]; omega⟩,
      h.counted, h.dials, h.calm⟩

theorem run_snoc (c : Cfg) (l : List Op) (o : Op) : St.run c (l ++ [o]) = (St.run c l).step c o := by
  unfold St.run; rw [List.foldl_append]; rfl

theorem inv_run (c : Cfg) (l : List Op) : Inv c (St.run c l) := by
  induction l using List.reverseRecOn with
  | nil => exact inv_new c
  | append_singleton l o ih => rw [run_snoc]; exact inv_step ih o

end Tycho.Dialing
