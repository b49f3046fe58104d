import Verif.Dialing.Timers
/-! What the connection manager guarantees to those who ask for a connection. -/
namespace Tycho.Dialing
open Tycho.Table Tycho.ActivePeers
open Tycho.Table (get)

/-- After any history, every callback handed over (the callbacks are distinct) is either still kept by the manager, in
exactly one place, or was answered exactly once: none is dropped, none is answered twice. -/
theorem callback_once (c : Cfg) (l : List Op) (hn : ((St.run c l).asked.map (·.1)).Nodup) (cb : Nat)
    (ha : cb ∈ (St.run c l).asked.map (·.1)) :
    ((St.run c l).waiting.count cb = 1 ∧ ∀ a, (cb, a) ∉ (St.run c l).answered) ∨
    (cb ∉ (St.run c l).waiting ∧ ∃ a, (St.run c l).answered.filter (fun x => x.1 = cb) = [(cb, a)]) := by
  have h := (inv_run c l).counted cb
  generalize St.run c l = s at *
  have h1 : (s.asked.map (·.1)).count cb = 1 := List.count_eq_one_of_mem hn ha
  have h2 : s.waiting.count cb = kept s.pending cb + (s.delayed.flatMap (·.cbs)).count cb := by
    unfold St.waiting kept; rw [List.count_append]
  have h3 : (s.answered.map (·.1)).count cb = (s.answered.filter (fun x => decide (x.1 = cb))).length := by
    rw [List.count_eq_length_filter, List.filter_map, List.length_map]
    congr 1
  rw [h1] at h
  by_cases hw : s.waiting.count cb = 0
  · right
    refine ⟨List.count_eq_zero.1 hw, ?_⟩
    have h4 : (s.answered.filter (fun x => decide (x.1 = cb))).length = 1 := by omega
    obtain ⟨x, hx⟩ := List.length_eq_one_iff.1 h4
    have : x ∈ s.answered.filter (fun x => decide (x.1 = cb)) := by rw [hx]; simp
    have hxe : x.1 = cb := by simpa using (List.mem_filter.1 this).2
    exact ⟨x.2, by rw [hx, ← hxe]⟩
  · left
    refine ⟨by omega, fun a hm => ?_⟩
    have : 0 < (s.answered.filter (fun x => decide (x.1 = cb))).length :=
      List.length_pos_of_mem (List.mem_filter.2 ⟨hm, by simp⟩)
    omega

/-- A callback still kept is kept for a reason: a running, not aborted task whose result will be accepted, or an expiration
that will fire. -/
theorem waiting_has_cause (c : Cfg) (l : List Op) (cb : Nat) (hw : cb ∈ (St.run c l).waiting) :
    (∃ a e t, get (St.run c l).pending a = some e ∧ cb ∈ e.cbs ∧ t ∈ (St.run c l).tasks ∧ t.aborted = false ∧
      t.addr = a ∧ t.seq = e.seq) ∨
    (∃ d x, d ∈ (St.run c l).delayed ∧ cb ∈ d.cbs ∧ x ∈ (St.run c l).exps ∧ x = d.exp) := by
  have h := inv_run c l
  generalize St.run c l = s at *
  rcases List.mem_append.1 hw with h1 | h1
  · obtain ⟨e, he, hc⟩ := List.mem_flatMap.1 h1
    have hg := get_of_mem _ h.tasks.uniq e.1 e.2 he
    obtain ⟨t, ht, _, h2, h3, h4⟩ := h.tasks.own e.1 e.2 hg
    exact .inl ⟨e.1, e.2, t, hg, hc, ht, h2, h3, h4⟩
  · obtain ⟨d, hd, hc⟩ := List.mem_flatMap.1 h1
    exact .inr ⟨d, d.exp, hd, hc, h.timers.exps ▸ List.mem_map.2 ⟨d, hd, rfl⟩, rfl⟩

/-- When all tasks have ended and all expirations have fired, everyone was answered. -/
theorem all_answered (c : Cfg) (l : List Op) (ht : (St.run c l).tasks = []) (he : (St.run c l).exps = []) (cb p : Nat)
    (ha : (cb, p) ∈ (St.run c l).asked) : ∃ a, (cb, a) ∈ (St.run c l).answered := by
  have hw : cb ∉ (St.run c l).waiting := by
    intro hw
    rcases waiting_has_cause c l cb hw with ⟨a, e, t, _, _, h, _⟩ | ⟨d, x, _, _, h, _⟩
    · rw [ht] at h; simp at h
    · rw [he] at h; simp at h
  have h := inv_run c l
  have hg := asked_not_gone h cb (List.mem_map.2 ⟨_, ha, rfl⟩)
  unfold St.tryRecv at hg
  split at hg
  · rename_i x hx
    have h1 := List.mem_of_find?_eq_some hx
    have h2 : x.1 = cb := by simpa using List.find?_some hx
    exact ⟨x.2, h2 ▸ h1⟩
  · rw [if_neg hw] at hg
    exact absurd rfl hg

/-- The result of the task of an entry reaches the callbacks of the entry: they are answered, or delayed when the remote
closed the connection. -/
theorem result_reaches (c : Cfg) (l : List Op) (t : Task) (o : Outcome) (e : Entry) (ht : t ∈ (St.run c l).tasks)
    (hg : get (St.run c l).pending t.addr = some e) (hs : e.seq = t.seq) (cb : Nat) (hc : cb ∈ e.cbs) :
    (∃ a, (cb, a) ∈ ((St.run c l).step c (.finish t.uid o)).answered) ∨
    (o = .closed ∧ ∃ d ∈ ((St.run c l).step c (.finish t.uid o)).delayed, d.peer = t.peer ∧ cb ∈ d.cbs ∧
      d.due = (St.run c l).now + c.delay) := by
  have h := inv_run c l
  generalize St.run c l = s at *
  have hf : s.tasks.find? (fun x => decide (x.uid = t.uid)) = some t := by
    cases hf : s.tasks.find? (fun x => decide (x.uid = t.uid)) with
    | none => have := List.find?_eq_none.1 hf t ht; simp at this
    | some x =>
      have h1 := List.mem_of_find?_eq_some hf
      have h2 : x.uid = t.uid := by simpa using List.find?_some hf
      rw [task_of_uid h.tasks.uids h1 ht h2]
  have hg' : get (s.joined t.uid).pending t.addr = some e := hg
  simp only [St.step, St.finish, hf, St.result, hg', hs, ne_eq, not_true_eq_false, if_false]
  have hmap : ∀ a : Answer, (cb, a) ∈ e.cbs.map (fun x => (x, a)) := fun a => List.mem_map.2 ⟨cb, hc, rfl⟩
  have hd : ∀ o, (∃ a, (cb, a) ∈ (((s.joined t.uid).untrack t.addr).disconnected c t.peer o e.cbs).answered) ∨
      (o = .closed ∧ ∃ d ∈ (((s.joined t.uid).untrack t.addr).disconnected c t.peer o e.cbs).delayed,
        d.peer = t.peer ∧ cb ∈ d.cbs ∧ d.due = s.now + c.delay) := by
    intro o
    unfold St.disconnected
    split
    · rename_i ho
      exact .inr ⟨ho.1, ⟨s.nextKey, t.peer, s.now + c.delay, e.cbs⟩, by simp [St.delay, St.untrack, St.joined], rfl, hc, rfl⟩
    · exact .inl ⟨.err, List.mem_append_right _ (hmap .err)⟩
  cases o with
  | ok id => exact .inl ⟨_, List.mem_append_right _ (hmap _)⟩
  | closed => exact hd _
  | failed => exact hd _

/-- A firing expiration answers its delayed callbacks with an error, and not before it is due. -/
theorem expiration_answers (c : Cfg) (l : List Op) (d : Delayed) (hd : d ∈ (St.run c l).delayed) :
    (d.due ≤ (St.run c l).now → d ∉ ((St.run c l).step c (.fire d.key)).delayed ∧
      ∀ cb ∈ d.cbs, (cb, Answer.err) ∈ ((St.run c l).step c (.fire d.key)).answered) ∧
    (∀ key, (St.run c l).now < d.due → d ∈ ((St.run c l).step c (.fire key)).delayed) := by
  have h := inv_run c l
  generalize St.run c l = s at *
  have ht := h.timers
  have hx : s.exps.find? (fun x => decide (x.key = d.key)) = some d.exp := by
    cases hf : s.exps.find? (fun x => decide (x.key = d.key)) with
    | none =>
      have := List.find?_eq_none.1 hf d.exp (ht.exps ▸ List.mem_map.2 ⟨d, hd, rfl⟩)
      simp [Delayed.exp] at this
    | some x =>
      have h1 := List.mem_of_find?_eq_some hf
      have h2 : x.key = d.key := by simpa using List.find?_some hf
      rw [ht.exps] at h1
      obtain ⟨d', hd', e⟩ := List.mem_map.1 h1
      have : d'.key = d.key := by rw [← h2, ← e]; rfl
      rw [← e, List.inj_on_of_nodup_map ht.keys hd' hd this]
  constructor
  · intro hdue
    have hdue' : d.exp.due ≤ s.now := hdue
    have htk := take_due d.peer s.now s.delayed ht.sorted d hd rfl hdue
    simp only [St.step, St.fire, hx, hdue', if_true, St.expire, expire_eq]
    refine ⟨?_, fun cb hcb => ?_⟩
    · have hr := take_rest d.peer s.now s.delayed (nodup_of_keys ht.keys)
      change d ∉ (takeExpired d.peer s.now s.delayed).2
      rw [hr]
      intro hm
      have := (List.mem_filter.1 hm).2
      simp only [decide_eq_true_eq] at this
      exact this htk
    · refine List.mem_append_right _ (List.mem_flatMap.2 ⟨d, htk, List.mem_map.2 ⟨cb, hcb, rfl⟩⟩)
  · intro key hlt
    simp only [St.step, St.fire]
    split
    · exact hd
    · rename_i x _
      split
      · unfold St.expire
        rw [expire_eq]
        have hr := take_rest x.peer s.now s.delayed (nodup_of_keys ht.keys)
        change d ∈ (takeExpired x.peer s.now s.delayed).2
        rw [hr]
        refine List.mem_filter.2 ⟨hd, ?_⟩
        simp only [decide_eq_true_eq]
        intro hm
        have := (take_mem _ _ _ d hm).2.2
        omega
      · exact hd

/-- The manager never panics: a dial of the check is always answered in the end rather than dropped, and the expiration of
a resolved error is always in the queue. -/
theorem never_panics (c : Cfg) (l : List Op) : (St.run c l).panic = false := (inv_run c l).calm

/-! ### Who is connected -/

/-- The active connections are reachable. -/
def PeersOk (s : St) : Prop := ∃ l, ActivePeers.Inv l s.peers

theorem added_peer {s : St} (h : PeersOk s) (me : Nat) (k : Conn) : (addedConn (s.peers.add me k).2).peer = k.peer := by
  obtain ⟨l, hl⟩ := h
  unfold Peers.add
  split
  · rfl
  · rename_i old hg
    split
    · rfl
    · exact hl.own _ _ hg

theorem resolve_closed (c : Cfg) (s : St) (ht : Timers c s.now s.delayed s.exps s.nextKey) (k : Conn) :
    s.resolve k = { s with delayed := s.delayed.filter (fun d => decide (d.peer ≠ k.peer)),
                           answered := s.answered ++ given (s.delayed.filter (fun d => decide (d.peer = k.peer))) (.ok k),
                           exps := without s.exps (s.delayed.filter (fun d => decide (d.peer = k.peer))) } := by
  unfold St.resolve
  rw [resolve_eq]
  · exact List.Nodup.sublist (List.filter_sublist.map _) ht.keys
  · intro d hd
    refine ⟨d.exp, ?_, rfl⟩
    simp only [ht.exps]
    exact List.mem_map.2 ⟨d, (List.mem_filter.1 hd).1, rfl⟩

end Tycho.Dialing
