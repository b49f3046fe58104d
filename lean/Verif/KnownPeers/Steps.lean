import Verif.KnownPeers.Kept
import Mathlib.Data.List.Nodup
/-! The invariant of the map is kept by calm steps. -/
namespace Tycho.KnownPeers
open Tycho.Table
open Tycho.Table (get)
variable {s t : St}

theorem kept_new : Kept St.new := by
  refine ⟨fun i h => ?_, fun p h => ?_, fun p i h => ?_, ?_⟩
  · simp [St.live, St.new] at h
  · simp [St.new] at h
  · simp [St.new, Table.get] at h
  · simp [St.new]

theorem peer_edit (s : St) (i : Nat) (f : Inner → Inner) (hf : (f (s.inners i)).info.peer = (s.inners i).info.peer) (j : Nat) :
    (s.edit i f).peerOf j = s.peerOf j := by
  unfold St.peerOf
  by_cases hj : j = i
  · subst hj; rw [edit_same, hf]
  · rw [edit_other _ _ _ _ hj]

theorem peer_inc (x : Inner) : x.inc.info = x.info := by unfold Inner.inc; split <;> rfl
theorem peer_dec (x : Inner) : x.dec.info = x.info := by
  unfold Inner.dec; split
  · rfl
  · split <;> rfl

theorem peer_newer (x : Inner) (info : Info) (h : info.peer = x.info.peer) : (x.newer info).info.peer = x.info.peer := by
  unfold Inner.newer; split
  · exact h
  · rfl

theorem peer_update (x : Inner) (info : Info) (aff : Bool) (h : info.peer = x.info.peer) :
    (x.update info aff).info.peer = x.info.peer := by
  unfold Inner.update
  cases aff
  · simpa using peer_newer x info h
  · have : (x.inc).info = x.info := peer_inc x
    simp only [if_true]
    rw [peer_newer _ _ (by rw [this]; exact h), this]

theorem fromInner_entries (s : St) (i : Nat) (aff : Bool) : (s.fromInner i aff).entries = s.entries := by
  cases aff <;> rfl
theorem fromInner_pend (s : St) (i : Nat) (aff : Bool) : (s.fromInner i aff).pend = s.pend := by
  cases aff <;> rfl
theorem fromInner_inners (s : St) (i : Nat) (aff : Bool) : (s.fromInner i aff).inners = s.inners := by
  cases aff <;> rfl

theorem unwrap_entries (s : St) (h w : Nat) : (s.unwrap h w).entries = s.entries := by unfold St.unwrap; split <;> rfl
theorem unwrap_pend (s : St) (h w : Nat) : (s.unwrap h w).pend = s.pend := by unfold St.unwrap; split <;> rfl

/-- No living data for a peer whose entry leads nowhere. -/
theorem kept_none (h : Kept s) {p : Nat} (hf : s.find p = none) (i : Nat) (hl : s.live i = true) : s.peerOf i ≠ p := by
  intro e
  have := (h.here i hl).1
  rw [e] at this
  rw [find_stored this hl] at hf
  simp at hf

theorem kept_alloc (h : Kept s) (hm : Mem s) (info : Info) (aff : Bool) (hp : info.peer ∉ s.pend)
    (hf : s.find info.peer = none) : Kept ((s.alloc info aff).fromInner s.nextInner aff) := by
  have hpo : ∀ j, ((s.alloc info aff).fromInner s.nextInner aff).peerOf j =
      if j = s.nextInner then info.peer else s.peerOf j := by
    intro j; unfold St.peerOf; rw [fromInner_inners]; simp only [St.alloc]; split <;> rfl
  refine ⟨fun i hl => ?_, fun p hp' => ?_, fun p i hg => ?_, ?_⟩
  · rw [hpo, fromInner_entries, fromInner_pend]
    rw [live_fromInner (mem_alloc hm info aff) _ _ _ (Nat.lt_succ_self _)] at hl
    by_cases he : i = s.nextInner
    · subst he
      simp only [if_true, St.alloc, get_put]
      exact ⟨trivial, hp⟩
    · simp only [he, if_false, or_false] at hl ⊢
      have hl' : s.live i = true := hl
      have := kept_none h hf i hl'
      simp only [St.alloc, get_put, this, if_false]
      exact h.here i hl'
  · rw [fromInner_pend] at hp'
    rw [fromInner_entries]
    simp only [St.alloc, get_put]
    split
    · exact ⟨_, rfl⟩
    · exact h.dead p hp'
  · rw [fromInner_entries] at hg
    rw [hpo]
    simp only [St.alloc, get_put] at hg
    split at hg
    · simp only [Option.some.injEq, Entry.stored.injEq] at hg
      rename_i e; rw [if_pos hg.symm, e]
    · have := hm.el _ _ hg
      rw [if_neg (by omega)]
      exact h.own _ _ hg
  · rw [fromInner_pend]; exact h.once

theorem kept_ban (h : Kept s) {p : Nat} (hp : p ∉ s.pend) (hf : s.find p = none) :
    Kept { s with entries := put s.entries p .banned } := by
  refine ⟨fun i hl => ?_, fun q hq => ?_, fun q i hg => ?_, h.once⟩
  · have hl' : s.live i = true := hl
    have := kept_none h hf i hl'
    have hh := h.here i hl'
    refine ⟨?_, hh.2⟩
    change get (put s.entries p .banned) (s.peerOf i) = _
    rw [get_put, if_neg this]
    exact hh.1
  · simp only [get_put]
    rw [if_neg (by rintro rfl; exact hp hq)]
    exact h.dead q hq
  · simp only [get_put] at hg
    split at hg
    · simp at hg
    · exact h.own _ _ hg

theorem kept_release (h : Kept s) (i : Nat) (he : get s.entries (s.peerOf i) = some (.stored i)) (hp : s.peerOf i ∉ s.pend) :
    Kept (s.release i) := by
  unfold St.release
  split
  · exact h
  · split
    · exact h
    · rename_i hl
      refine ⟨fun j hj => ?_, fun p hp' => ?_, h.own, ?_⟩
      · have hj' : s.live j = true := hj
        have hh := h.here j hj'
        refine ⟨hh.1, ?_⟩
        simp only [List.mem_append, List.mem_singleton, not_or]
        refine ⟨hh.2, fun e => ?_⟩
        have e' : s.peerOf j = s.peerOf i := e
        have h1 := hh.1
        rw [e', he] at h1
        simp only [Option.some.injEq, Entry.stored.injEq] at h1
        exact hl (h1 ▸ hj')
      · rcases List.mem_append.1 hp' with hp' | hp'
        · exact h.dead p hp'
        · simp only [List.mem_singleton] at hp'
          exact ⟨i, by rw [hp']; exact he⟩
      · rw [List.nodup_append]
        refine ⟨h.once, by simp, fun a ha b hb hab => ?_⟩
        simp only [List.mem_singleton] at hb
        subst hab; subst hb; exact hp ha

theorem kept_step (h : Kept s) (hm : Mem s) (o : Op) (hc : CalmAt s o) : Kept (s.step o) := by
  cases o with
  | insert info aff allow =>
    cases he : get s.entries info.peer with
    | none =>
      simp only [St.step, St.insert, he]
      exact kept_alloc h hm info aff hc (find_other (by simp [he]))
    | some e =>
      cases e with
      | banned => simp only [St.step, St.insert, he]; exact h
      | stored i =>
        by_cases hlv : s.live i = true
        · have hi := live_lt hm hlv
          have hpe : info.peer = (s.inners i).info.peer := (h.own _ _ he).symm
          have hpu := peer_update (s.inners i) info aff hpe
          simp only [St.step, St.insert, he, hlv, if_true]
          split
          · exact h
          · split
            · exact kept_sub h rfl rfl (fun j => peer_edit s i (fun x => x.update info aff) hpu j) (fun j hj => hj)
            · refine kept_sub h (fromInner_entries _ _ _) (fromInner_pend _ _ _) (fun j => ?_) (fun j hj => ?_)
              · have := peer_edit s i (fun x => x.update info aff) hpu j
                unfold St.peerOf at *
                simp only [fromInner_inners]
                exact this
              · simp only at hj
                rw [live_fromInner (mem_edit hm _ _) _ _ _ hi] at hj
                rcases hj with hj | rfl
                · exact hj
                · exact hlv
        · simp only [St.step, St.insert, he, hlv]
          exact kept_alloc h hm info aff hc (find_dead he hlv)
  | update k info =>
    simp only [St.step, St.update]
    split
    · exact h
    · rename_i i hi
      split
      · exact h
      · split
        · exact h
        · exact kept_sub h rfl rfl (fun j => peer_edit s i (fun x => x.newer info) (peer_newer _ _ (hc i hi)) j) (fun j hj => hj)
  | ban p =>
    cases he : get s.entries p with
    | none => simp only [St.step, St.ban, he]; exact kept_ban h hc (find_other (by simp [he]))
    | some e =>
      cases e with
      | banned => simp only [St.step, St.ban, he]; exact h
      | stored i =>
        by_cases hlv : s.live i = true
        · simp only [St.step, St.ban, he, hlv, if_true]
          exact kept_sub h rfl rfl (fun j => peer_edit s i Inner.ban rfl j) (fun j hj => hj)
        · simp only [St.step, St.ban, he, hlv]
          exact kept_ban h hc (find_dead he hlv)
  | banHandle k =>
    simp only [St.step, St.banHandle]
    split
    · exact h
    · exact kept_sub h rfl rfl (fun j => peer_edit s _ Inner.ban rfl j) (fun j hj => hj)
  | make p aff =>
    simp only [St.step, St.make]
    split
    · exact h
    · rename_i i hf
      have hlv := (find_some hf).2
      have hi := live_lt hm hlv
      split
      · split
        · exact h
        · refine kept_sub h rfl rfl (fun j => peer_edit s i Inner.inc (by rw [peer_inc]) j) (fun j hj => ?_)
          simp only at hj
          rw [live_handleAff (mem_edit hm _ _) _ _ hi] at hj
          rcases hj with hj | rfl
          · exact hj
          · exact hlv
      · refine kept_sub h rfl rfl (fun j => rfl) (fun j hj => ?_)
        simp only at hj
        rw [live_handleSimple hm _ _ hi] at hj
        rcases hj with hj | rfl
        · exact hj
        · exact hlv
  | clone k =>
    cases hk : get s.handles k with
    | none => simp only [St.step, St.clone, hk]; exact h
    | some x =>
      have hst : s.step (.clone k) = (s.clone k).1 := rfl
      rw [hst]
      refine kept_sub h ?_ ?_ (fun j => ?_) (fun j hj => (live_clone hm k x hk j).1 hj) <;> simp [St.clone, hk, St.peerOf]
  | upgrade i =>
    simp only [St.step, St.upgrade]
    split
    · rename_i hlv
      refine kept_sub h rfl rfl (fun j => rfl) (fun j hj => ?_)
      simp only at hj
      rw [live_handleSimple hm _ _ (live_lt hm hlv)] at hj
      rcases hj with hj | rfl
      · exact hj
      · exact hlv
    · exact h
  | increase k =>
    simp only [St.step, St.increase]
    split
    · rename_i i hk
      refine kept_sub h rfl rfl (fun j => peer_edit s i Inner.inc (by rw [peer_inc]) j) (fun j hj => ?_)
      exact (live_wrap (mem_edit hm i Inner.inc) k i hk j).1 hj
    · exact h
  | decrease k =>
    simp only [St.step, St.decrease]
    split
    · rename_i w hk
      split
      · rename_i i hw
        refine kept_sub h (unwrap_entries _ _ _) (unwrap_pend _ _ _) (fun j => ?_) (fun j hj => ?_)
        · have := peer_edit s i Inner.dec (by rw [peer_dec]) j
          unfold St.peerOf at *
          simp only [St.toSimple, unwrap_inners]
          exact this
        · exact (live_simplify (mem_edit hm i Inner.dec) k w i hk hw j).1 hj
      · exact h
    · exact h
  | drop k =>
    have hfg := mem_step hm (.drop k)
    simp only [St.step, St.drop] at hfg ⊢
    split
    · exact h
    · rename_i i hk
      have hmf := mem_forget hm k (by intro w hw; rw [hk] at hw; simp at hw)
      have hlv : s.live i = true := (live_iff hm i).2 (.inl ⟨k, hk⟩)
      have hh := h.here i hlv
      exact kept_release (kept_sub (t := s.forget k) h rfl rfl (fun _ => rfl) (fun j => (live_forget hm k hmf j).1)) i hh.1 hh.2
    · rename_i w hk
      split
      · rename_i hs
        have hmf : Mem (s.forget k) := by
          refine mem_forget hm k (fun w' hw' => ?_)
          rw [hk] at hw'
          simp only [Option.some.injEq, Handle.aff.injEq] at hw'
          exact hw' ▸ hs
        exact kept_sub h rfl rfl (fun _ => rfl) (fun j => (live_forget hm k hmf j).1)
      · rename_i hs
        rw [Bool.not_eq_true] at hs
        split
        · rename_i i hw
          have hlv : s.live i = true := (live_iff hm i).2 (.inr (.inl ⟨w, hw⟩))
          have hh := h.here i hlv
          have hpe : ∀ j, (((s.edit i Inner.dec).unwrap k w).forget k).peerOf j = s.peerOf j := by
            intro j
            have := peer_edit s i Inner.dec (by rw [peer_dec]) j
            unfold St.peerOf at *
            simp only [St.forget, unwrap_inners]
            exact this
          have hen : (((s.edit i Inner.dec).unwrap k w).forget k).entries = s.entries := unwrap_entries _ _ _
          have hpn : (((s.edit i Inner.dec).unwrap k w).forget k).pend = s.pend := unwrap_pend _ _ _
          refine kept_release (kept_sub h hen hpn hpe
            (fun j => (live_forgetAff (mem_edit hm i Inner.dec) k w i hk hs hw j).1)) i ?_ ?_
          · rw [hpe, hen]; exact hh.1
          · rw [hpe, hpn]; exact hh.2
        · exact h
  | finish k =>
    simp only [St.step, St.finish]
    split
    · exact h
    · rename_i p hp
      obtain ⟨hk, hpe⟩ := List.getElem?_eq_some_iff.1 hp
      have her : s.pend.eraseIdx k = s.pend.erase p := by rw [← hpe]; exact (List.Nodup.erase_getElem h.once k hk).symm
      rw [her]
      have hmem : p ∈ s.pend := List.mem_of_getElem? hp
      refine ⟨fun i hl => ?_, fun q hq => ?_, fun q i hg => ?_, h.once.erase p⟩
      · have hh := h.here i hl
        have hne : s.peerOf i ≠ p := by intro e; rw [e] at hh; exact hh.2 hmem
        refine ⟨?_, fun hx => hh.2 (List.mem_of_mem_erase hx)⟩
        change get (del s.entries (fun x => decide (x = p))) (s.peerOf i) = _
        rw [get_del, if_neg (by simpa using hne)]
        exact hh.1
      · rw [h.once.mem_erase_iff] at hq
        simp only [get_del]
        rw [if_neg (by simpa using hq.1)]
        exact h.dead q hq.2
      · simp only [get_del] at hg
        split at hg
        · simp at hg
        · exact h.own q i hg
  | peek p =>
    simp only [St.step, St.peek]
    split
    · rename_i i hf
      have hlv := (find_some hf).2
      have hm' := mem_step hm (.peek p)
      simp only [St.step, St.peek, hf] at hm'
      refine kept_sub h rfl rfl (fun _ => rfl) (fun j hj => ?_)
      rw [live_iff hm'] at hj
      rcases hj with hj | hj | hj
      · exact (live_iff hm j).2 (.inl hj)
      · exact (live_iff hm j).2 (.inr (.inl hj))
      · rcases List.mem_cons.1 hj with rfl | hj
        · exact hlv
        · exact (live_iff hm j).2 (.inr (.inr hj))
    · exact h
  | unpeek i =>
    have hm' := mem_step hm (.unpeek i)
    refine kept_sub h rfl rfl (fun _ => rfl) (fun j hj => ?_)
    rw [live_iff hm'] at hj
    rcases hj with hj | hj | hj
    · exact (live_iff hm j).2 (.inl hj)
    · exact (live_iff hm j).2 (.inr (.inl hj))
    · exact (live_iff hm j).2 (.inr (.inr (List.mem_of_mem_erase hj)))
  | remove p => exact absurd hc id

theorem calm_init {l : List Op} {o : Op} (h : Calm (l ++ [o])) : Calm l ∧ CalmAt (St.run l) o :=
  ⟨fun l1 o' l2 he => h l1 o' (l2 ++ [o]) (by rw [he]; simp), h l o [] rfl⟩

theorem kept_run (l : List Op) (h : Calm l) : Kept (St.run l) := by
  induction l using List.reverseRecOn with
  | nil => exact kept_new
  | append_singleton l o ih =>
    have := calm_init h
    rw [run_snoc]
    exact kept_step (ih this.1) (mem_run l) o this.2

end Tycho.KnownPeers
