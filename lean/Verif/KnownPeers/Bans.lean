import Verif.KnownPeers.Props
import Mathlib.Tactic.ByContra
/-! Bans, and when the registry forgets a peer. -/
namespace Tycho.KnownPeers
open Tycho.Table
open Tycho.Table (get)
variable {s t : St}

/-- What a step can do to shared data. -/
theorem inner_cases (s : St) (o : Op) (i : Nat) (hi : i < s.nextInner) :
    ∃ f : Inner → Inner, (s.step o).inners i = f (s.inners i) ∧
      (f = id ∨ f = Inner.inc ∨ f = Inner.dec ∨ f = Inner.ban ∨
        (∃ info aff allow, o = .insert info aff allow ∧ get s.entries info.peer = some (.stored i) ∧
          f = fun x => x.update info aff) ∨
        (∃ k info, o = .update k info ∧ (get s.handles k).bind s.innerOf = some i ∧ f = fun x => x.newer info)) := by
  have same : ∀ {t : St}, t.inners = s.inners → ∃ f : Inner → Inner, t.inners i = f (s.inners i) ∧
      (f = id ∨ f = Inner.inc ∨ f = Inner.dec ∨ f = Inner.ban ∨
        (∃ info aff allow, o = .insert info aff allow ∧ get s.entries info.peer = some (.stored i) ∧
          f = fun x => x.update info aff) ∨
        (∃ k info, o = .update k info ∧ (get s.handles k).bind s.innerOf = some i ∧ f = fun x => x.newer info)) := by
    intro t ht; exact ⟨id, by rw [ht]; rfl, .inl rfl⟩
  have ed : ∀ (j : Nat) (g : Inner → Inner), (j = i → (g = id ∨ g = Inner.inc ∨ g = Inner.dec ∨ g = Inner.ban ∨
        (∃ info aff allow, o = .insert info aff allow ∧ get s.entries info.peer = some (.stored i) ∧
          g = fun x => x.update info aff) ∨
        (∃ k info, o = .update k info ∧ (get s.handles k).bind s.innerOf = some i ∧ g = fun x => x.newer info))) →
      ∃ f : Inner → Inner, (s.edit j g).inners i = f (s.inners i) ∧
      (f = id ∨ f = Inner.inc ∨ f = Inner.dec ∨ f = Inner.ban ∨
        (∃ info aff allow, o = .insert info aff allow ∧ get s.entries info.peer = some (.stored i) ∧
          f = fun x => x.update info aff) ∨
        (∃ k info, o = .update k info ∧ (get s.handles k).bind s.innerOf = some i ∧ f = fun x => x.newer info)) := by
    intro j g hg
    by_cases h : i = j
    · subst h; exact ⟨g, edit_same _ _ _, hg rfl⟩
    · exact ⟨id, by rw [edit_other _ _ _ _ h]; rfl, .inl rfl⟩
  have al : ∀ info aff, ∃ f : Inner → Inner, ((s.alloc info aff).inners i) = f (s.inners i) ∧
      (f = id ∨ f = Inner.inc ∨ f = Inner.dec ∨ f = Inner.ban ∨
        (∃ info aff allow, o = .insert info aff allow ∧ get s.entries info.peer = some (.stored i) ∧
          f = fun x => x.update info aff) ∨
        (∃ k info, o = .update k info ∧ (get s.handles k).bind s.innerOf = some i ∧ f = fun x => x.newer info)) := by
    intro info aff
    refine ⟨id, ?_, .inl rfl⟩
    simp only [St.alloc]; rw [if_neg (by omega)]; rfl
  cases o with
  | insert info aff allow =>
    simp only [St.step, St.insert]
    split
    · exact same rfl
    · rw [fromInner_inners]; exact al info aff
    · rename_i j he
      have := ed j (fun x => x.update info aff)
        (fun e => .inr (.inr (.inr (.inr (.inl ⟨info, aff, allow, rfl, e ▸ he, rfl⟩)))))
      split
      · split
        · exact same rfl
        · split
          · exact this
          · rw [fromInner_inners]; exact this
      · rw [fromInner_inners]; exact al info aff
  | update k info =>
    simp only [St.step, St.update]
    split
    · exact same rfl
    · rename_i j hj
      split
      · exact same rfl
      · split
        · exact same rfl
        · exact ed j (fun x => x.newer info)
            (fun e => .inr (.inr (.inr (.inr (.inr ⟨k, info, rfl, e ▸ hj, rfl⟩)))))
  | ban p =>
    simp only [St.step, St.ban]
    split
    · exact same rfl
    · exact same rfl
    · split
      · exact ed _ Inner.ban (fun _ => by simp)
      · exact same rfl
  | banHandle k =>
    simp only [St.step, St.banHandle]
    split
    · exact same rfl
    · exact ed _ Inner.ban (fun _ => by simp)
  | make p aff =>
    simp only [St.step, St.make]
    split
    · exact same rfl
    · split
      · split
        · exact same rfl
        · exact ed _ Inner.inc (fun _ => by simp)
      · exact same rfl
  | clone k => simp only [St.step, St.clone]; split <;> exact same rfl
  | upgrade k => simp only [St.step, St.upgrade]; split <;> exact same rfl
  | increase k =>
    simp only [St.step, St.increase]
    split
    · exact ed _ Inner.inc (fun _ => by simp)
    · exact same rfl
  | decrease k =>
    simp only [St.step, St.decrease]
    split
    · split
      · simp only [St.toSimple, unwrap_inners]; exact ed _ Inner.dec (fun _ => by simp)
      · exact same rfl
    · exact same rfl
  | drop k =>
    simp only [St.step, St.drop]
    split
    · exact same rfl
    · rw [release_inners]; exact same rfl
    · split
      · exact same rfl
      · split
        · rw [release_inners]; simp only [St.forget, unwrap_inners]; exact ed _ Inner.dec (fun _ => by simp)
        · exact same rfl
  | finish k => simp only [St.step, St.finish]; split <;> exact same rfl
  | peek p => simp only [St.step, St.peek]; split <;> exact same rfl
  | unpeek k => exact same rfl
  | remove p => exact same rfl

/-- Shared data stays banned. -/
theorem aff_stays (s : St) (o : Op) (i : Nat) (hi : i < s.nextInner) (hb : (s.inners i).aff = banned) :
    ((s.step o).inners i).aff = banned := by
  obtain ⟨f, h1, h2⟩ := inner_cases s o i hi
  rw [h1]
  rcases h2 with rfl | rfl | rfl | rfl | ⟨info, aff, _, _, _, rfl⟩ | ⟨_, info, _, _, rfl⟩
  · exact hb
  · simp [Inner.inc, hb]
  · simp [Inner.dec, hb]
  · rfl
  · cases aff <;> simp [Inner.update, newer_aff, Inner.inc, hb]
  · simp [newer_aff, hb]

/-- Its peer does not change in a calm step. -/
theorem peer_stays (h : Kept s) (o : Op) (hc : CalmAt s o) (i : Nat) (hi : i < s.nextInner) :
    (s.step o).peerOf i = s.peerOf i := by
  obtain ⟨f, h1, h2⟩ := inner_cases s o i hi
  unfold St.peerOf
  rw [h1]
  rcases h2 with rfl | rfl | rfl | rfl | ⟨info, aff, allow, rfl, he, rfl⟩ | ⟨k, info, rfl, hk, rfl⟩
  · rfl
  · rw [peer_inc]
  · rw [peer_dec]
  · rfl
  · exact peer_update _ _ _ (h.own _ _ he).symm
  · exact peer_newer _ _ (hc i hk)

/-- An entry that is a ban stays. -/
theorem entry_banned_stays (h : Kept s) (o : Op) (hc : CalmAt s o) (p : Nat) (hb : get s.entries p = some .banned) :
    get (s.step o).entries p = some .banned := by
  cases o with
  | insert info aff allow =>
    simp only [St.step, St.insert]
    have halloc : info.peer ≠ p → get (s.alloc info aff).entries p = some .banned := by
      intro hne; simp only [St.alloc, get_put]; rw [if_neg (Ne.symm hne)]; exact hb
    split
    · exact hb
    · rename_i he
      rw [fromInner_entries]; exact halloc (by rintro rfl; rw [hb] at he; simp at he)
    · rename_i j he
      split
      · split
        · exact hb
        · split
          · exact hb
          · rw [fromInner_entries]; exact hb
      · rw [fromInner_entries]; exact halloc (by rintro rfl; rw [hb] at he; simp at he)
  | update k info =>
    simp only [St.step, St.update]
    split
    · exact hb
    · split
      · exact hb
      · split <;> exact hb
  | ban q =>
    have hput : get (put s.entries q .banned) p = some .banned := by
      rw [get_put]; split
      · rfl
      · exact hb
    simp only [St.step, St.ban]
    split
    · exact hput
    · exact hb
    · split
      · exact hb
      · exact hput
  | banHandle k => simp only [St.step, St.banHandle]; split <;> exact hb
  | make q aff =>
    simp only [St.step, St.make]
    split
    · exact hb
    · split
      · split <;> exact hb
      · exact hb
  | clone k => simp only [St.step, St.clone]; split <;> exact hb
  | upgrade k => simp only [St.step, St.upgrade]; split <;> exact hb
  | increase k => simp only [St.step, St.increase]; split <;> exact hb
  | decrease k =>
    simp only [St.step, St.decrease]
    split
    · split
      · simp only [St.toSimple, unwrap_entries]; exact hb
      · exact hb
    · exact hb
  | drop k =>
    have hrel : ∀ (t : St) i, (t.release i).entries = t.entries := by
      intro t i; unfold St.release; split
      · rfl
      · split <;> rfl
    simp only [St.step, St.drop]
    split
    · exact hb
    · rw [hrel]; exact hb
    · split
      · exact hb
      · split
        · rw [hrel]; simp only [St.forget, unwrap_entries]; exact hb
        · exact hb
  | finish k =>
    simp only [St.step, St.finish]
    split
    · exact hb
    · rename_i q hq
      have hne : p ≠ q := by
        rintro rfl
        obtain ⟨i, hi⟩ := h.dead p (List.mem_of_getElem? hq)
        rw [hb] at hi; simp at hi
      simp only [get_del]
      rw [if_neg (by simpa using hne)]
      exact hb
  | peek q => simp only [St.step, St.peek]; split <;> exact hb
  | unpeek k => exact hb
  | remove q => exact absurd hc id

theorem isBanned_iff (s : St) (p : Nat) : s.isBanned p = true ↔ get s.entries p = some .banned ∨
    ∃ i, s.find p = some i ∧ (s.inners i).aff = banned := by
  unfold St.isBanned
  cases he : get s.entries p with
  | none => simp [St.find, he]
  | some e =>
    cases e with
    | banned => simp
    | stored i =>
      by_cases hl : s.live i = true
      · simp [St.find, he, hl, Inner.isBanned]
      · simp [St.find, he, hl]

/-- **A ban lasts as long as the record.** In a calm history a banned peer stays banned, until the last handle of the peer is
dropped. -/
theorem ban_lasts (l : List Op) (o : Op) (hc : Calm (l ++ [o])) (p : Nat) (hb : (St.run l).isBanned p = true) :
    (St.run (l ++ [o])).isBanned p = true ∨
    (∃ i, (St.run l).find p = some i ∧ (St.run (l ++ [o])).live i = false) := by
  have hca := calm_init hc
  have hk' := kept_run _ hc
  have hk := kept_run _ hca.1
  have hm := mem_run l
  rw [run_snoc] at hk' ⊢
  generalize St.run l = s at *
  rw [isBanned_iff] at hb
  rcases hb with hb | ⟨i, hf, ha⟩
  · left; rw [isBanned_iff]; exact .inl (entry_banned_stays hk o hca.2 p hb)
  · have hl := (find_some hf).2
    have hi := live_lt hm hl
    by_cases hl' : (s.step o).live i = true
    · left
      rw [isBanned_iff]
      refine .inr ⟨i, ?_, aff_stays s o i hi ha⟩
      have he := (hk'.here i hl').1
      rw [peer_stays hk o hca.2 i hi, hk.own _ _ (find_some hf).1] at he
      exact find_stored he hl'
    · exact .inr ⟨i, hf, by simpa using hl'⟩

/-- **A ban takes effect.** After a call of `ban` the registry calls the peer banned; a ban through a handle bans the peer of
the handle and tells whether it was not banned before. -/
theorem ban_takes (l : List Op) :
    (∀ p, ((St.run l).step (.ban p)).isBanned p = true) ∧
    (∀ h i, (St.run l).refers h i → (((St.run l).step (.banHandle h)).inners i).affinity = .never) := by
  generalize St.run l = s
  refine ⟨fun p => ?_, fun h i hr => ?_⟩
  · rw [isBanned_iff]
    cases he : get s.entries p with
    | none => simp [St.step, St.ban, he, get_put]
    | some e =>
      cases e with
      | banned => simp [St.step, St.ban, he]
      | stored i =>
        by_cases hl : s.live i = true
        · right
          have hst : s.step (.ban p) = s.edit i Inner.ban := by simp [St.step, St.ban, he, hl]
          rw [hst]
          exact ⟨i, find_stored (s := s.edit i Inner.ban) he hl, by rw [edit_same]; rfl⟩
        · left; simp [St.step, St.ban, he, hl, get_put]
  · obtain ⟨x, h1, h2⟩ := hr
    have : (get s.handles h).bind s.innerOf = some i := by rw [h1]; exact h2
    simp only [St.step, St.banHandle, this, edit_same]
    have hb0 : banned ≠ 0 := by decide
    simp [Inner.affinity, Inner.ban, hb0]

/-- **More handles.** A handle of a known peer is given exactly if the registry leads to living data and, when affinity is
asked for, the peer is not banned; it is of the asked kind and shares the data. -/
theorem make_exact (s : St) (p : Nat) (aff : Bool) :
    ((∃ i, s.find p = some i ∧ (aff = true → (s.inners i).isBanned = false) ∧ (s.make p aff).2 = .handle s.nextHandle ∧
        (s.make p aff).1.refers s.nextHandle i ∧ (aff = true → (s.make p aff).1.refersAff s.nextHandle i)) ∨
      ((s.make p aff).2 = .none ∧ (s.make p aff).1 = s ∧
        (s.find p = none ∨ (aff = true ∧ s.isBanned p = true)))) := by
  cases hf : s.find p with
  | none => exact .inr (by simp [St.make, hf])
  | some i =>
    cases aff with
    | false =>
      refine .inl ⟨i, rfl, by simp, by simp [St.make, hf], ?_, by simp⟩
      have hr := (refers_fromInner s i false).1
      simp only [St.make, hf]
      exact hr
    | true =>
      by_cases hb : (s.inners i).isBanned = true
      · refine .inr ⟨by simp [St.make, hf, hb], by simp [St.make, hf, hb], .inr ⟨rfl, ?_⟩⟩
        rw [isBanned_iff]
        exact .inr ⟨i, hf, by simpa [Inner.isBanned] using hb⟩
      · have hr := refers_fromInner (s.edit i Inner.inc) i true
        refine .inl ⟨i, rfl, fun _ => by simpa using hb, by simp [St.make, hf, hb], ?_, fun _ => ?_⟩
        · simp only [St.make, hf, hb]; exact hr.1
        · simp only [St.make, hf, hb]; exact hr.2 rfl

/-- **A ban of a stranger lasts forever.** A peer banned while it has no handles stays banned in all calm histories. -/
theorem ban_forever (l l' : List Op) (hc : Calm (l ++ l')) (p : Nat) (hb : (St.run l).isBanned p = true)
    (hf : (St.run l).find p = none) : (St.run (l ++ l')).isBanned p = true := by
  suffices H : get (St.run (l ++ l')).entries p = some .banned by
    rw [isBanned_iff]; exact .inl H
  have h0 : get (St.run l).entries p = some .banned := by
    rw [isBanned_iff] at hb
    rcases hb with hb | ⟨i, hi, _⟩
    · exact hb
    · rw [hf] at hi; simp at hi
  clear hb hf
  induction l' using List.reverseRecOn with
  | nil => rw [List.append_nil]; exact h0
  | append_singleton l' o ih =>
    rw [← List.append_assoc] at hc ⊢
    have hca := calm_init hc
    rw [run_snoc]
    exact entry_banned_stays (kept_run _ hca.1) o hca.2 p (ih hca.1)

/-! ### When a peer is forgotten -/

/-- An entry that leads nowhere belonged to a banned peer or its removal is owed. -/
def Reason (s : St) : Prop :=
  s.temps = [] ∧ ∀ p i, get s.entries p = some (.stored i) → s.live i = true ∨ (s.inners i).aff = banned ∨ p ∈ s.pend

/-- No call holds a temporary reference while handles are dropped. -/
def NoPeek (l : List Op) : Prop := ∀ p, Op.peek p ∉ l

theorem reason_mono (h : Reason s) (hm : Mem s) (o : Op) (he : (s.step o).entries = s.entries) (ht : (s.step o).temps = s.temps)
    (hp : ∀ q ∈ s.pend, q ∈ (s.step o).pend)
    (hl : ∀ i, s.live i = true → (s.step o).live i = true) : Reason (s.step o) := by
  refine ⟨ht ▸ h.1, fun p i hg => ?_⟩
  rw [he] at hg
  rcases h.2 p i hg with h1 | h1 | h1
  · exact .inl (hl i h1)
  · exact .inr (.inl (aff_stays s o i (hm.el _ _ hg) h1))
  · exact .inr (.inr (hp p h1))

theorem reason_alloc (h : Reason s) (hm : Mem s) (info : Info) (aff allow : Bool)
    (hs : s.step (.insert info aff allow) = (s.alloc info aff).fromInner s.nextInner aff) :
    Reason (s.step (.insert info aff allow)) := by
  have hst := fun i hi hb => aff_stays s (.insert info aff allow) i hi hb
  rw [hs] at hst ⊢
  have hl := fun j => live_fromInner (mem_alloc hm info aff) s.nextInner j aff (Nat.lt_succ_self _)
  refine ⟨?_, fun p i hg => ?_⟩
  · cases aff <;> exact h.1
  · rw [fromInner_entries] at hg
    simp only [St.alloc, get_put] at hg
    split at hg
    · simp only [Option.some.injEq, Entry.stored.injEq] at hg
      exact .inl ((hl i).2 (.inr hg.symm))
    · rcases h.2 p i hg with h1 | h1 | h1
      · exact .inl ((hl i).2 (.inl h1))
      · exact .inr (.inl (hst i (hm.el _ _ hg) h1))
      · rw [fromInner_pend]; exact .inr (.inr h1)

theorem reason_entry (h : Reason s) (p : Nat) : Reason { s with entries := put s.entries p .banned } := by
  refine ⟨h.1, fun q i hg => ?_⟩
  simp only [get_put] at hg
  split at hg
  · simp at hg
  · exact h.2 q i hg

theorem release_temps (s : St) (i : Nat) : (s.release i).temps = s.temps := by
  unfold St.release; split
  · rfl
  · split <;> rfl

theorem release_entries (s : St) (i : Nat) : (s.release i).entries = s.entries := by
  unfold St.release; split
  · rfl
  · split <;> rfl

theorem release_live (s : St) (i j : Nat) : (s.release i).live j = s.live j := by
  unfold St.release; split
  · rfl
  · split <;> rfl

theorem release_pend (s : St) (i q : Nat) (h : q ∈ s.pend) : q ∈ (s.release i).pend := by
  unfold St.release; split
  · exact h
  · split
    · exact h
    · exact List.mem_append_left _ h

/-- After a drop: `t` is the memory without the handle. -/
theorem reason_drop {t : St} (h : Reason s) (hm : Mem s) (i : Nat) (he : t.entries = s.entries) (ht : t.temps = s.temps)
    (hp : t.pend = s.pend) (hl : ∀ j, s.live j = true → j ≠ i → t.live j = true)
    (ha : ∀ j, j < s.nextInner → (s.inners j).aff = banned → (t.inners j).aff = banned)
    (hpi : ∀ p, get s.entries p = some (.stored i) → (t.inners i).info.peer = p) : Reason (t.release i) := by
  refine ⟨by rw [release_temps, ht]; exact h.1, fun p j hg => ?_⟩
  rw [release_entries, he] at hg
  by_cases hj : j = i
  · subst hj
    by_cases hb : (t.inners j).aff = banned
    · exact .inr (.inl (by rw [release_inners]; exact hb))
    · by_cases hlv : t.live j = true
      · exact .inl (by rw [release_live]; exact hlv)
      · right; right
        unfold St.release
        rw [if_neg (by simp [Inner.isBanned, hb]), if_neg hlv]
        simp [hpi p hg]
  · rcases h.2 p j hg with h1 | h1 | h1
    · exact .inl (by rw [release_live]; exact hl j h1 hj)
    · exact .inr (.inl (by rw [release_inners]; exact ha j (hm.el _ _ hg) h1))
    · exact .inr (.inr (release_pend _ _ _ (hp ▸ h1)))

theorem dec_banned (x : Inner) (h : x.aff = banned) : x.dec.aff = banned := by simp [Inner.dec, h]

theorem reason_step (h : Reason s) (hk : Kept s) (hm : Mem s) (o : Op) (hc : CalmAt s o) (hn : ∀ p, o ≠ .peek p) :
    Reason (s.step o) := by
  have hs' : ∀ {t : St}, t = s → Reason t := by rintro t rfl; exact h
  cases o with
  | insert info aff allow =>
    cases he : get s.entries info.peer with
    | none => exact reason_alloc h hm info aff allow (by simp only [St.step, St.insert, he])
    | some e =>
      cases e with
      | banned => exact hs' (by simp only [St.step, St.insert, he])
      | stored i =>
        by_cases hlv : s.live i = true
        · by_cases hb : (s.inners i).isBanned = true
          · exact hs' (by simp only [St.step, St.insert, he, hlv, hb, if_true])
          · by_cases ho : info.created < (s.inners i).info.created ∧ allow = false
            · have hst : s.step (.insert info aff allow) = s.edit i (fun x => x.update info aff) := by
                simp only [St.step, St.insert, he, hlv, hb, ho]; simp
              exact reason_mono h hm _ (by rw [hst]; rfl) (by rw [hst]; rfl) (by rw [hst]; exact fun q hq => hq)
                (by rw [hst]; exact fun j hj => hj)
            · have hst : s.step (.insert info aff allow) = (s.edit i (fun x => x.update info aff)).fromInner i aff := by
                simp only [St.step, St.insert, he, hlv, hb, ho]; simp
              refine reason_mono h hm _ (by rw [hst, fromInner_entries]; rfl) (by rw [hst]; cases aff <;> rfl)
                (by rw [hst, fromInner_pend]; exact fun q hq => hq) ?_
              intro j hj
              rw [hst, live_fromInner (mem_edit hm _ _) _ _ _ (live_lt hm hlv)]
              exact .inl hj
        · exact reason_alloc h hm info aff allow (by simp only [St.step, St.insert, he, hlv]; simp)
  | update k info =>
    have hst : s.step (.update k info) = s ∨ ∃ j, s.step (.update k info) = s.edit j (fun x => x.newer info) := by
      simp only [St.step, St.update]
      split
      · exact .inl rfl
      · rename_i j _
        split
        · exact .inl rfl
        · split
          · exact .inl rfl
          · exact .inr ⟨j, rfl⟩
    rcases hst with hst | ⟨j, hst⟩
    · exact hs' hst
    · exact reason_mono h hm _ (by rw [hst]; rfl) (by rw [hst]; rfl) (by rw [hst]; exact fun q hq => hq)
        (by rw [hst]; exact fun j hj => hj)
  | ban p =>
    have hst : s.step (.ban p) = s ∨ s.step (.ban p) = { s with entries := put s.entries p .banned } ∨
        ∃ j, s.step (.ban p) = s.edit j Inner.ban := by
      simp only [St.step, St.ban]
      split
      · exact .inr (.inl rfl)
      · exact .inl rfl
      · rename_i j _
        split
        · exact .inr (.inr ⟨j, rfl⟩)
        · exact .inr (.inl rfl)
    rcases hst with hst | hst | ⟨j, hst⟩
    · exact hs' hst
    · rw [hst]; exact reason_entry h p
    · exact reason_mono h hm _ (by rw [hst]; rfl) (by rw [hst]; rfl) (by rw [hst]; exact fun q hq => hq)
        (by rw [hst]; exact fun j hj => hj)
  | banHandle k =>
    cases hh : (get s.handles k).bind s.innerOf with
    | none => exact hs' (by simp only [St.step, St.banHandle, hh])
    | some j =>
      have hst : s.step (.banHandle k) = s.edit j Inner.ban := by simp only [St.step, St.banHandle, hh]
      exact reason_mono h hm _ (by rw [hst]; rfl) (by rw [hst]; rfl) (by rw [hst]; exact fun q hq => hq)
        (by rw [hst]; exact fun j hj => hj)
  | make p aff =>
    cases hf : s.find p with
    | none => exact hs' (by simp only [St.step, St.make, hf])
    | some i =>
      have hi := live_lt hm (find_some hf).2
      cases aff with
      | false =>
        have hst : s.step (.make p false) = s.handleSimple i := by simp [St.step, St.make, hf]
        refine reason_mono h hm _ (by rw [hst]; rfl) (by rw [hst]; rfl) (by rw [hst]; exact fun q hq => hq) (fun j hj => ?_)
        rw [hst, live_handleSimple hm _ _ hi]; exact .inl hj
      | true =>
        by_cases hb : (s.inners i).isBanned = true
        · exact hs' (by simp [St.step, St.make, hf, hb])
        · have hst : s.step (.make p true) = (s.edit i Inner.inc).handleAff i := by simp [St.step, St.make, hf, hb]
          refine reason_mono h hm _ (by rw [hst]; rfl) (by rw [hst]; rfl) (by rw [hst]; exact fun q hq => hq) (fun j hj => ?_)
          rw [hst, live_handleAff (mem_edit hm _ _) _ _ hi]; exact .inl hj
  | clone k =>
    cases hg : get s.handles k with
    | none => exact hs' (by simp only [St.step, St.clone, hg])
    | some x =>
      refine reason_mono h hm _ ?_ ?_ ?_ (fun j hj => (live_clone hm k x hg j).2 hj) <;> simp [St.step, St.clone, hg]
  | upgrade i =>
    by_cases hl : s.live i = true
    · have hst : s.step (.upgrade i) = s.handleSimple i := by simp [St.step, St.upgrade, hl]
      refine reason_mono h hm _ (by rw [hst]; rfl) (by rw [hst]; rfl) (by rw [hst]; exact fun q hq => hq) (fun j hj => ?_)
      rw [hst, live_handleSimple hm _ _ (live_lt hm hl)]; exact .inl hj
    · exact hs' (by simp [St.step, St.upgrade, hl])
  | increase k =>
    cases hg : get s.handles k with
    | none => exact hs' (by simp only [St.step, St.increase, hg])
    | some x =>
      cases x with
      | aff w => exact hs' (by simp only [St.step, St.increase, hg])
      | simple i =>
        have hst : s.step (.increase k) = (s.edit i Inner.inc).wrap k i := by simp only [St.step, St.increase, hg]
        refine reason_mono h hm _ (by rw [hst]; rfl) (by rw [hst]; rfl) (by rw [hst]; exact fun q hq => hq) (fun j hj => ?_)
        rw [hst, live_wrap (mem_edit hm _ _) k i hg]; exact hj
  | decrease k =>
    cases hg : get s.handles k with
    | none => exact hs' (by simp only [St.step, St.decrease, hg])
    | some x =>
      cases x with
      | simple i => exact hs' (by simp only [St.step, St.decrease, hg])
      | aff w =>
        obtain ⟨i, hw⟩ := hm.hw _ _ hg
        have hst : s.step (.decrease k) = ((s.edit i Inner.dec).unwrap k w).toSimple k i := by
          simp only [St.step, St.decrease, hg, hw]
        have hut : (((s.edit i Inner.dec).unwrap k w).toSimple k i).temps = s.temps := by
          simp only [St.toSimple]; unfold St.unwrap; split <;> rfl
        refine reason_mono h hm _ (by rw [hst]; exact unwrap_entries _ _ _) (by rw [hst]; exact hut)
          (by rw [hst]; exact fun q hq => (unwrap_pend (s.edit i Inner.dec) k w).symm ▸ hq) (fun j hj => ?_)
        rw [hst, live_simplify (mem_edit hm i Inner.dec) k w i hg hw]; exact hj
  | drop k =>
    cases hg : get s.handles k with
    | none => exact hs' (by simp only [St.step, St.drop, hg])
    | some x =>
      cases x with
      | simple i =>
        have hst : s.step (.drop k) = (s.forget k).release i := by simp only [St.step, St.drop, hg]
        rw [hst]
        have hmf := mem_forget hm k (by intro w hw; rw [hg] at hw; simp at hw)
        refine reason_drop (t := s.forget k) h hm i rfl rfl rfl (fun j hj hne => ?_) (fun j _ hb => hb) (fun p hp => hk.own _ _ hp)
        exact (live_forget hm k hmf j).2 hj (by rw [hg]; simpa using Ne.symm hne)
      | aff w =>
        by_cases hsh : s.shared k w = true
        · have hst : s.step (.drop k) = s.forget k := by simp only [St.step, St.drop, hg, hsh, if_true]
          have hmf : Mem (s.forget k) := by
            refine mem_forget hm k (fun w' hw' => ?_)
            rw [hg] at hw'
            simp only [Option.some.injEq, Handle.aff.injEq] at hw'
            exact hw' ▸ hsh
          refine reason_mono h hm _ (by rw [hst]; rfl) (by rw [hst]; rfl) (by rw [hst]; exact fun q hq => hq) (fun j hj => ?_)
          rw [hst]
          exact (live_forget hm k hmf j).2 hj (by rw [hg]; simp)
        · rw [Bool.not_eq_true] at hsh
          obtain ⟨i, hw⟩ := hm.hw _ _ hg
          have hst : s.step (.drop k) = (((s.edit i Inner.dec).unwrap k w).forget k).release i := by
            simp only [St.step, St.drop, hg, hsh, hw]; simp
          rw [hst]
          have hut : (((s.edit i Inner.dec).unwrap k w).forget k).temps = s.temps := by
            simp only [St.forget]; unfold St.unwrap; split <;> rfl
          refine reason_drop h hm i (unwrap_entries _ _ _) hut (unwrap_pend _ _ _) (fun j hj hne => ?_) (fun j hj hb => ?_)
            (fun p hp => ?_)
          · exact (live_forgetAff (mem_edit hm i Inner.dec) k w i hg hsh hw j).2 hj hne
          · simp only [St.forget, unwrap_inners]
            by_cases he : j = i
            · subst he; rw [edit_same]; exact dec_banned _ hb
            · rw [edit_other _ _ _ _ he]; exact hb
          · simp only [St.forget, unwrap_inners, edit_same, peer_dec]
            exact hk.own _ _ hp
  | finish k =>
    cases hp : s.pend[k]? with
    | none => exact hs' (by simp only [St.step, St.finish, hp])
    | some p =>
      obtain ⟨hk', hpe⟩ := List.getElem?_eq_some_iff.1 hp
      have her : s.pend.eraseIdx k = s.pend.erase p := by rw [← hpe]; exact (List.Nodup.erase_getElem hk.once k hk').symm
      simp only [St.step, St.finish, hp, her]
      refine ⟨h.1, fun q i hg => ?_⟩
      simp only [get_del] at hg
      split at hg
      · simp at hg
      · rename_i hne
        rcases h.2 q i hg with h1 | h1 | h1
        · exact .inl h1
        · exact .inr (.inl h1)
        · exact .inr (.inr (hk.once.mem_erase_iff.2 ⟨by simpa using hne, h1⟩))
  | peek p => exact absurd rfl (hn p)
  | unpeek i =>
    refine reason_mono h hm _ rfl (by simp [St.step, St.unpeek, h.1]) (fun q hq => hq) (fun j hj => ?_)
    rw [live_iff (mem_step hm (.unpeek i))]
    rcases (live_iff hm j).1 hj with h1 | h1 | h1
    · exact .inl h1
    · exact .inr (.inl h1)
    · rw [h.1] at h1; simp at h1
  | remove p => exact absurd hc id

theorem reason_run (l : List Op) (hc : Calm l) (hn : NoPeek l) : Reason (St.run l) := by
  induction l using List.reverseRecOn with
  | nil => exact ⟨rfl, fun p i h => by simp [St.run, St.new, Table.get] at h⟩
  | append_singleton l o ih =>
    have hca := calm_init hc
    rw [run_snoc]
    refine reason_step (ih hca.1 (fun p hp => hn p (List.mem_append_left _ hp))) (kept_run l hca.1) (mem_run l) o hca.2 ?_
    rintro p rfl
    exact hn p (by simp)

/-- **A peer is known as long as someone cares.** In a calm history in which no call holds a temporary reference while
handles are dropped, and when no drop is in progress, the registry contains exactly the peers with a living handle, the
banned ones, and those that were banned when their last handle was dropped. -/
theorem known_iff (l : List Op) (hc : Calm l) (hn : NoPeek l) (hp : (St.run l).pend = []) (p : Nat) :
    (St.run l).contains p = true ↔
      (∃ h i, (St.run l).refers h i ∧ ((St.run l).inners i).info.peer = p) ∨
      get (St.run l).entries p = some .banned ∨
      (∃ i, get (St.run l).entries p = some (.stored i) ∧ (St.run l).live i = false ∧ ((St.run l).inners i).aff = banned) := by
  have hr := reason_run l hc hn
  have hk := kept_run l hc
  have hm := mem_run l
  generalize St.run l = s at *
  constructor
  · intro h
    cases he : get s.entries p with
    | none => simp [St.contains, he] at h
    | some e =>
      cases e with
      | banned => exact .inr (.inl rfl)
      | stored i =>
        by_cases hl : s.live i = true
        · left
          rcases (live_iff hm i).1 hl with ⟨k, hk'⟩ | ⟨w, hw⟩ | ht
          · exact ⟨k, i, ⟨_, hk', rfl⟩, hk.own _ _ he⟩
          · obtain ⟨k, hk'⟩ := hm.wh _ _ hw
            exact ⟨k, i, ⟨_, hk', hw⟩, hk.own _ _ he⟩
          · rw [hr.1] at ht; simp at ht
        · refine .inr (.inr ⟨i, rfl, by simpa using hl, ?_⟩)
          rcases hr.2 p i he with h1 | h1 | h1
          · exact absurd h1 hl
          · exact h1
          · rw [hp] at h1; simp at h1
  · rintro (⟨k, i, hr', rfl⟩ | hb | ⟨i, hi, _⟩)
    · have : get s.entries (s.inners i).info.peer = some (.stored i) := (hk.here i (refers_live hm hr')).1
      simp [St.contains, this]
    · simp [St.contains, hb]
    · simp [St.contains, hi]

end Tycho.KnownPeers
