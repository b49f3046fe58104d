import Verif.KnownPeers.Steps
/-! What the registry of known peers guarantees. -/
namespace Tycho.KnownPeers
open Tycho.Table
open Tycho.Table (get)
variable {s t : St}

/-- The handle `h` is alive and refers to the shared data `i`. -/
def St.refers (s : St) (h i : Nat) : Prop := ∃ x, get s.handles h = some x ∧ s.innerOf x = some i

/-- ... and it is a handle with affinity. -/
def St.refersAff (s : St) (h i : Nat) : Prop := ∃ w, get s.handles h = some (.aff w) ∧ get s.wraps w = some i

theorem refers_live (h : Mem s) {k i : Nat} (hr : s.refers k i) : s.live i = true := by
  obtain ⟨x, h1, h2⟩ := hr
  exact innerOf_lt h (k := k) (by rw [h1]; exact h2)

open Classical in
/-- **Affinity.** In every history in which affinity is never decreased through a handle that has clones: a peer has
affinity `Never` exactly if it was banned, and otherwise `High` exactly if there is a living handle with affinity, or an
insertion with affinity was rejected as outdated. -/
theorem affinity_exact (l : List Op) (hc : Careful l) (hl : l.length < banned) (h i : Nat) (hr : (St.run l).refers h i) :
    ((St.run l).inners i).affinity =
      if Bans l i then .never
      else if (∃ k, (St.run l).refersAff k i) ∨ i ∈ rejected l then .high else .allowed := by
  have hm := mem_run l
  have hcnt := counted_run l (by omega) hc
  have hi := live_lt hm (refers_live hm hr)
  generalize hs : St.run l = s at *
  have hb0 : banned ≠ 0 := by decide
  by_cases hb : Bans l i
  · rw [if_pos hb]
    have := (hcnt.ban i hb).2
    unfold Inner.affinity
    rw [this]; simp [hb0]
  · rw [if_neg hb]
    have hf := hcnt.free i hi hb
    have hlt := below hcnt (by omega) i hi hb
    have hz : (∃ k, s.refersAff k i) ∨ i ∈ rejected l ↔ (s.inners i).aff ≠ 0 := by
      rw [hf]
      have hw : (∃ k, s.refersAff k i) ↔ s.wrappers i ≠ 0 := by
        unfold St.wrappers St.refersAff
        rw [Ne, List.countP_eq_zero]
        constructor
        · rintro ⟨k, w, _, h2⟩ hall
          have := hall _ (mem_of_get _ _ _ h2)
          simp at this
        · intro hn
          simp only [decide_eq_true_eq, not_forall, not_not] at hn
          obtain ⟨e, he, hei⟩ := hn
          have hg := get_of_mem _ hm.uw e.1 e.2 he
          obtain ⟨k, hk⟩ := hm.wh _ _ hg
          exact ⟨k, e.1, hk, by rw [hg, hei]⟩
      have hrj : i ∈ rejected l ↔ (rejected l).count i ≠ 0 := by
        rw [Ne, List.count_eq_zero, not_not]
      rw [hw, hrj]
      omega
    unfold Inner.affinity
    by_cases h0 : (s.inners i).aff = 0
    · rw [if_pos h0, if_neg (by rw [hz]; simp [h0])]
    · rw [if_neg h0, if_pos (hz.2 h0), if_neg (by omega)]

/-- **One peer, one record.** In every calm history the registry leads to the data of every living handle: two handles of a
peer share their data, the info the registry gives is the one of the handle, and so are affinity and ban. -/
theorem handles_agree (l : List Op) (hc : Calm l) (h i : Nat) (hr : (St.run l).refers h i) :
    (∀ k j, (St.run l).refers k j → ((St.run l).inners j).info.peer = ((St.run l).inners i).info.peer → j = i) ∧
    (St.run l).contains ((St.run l).inners i).info.peer = true ∧
    (St.run l).peerInfo ((St.run l).inners i).info.peer = some ((St.run l).inners i).info ∧
    (St.run l).getAffinity ((St.run l).inners i).info.peer = some ((St.run l).inners i).affinity ∧
    (St.run l).isBanned ((St.run l).inners i).info.peer = ((St.run l).inners i).isBanned := by
  have hm := mem_run l
  have hk := kept_run l hc
  generalize St.run l = s at *
  have hl := refers_live hm hr
  have he : get s.entries (s.inners i).info.peer = some (.stored i) := (hk.here i hl).1
  refine ⟨fun k j hj hp => ?_, ?_, ?_, ?_, ?_⟩
  · have := (hk.here j (refers_live hm hj)).1
    unfold St.peerOf at this
    rw [hp, he] at this
    simpa using this.symm
  · simp [St.contains, he]
  · simp [St.peerInfo, he, hl]
  · simp [St.getAffinity, he, hl]
  · simp [St.isBanned, he, hl]

/-! ### Insertions and updates -/

/-- The newer of a known info, if any, and a given one; the known one stays on a tie. -/
def newest : Option Info → Info → Info
  | none, new => new
  | some old, new => if old.created < new.created then new else old

theorem newer_info (x : Inner) (info : Info) : (x.newer info).info = newest (some x.info) info := by
  unfold Inner.newer newest; simp only; split <;> rfl

theorem update_info (x : Inner) (info : Info) (aff : Bool) : (x.update info aff).info = newest (some x.info) info := by
  unfold Inner.update
  rw [newer_info]
  cases aff
  · rfl
  · simp only [if_true]; rw [peer_inc]

theorem refers_fromInner (s : St) (i : Nat) (aff : Bool) :
    (s.fromInner i aff).refers s.nextHandle i ∧ (aff = true → (s.fromInner i aff).refersAff s.nextHandle i) := by
  cases aff with
  | false => exact ⟨⟨.simple i, by simp [St.fromInner, St.handleSimple, get_put], rfl⟩, by simp⟩
  | true =>
    have hr : (s.fromInner i true).refersAff s.nextHandle i :=
      ⟨s.nextWrap, by simp [St.fromInner, St.handleAff, get_put], by simp [St.fromInner, St.handleAff, get_put]⟩
    obtain ⟨w, h1, h2⟩ := hr
    exact ⟨⟨.aff w, h1, h2⟩, fun _ => ⟨w, h1, h2⟩⟩

/-- What the registry says of a peer when its entry is known. -/
theorem peerInfo_of {p i : Nat} (he : get s.entries p = some (.stored i)) (hl : s.live i = true) :
    s.peerInfo p = some (s.inners i).info := by
  simp [St.peerInfo, he, hl]

/-- **Insertion.** After any history an insertion is refused as banned exactly if the registry calls the peer banned, and as
outdated exactly if a newer info is known and outdated ones are not allowed; otherwise it gives a handle of the asked kind,
and the registry knows the newer of both infos. A refusal leaves what the registry knows as it was. -/
theorem insert_exact (l : List Op) (info : Info) (aff allow : Bool) :
    ∀ s, s = St.run l → ∀ t r, s.insert info aff allow = (t, r) →
    (r = .isBanned ↔ s.isBanned info.peer = true) ∧
    (r = .outdated ↔ s.isBanned info.peer = false ∧ allow = false ∧
      ∃ old, s.peerInfo info.peer = some old ∧ info.created < old.created) ∧
    (r = .isBanned ∨ r = .outdated → t.peerInfo info.peer = s.peerInfo info.peer ∧ t.handles = s.handles) ∧
    (r ≠ .isBanned → r ≠ .outdated → ∃ h i, r = .handle h ∧ get s.handles h = none ∧ t.refers h i ∧
      (aff = true → t.refersAff h i) ∧ t.peerInfo info.peer = some (newest (s.peerInfo info.peer) info) ∧
      (t.inners i).info = newest (s.peerInfo info.peer) info) := by
  intro s hs t r hins
  have hm : Mem s := hs ▸ mem_run l
  clear hs
  have hfresh : get s.handles s.nextHandle = none := by
    cases hg : get s.handles s.nextHandle with
    | none => rfl
    | some x => exact absurd (hm.hlt _ _ hg) (Nat.lt_irrefl _)
  have hnew : s.peerInfo info.peer = none →
      ∃ h i, Res.handle s.nextHandle = .handle h ∧ get s.handles h = none ∧
      ((s.alloc info aff).fromInner s.nextInner aff).refers h i ∧
      (aff = true → ((s.alloc info aff).fromInner s.nextInner aff).refersAff h i) ∧
      ((s.alloc info aff).fromInner s.nextInner aff).peerInfo info.peer = some (newest (s.peerInfo info.peer) info) ∧
      (((s.alloc info aff).fromInner s.nextInner aff).inners i).info = newest (s.peerInfo info.peer) info := by
    intro hpi
    have hr := refers_fromInner (s.alloc info aff) s.nextInner aff
    have hi : (((s.alloc info aff).fromInner s.nextInner aff).inners s.nextInner).info = info := by
      rw [fromInner_inners]; simp [St.alloc]
    refine ⟨s.nextHandle, s.nextInner, rfl, hfresh, hr.1, hr.2, ?_, by rw [hpi]; exact hi⟩
    rw [hpi, peerInfo_of (i := s.nextInner), hi]
    · rfl
    · rw [fromInner_entries]; simp [St.alloc, get_put]
    · rw [live_fromInner (mem_alloc hm info aff) _ _ _ (Nat.lt_succ_self _)]; exact .inr rfl
  cases he : get s.entries info.peer with
  | none =>
    have hpi : s.peerInfo info.peer = none := by simp [St.peerInfo, he]
    have hb : s.isBanned info.peer = false := by simp [St.isBanned, he]
    simp only [St.insert, he, Prod.mk.injEq] at hins
    obtain ⟨rfl, rfl⟩ := hins
    exact ⟨by simp [hb], by simp [hpi], by simp, fun _ _ => hnew hpi⟩
  | some e =>
    cases e with
    | banned =>
      have hb : s.isBanned info.peer = true := by simp [St.isBanned, he]
      simp only [St.insert, he, Prod.mk.injEq] at hins
      obtain ⟨rfl, rfl⟩ := hins
      exact ⟨by simp [hb], by simp [hb], by simp, by simp⟩
    | stored i =>
      by_cases hl : s.live i = true
      · have hpi := peerInfo_of he hl
        have hi := live_lt hm hl
        by_cases hbn : (s.inners i).isBanned = true
        · have hb : s.isBanned info.peer = true := by simp [St.isBanned, he, hl, hbn]
          simp only [St.insert, he, hl, hbn, if_true, Prod.mk.injEq] at hins
          obtain ⟨rfl, rfl⟩ := hins
          exact ⟨by simp [hb], by simp [hb], by simp, by simp⟩
        · have hb : s.isBanned info.peer = false := by simp [St.isBanned, he, hl, hbn]
          by_cases ho : info.created < (s.inners i).info.created ∧ allow = false
          · simp only [St.insert, he, hl, hbn, ho] at hins
            simp only [if_true, Bool.false_eq_true, if_false, Prod.mk.injEq] at hins
            simp only [and_self, if_true] at hins
            obtain ⟨rfl, rfl⟩ := hins
            refine ⟨by simp [hb], ?_, fun _ => ⟨?_, rfl⟩, by simp⟩
            · simp only [true_iff]; exact ⟨hb, ho.2, _, hpi, ho.1⟩
            · have hx : (s.edit i (fun x => x.update info aff)).peerInfo info.peer =
                  some ((s.edit i (fun x => x.update info aff)).inners i).info := peerInfo_of (i := i) he hl
              rw [hpi, hx, edit_same, update_info]
              unfold newest; simp only
              rw [if_neg (by omega)]
          · simp only [St.insert, he, hl, hbn, ho] at hins
            simp only [if_true, Bool.false_eq_true, if_false, Prod.mk.injEq] at hins
            obtain ⟨rfl, rfl⟩ := hins
            refine ⟨by simp [hb], ?_, by simp, fun _ _ => ?_⟩
            · simp only [reduceCtorEq, false_iff]
              rintro ⟨_, h2, old, h3, h4⟩
              rw [hpi] at h3
              simp only [Option.some.injEq] at h3
              subst h3
              exact ho ⟨h4, h2⟩
            · have hr := refers_fromInner (s.edit i (fun x => x.update info aff)) i aff
              have hii : (((s.edit i (fun x => x.update info aff)).fromInner i aff).inners i).info =
                  newest (some (s.inners i).info) info := by
                rw [fromInner_inners, edit_same, update_info]
              refine ⟨s.nextHandle, i, rfl, hfresh, hr.1, hr.2, ?_, by rw [hpi]; exact hii⟩
              rw [hpi, ← hii]
              refine peerInfo_of (i := i) ?_ ?_
              · rw [fromInner_entries]; exact he
              · rw [live_fromInner (mem_edit hm _ _) _ _ _ hi]; exact .inl hl
      · have hpi : s.peerInfo info.peer = none := by simp [St.peerInfo, he, hl]
        have hb : s.isBanned info.peer = false := by simp [St.isBanned, he, hl]
        simp only [St.insert, he, hl] at hins
        simp only [Bool.false_eq_true, if_false, Prod.mk.injEq] at hins
        obtain ⟨rfl, rfl⟩ := hins
        exact ⟨by simp [hb], by simp [hpi], by simp, fun _ _ => hnew hpi⟩

/-- **Update.** An update through a living handle is refused as banned exactly if the peer is banned, as outdated exactly if
the known info is newer, and otherwise the newer of both is kept. -/
theorem update_exact (s : St) (h i : Nat) (hr : s.refers h i) (info : Info) :
    ((s.update h info).2 = .isBanned ↔ (s.inners i).isBanned = true) ∧
    ((s.update h info).2 = .outdated ↔ (s.inners i).isBanned = false ∧ info.created < (s.inners i).info.created) ∧
    ((s.update h info).2 = .done ↔ (s.inners i).isBanned = false ∧ ¬ info.created < (s.inners i).info.created) ∧
    ((s.update h info).1.inners i).info =
      (if (s.inners i).isBanned = true then (s.inners i).info else newest (some (s.inners i).info) info) := by
  obtain ⟨x, h1, h2⟩ := hr
  have : (get s.handles h).bind s.innerOf = some i := by rw [h1]; exact h2
  simp only [St.update, this]
  by_cases hb : (s.inners i).isBanned = true
  · simp [hb]
  · simp only [hb]
    by_cases ho : info.created < (s.inners i).info.created
    · have hne : newest (some (s.inners i).info) info = (s.inners i).info := by
        unfold newest; simp only; rw [if_neg (by omega)]
      simp [ho, hne]
    · simp [ho, edit_same, newer_info]

theorem newest_mono (old new : Info) : old.created ≤ (newest (some old) new).created := by
  unfold newest; simp only; split <;> omega

/-- **The info only gets newer.** No step makes the info of a handle older. -/
theorem created_monotone (l : List Op) (o : Op) (i : Nat) (hi : i < (St.run l).nextInner) :
    ((St.run l).inners i).info.created ≤ (((St.run l).step o).inners i).info.created := by
  generalize St.run l = s at *
  have he : ∀ (j : Nat) (f : Inner → Inner), (∀ x, x.info.created ≤ (f x).info.created) →
      (s.inners i).info.created ≤ ((s.edit j f).inners i).info.created := by
    intro j f hf
    by_cases h : i = j
    · subst h; rw [edit_same]; exact hf _
    · rw [edit_other _ _ _ _ h]; exact Nat.le_refl _
  have ha : ∀ info aff, (s.inners i).info.created ≤ ((s.alloc info aff).inners i).info.created := by
    intro info aff
    simp only [St.alloc]; rw [if_neg (by omega)]; exact Nat.le_refl _
  have hu : ∀ info aff (x : Inner), x.info.created ≤ (x.update info aff).info.created := by
    intro info aff x; rw [update_info]; exact newest_mono _ _
  have hdec : ∀ x : Inner, x.info.created ≤ x.dec.info.created := by intro x; rw [peer_dec]; exact Nat.le_refl _
  have hinc : ∀ x : Inner, x.info.created ≤ x.inc.info.created := by intro x; rw [peer_inc]; exact Nat.le_refl _
  cases o with
  | insert info aff allow =>
    simp only [St.step, St.insert]
    split
    · exact Nat.le_refl _
    · rw [fromInner_inners]; exact ha info aff
    · split
      · split
        · exact Nat.le_refl _
        · split
          · exact he _ (fun x => x.update info aff) (hu info aff)
          · rw [fromInner_inners]; exact he _ (fun x => x.update info aff) (hu info aff)
      · rw [fromInner_inners]; exact ha info aff
  | update k info =>
    simp only [St.step, St.update]
    split
    · exact Nat.le_refl _
    · split
      · exact Nat.le_refl _
      · split
        · exact Nat.le_refl _
        · exact he _ (fun x => x.newer info) (fun x => by rw [newer_info]; exact newest_mono _ _)
  | ban p =>
    simp only [St.step, St.ban]
    split
    · exact Nat.le_refl _
    · exact Nat.le_refl _
    · split
      · exact he _ Inner.ban (fun x => Nat.le_refl _)
      · exact Nat.le_refl _
  | banHandle k =>
    simp only [St.step, St.banHandle]
    split
    · exact Nat.le_refl _
    · exact he _ Inner.ban (fun x => Nat.le_refl _)
  | make p aff =>
    simp only [St.step, St.make]
    split
    · exact Nat.le_refl _
    · split
      · split
        · exact Nat.le_refl _
        · exact he _ Inner.inc hinc
      · exact Nat.le_refl _
  | clone k => simp only [St.step, St.clone]; split <;> exact Nat.le_refl _
  | upgrade k => simp only [St.step, St.upgrade]; split <;> exact Nat.le_refl _
  | increase k =>
    simp only [St.step, St.increase]
    split
    · exact he _ Inner.inc hinc
    · exact Nat.le_refl _
  | decrease k =>
    simp only [St.step, St.decrease]
    split
    · split
      · simp only [St.toSimple, unwrap_inners]; exact he _ Inner.dec hdec
      · exact Nat.le_refl _
    · exact Nat.le_refl _
  | drop k =>
    simp only [St.step, St.drop]
    split
    · exact Nat.le_refl _
    · rw [release_inners]; exact Nat.le_refl _
    · split
      · exact Nat.le_refl _
      · split
        · rw [release_inners]; simp only [St.forget, unwrap_inners]; exact he _ Inner.dec hdec
        · exact Nat.le_refl _
  | finish k => simp only [St.step, St.finish]; split <;> exact Nat.le_refl _
  | peek p => simp only [St.step, St.peek]; split <;> exact Nat.le_refl _
  | unpeek k => exact Nat.le_refl _
  | remove p => exact Nat.le_refl _

end Tycho.KnownPeers
