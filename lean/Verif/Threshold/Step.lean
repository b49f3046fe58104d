import Verif.Threshold.Inv

/-! Every legal step keeps the invariant. -/
namespace Tycho.Threshold

open Tycho.PeerCount

section
variable {peers : List Nat} {round skew c0 : Nat} {s s' : St}

theorem inv_init {pc : PeerCount} (h : tryFrom peers.length = .ok pc ∨ (peers.length = 1 ∧ pc = genesis)) :
    Inv peers round skew c0 (init round pc skew c0) := by
  have hpc : peers.length ≤ pc.full ∧ pc.full ≤ 255 ∧ pc.majority = majorityOf peers.length := by
    rcases h with h | ⟨h1, rfl⟩
    · unfold tryFrom at h
      split at h
      · simp at h
      · dsimp only at h
        split at h
        · injection h with h
          subst h
          unfold PeerCount.full PeerCount.majority majorityOf
          simp only
          rw [if_neg (by omega), Nat.mod_eq_of_lt (by omega)]
          omega
        · simp at h
    · rw [h1]; decide
  have hmaj : pc.majority ≤ pc.full := by unfold PeerCount.majority PeerCount.full; omega
  have hu : unpack (init round pc skew c0).count = ⟨pc.majority, 0, 0, 0⟩ := by
    have : pc.majority % 256 = pc.majority := Nat.mod_eq_of_lt (by omega)
    unfold init
    rw [this]
    exact unpack_pack ⟨by simp only; omega, by simp, by simp, by simp⟩
  refine {
    calm := rfl, roundEq := rfl, skewEq := rfl, fits := ⟨hpc.1, hpc.2.1⟩, targetEq := hpc.2.2, targetCap := hmaj,
    clock := Nat.le_refl _, authors := List.nodup_nil, legal := by simp [init], places := by simp [init, St.places],
    target := by rw [hu]; rfl, inChannel := by rw [hu]; rfl, total := by rw [hu]; exact Nat.le_refl _,
    exact := fun _ _ => by rw [hu]; exact ⟨rfl, rfl⟩, maxTime := by simp [init, Worker.maxTime?],
    delayed := by simp [init], ready := by simp [init], discarded := by simp [init],
    getting := by simp [init, Worker.isGetting], reaching := by simp [init, Worker.isReaching],
    takenReached := by simp [init], afterTake := by simp [init], enough := by simp [init] }

theorem inv_tick (h : Inv peers round skew c0 s) (ms : Nat) :
    Inv peers round skew c0 { s with clock := s.clock + ms } :=
  { h with
    clock := by have := h.clock; simp only; omega
    maxTime := fun m hm => ⟨(h.maxTime m hm).1, by have := (h.maxTime m hm).2; simp only; omega⟩
    ready := fun p hp => by have := h.ready p hp; simp only; omega }

theorem inv_addCount (h : Inv peers round skew c0 s) {p : Pt} (hr : p.round = s.round) (ha : p.author ∈ peers)
    (hn : ∀ q ∈ s.added, q.author ≠ p.author) :
    ∃ c, s.addCount p = { s with count := c, adding := p :: s.adding, added := p :: s.added } ∧
      Inv peers round skew c0 (s.addCount p) := by
  have hau : ((p :: s.added).map (·.author)).Nodup := by
    simp only [List.map_cons, List.nodup_cons, List.mem_map, not_exists, not_and]
    exact ⟨fun q hq => hn q hq, h.authors⟩
  have hlen : (p :: s.added).length ≤ peers.length := by
    have h1 : ((p :: s.added).map (·.author)).Subperm peers := by
      apply List.Nodup.subperm hau
      intro a ha'
      simp only [List.map_cons, List.mem_cons, List.mem_map] at ha'
      rcases ha' with rfl | ⟨q, hq, rfl⟩
      · exact ha
      · exact (h.legal q hq).2
    simpa using h1.length_le
  have hlens := h.lens
  have hpend := h.total
  have hfit := h.fits
  simp only [List.length_cons] at hlen
  obtain ⟨m, hm, hu⟩ := addOne_spec (n := s.count) (by have := h.inChannel; omega)
  have he : s.addCount p = { s with count := m, adding := p :: s.adding, added := p :: s.added } := by
    unfold St.addCount
    rw [if_neg (by simpa using hr), hm]
  refine ⟨m, he, ?_⟩
  rw [he]
  exact { h with
    authors := hau
    legal := by
      intro q hq
      rcases List.mem_cons.mp hq with rfl | hq
      · exact ⟨hr.trans h.roundEq, ha⟩
      · exact h.legal q hq
    places := h.places.cons _
    target := by simp only [hu]; exact h.target
    inChannel := by simp only [hu, List.length_cons]; have := h.inChannel; omega
    total := by simp only [hu]; exact h.total
    exact := by
      intro h1 h2
      simp only [hu]
      exact h.exact h1 h2 }

theorem inv_addSend (h : Inv peers round skew c0 s) {p : Pt} (hp : p ∈ s.adding) :
    s.addSend p = { s with adding := s.adding.erase p, chan := s.chan ++ [p] } ∧
      Inv peers round skew c0 (s.addSend p) := by
  have hl := h.lens
  have ha := h.addedLen
  have hf := h.fits
  have hpos := List.length_pos_of_mem hp
  have he : s.addSend p = { s with adding := s.adding.erase p, chan := s.chan ++ [p] } := by
    unfold St.addSend
    rw [if_pos (by omega)]
  refine ⟨he, ?_⟩
  rw [he]
  exact { h with
    places := by
      refine h.places.trans ?_
      unfold St.places
      simp only
      refine ((List.perm_cons_erase hp).append_right _).trans ?_
      rw [List.append_assoc s.chan, List.cons_append]
      refine List.perm_middle.symm.trans ?_
      refine List.Perm.append_left _ ?_
      rw [List.singleton_append]
      exact List.perm_middle.symm
    inChannel := by
      simp only [List.length_append, List.length_erase_of_mem hp, List.length_singleton]
      have := h.inChannel
      omega }

theorem inv_reachedStart (h : Inv peers round skew c0 s) (hw : s.worker = .free) :
    Inv peers round skew c0 s.reachedStart := by
  unfold St.reachedStart
  split
  · exact h
  · rename_i hr
    have hr : s.isReached = false := by simpa using hr
    exact { h with
      inChannel := by have := h.inChannel; rw [hw] at this; exact this
      total := by have := h.total; rw [hw] at this; exact this
      exact := fun _ _ => h.exact (.inr hw) (by rw [hw]; simp)
      maxTime := by
        intro m hm
        simp only [Worker.maxTime?, Option.some.injEq] at hm
        subst hm
        rw [h.skewEq]
        exact ⟨by have := h.clock; omega, Nat.le_refl _⟩
      getting := by simp [Worker.isGetting]
      reaching := fun _ => hr
      afterTake := fun ht _ => by have := h.takenReached ht; rw [hr] at this; simp at this }

/-- A point that is taken from `chan` or `delayed` and made ready in `reached`. -/
theorem inv_reachedReady (h : Inv peers round skew c0 s) {p : Pt} {m k : Nat} {chan : List Pt} {delayed : List (Pt × Nat)}
    {m0 : Nat} (hw : s.worker = .waiting m0)
    (hm : c0 + skew ≤ m ∧ m ≤ s.clock + skew) (ht : p.time ≤ s.clock + skew)
    (hmove : (k = 1 ∧ s.chan = p :: chan ∧ delayed = s.delayed) ∨
      (k = 0 ∧ chan = s.chan ∧ ∃ d, s.delayed.Perm ((p, d) :: delayed))) :
    ({ s with chan := chan, delayed := delayed }.reachedReady p m k) =
      { s with chan := chan, delayed := delayed, ready := s.ready ++ [p], worker := .counting m k } ∧
    Inv peers round skew c0 ({ s with chan := chan, delayed := delayed }.reachedReady p m k) := by
  have hnr := h.reaching (by rw [hw]; trivial)
  have hnt : s.taken = [] := by
    cases ht : s.taken with
    | nil => rfl
    | cons t ts => have := h.takenReached (by rw [ht]; simp); rw [hnr] at this; simp at this
  have hpush : pushReady s.ready p = some (s.ready ++ [p]) := by
    apply h.push
    rcases hmove with ⟨_, h1, _⟩ | ⟨_, _, d, h1⟩
    · left; rw [h1]; exact List.mem_cons_self ..
    · right; exact List.mem_map.mpr ⟨(p, d), h1.mem_iff.mpr (List.mem_cons_self ..), rfl⟩
  have he : ({ s with chan := chan, delayed := delayed }.reachedReady p m k) =
      { s with chan := chan, delayed := delayed, ready := s.ready ++ [p], worker := .counting m k } := by
    unfold St.reachedReady
    simp only [hpush]
  refine ⟨he, ?_⟩
  rw [he]
  have hin := h.inChannel
  have hto := h.total
  rw [hw] at hin hto
  simp only [Worker.pending] at hin hto
  have hdl : k = 1 ∧ s.chan.length = chan.length + 1 ∧ delayed.length = s.delayed.length ∨
      k = 0 ∧ chan.length = s.chan.length ∧ s.delayed.length = delayed.length + 1 := by
    rcases hmove with ⟨h1, h2, h3⟩ | ⟨h1, h2, d, h3⟩
    · left; rw [h2, h3]; exact ⟨h1, rfl, rfl⟩
    · right; rw [h2]; exact ⟨h1, rfl, by have := h3.length_eq; simpa using this⟩
  exact { h with
    places := by
      refine h.places.trans ?_
      unfold St.places
      simp only
      refine List.Perm.append_left _ ?_
      rcases hmove with ⟨_, h1, h2⟩ | ⟨_, h1, d, h2⟩
      · rw [h1, h2, List.cons_append]
        refine List.perm_middle.symm.trans ?_
        refine List.Perm.append_left _ ?_
        rw [List.append_assoc, List.singleton_append]
        exact List.perm_middle.symm
      · rw [h1]
        refine List.Perm.append_left _ ?_
        rw [List.append_assoc, List.singleton_append]
        refine List.Perm.append_left _ ?_
        have := h2.map (·.1)
        simp only [List.map_cons] at this
        rw [← List.cons_append]
        exact this.append_right _
    inChannel := by simp only [Worker.pending]; omega
    total := by
      simp only [Worker.pending, List.length_append, List.length_singleton]
      omega
    exact := fun _ h2 => absurd rfl (h2 m k)
    maxTime := by
      intro m' hm'
      simp only [Worker.maxTime?, Option.some.injEq] at hm'
      subst hm'
      exact hm
    delayed := by
      intro e he
      rcases hmove with ⟨_, _, h2⟩ | ⟨_, _, d, h2⟩
      · rw [h2] at he; exact h.delayed e he
      · exact h.delayed e (h2.mem_iff.mpr (List.mem_cons_of_mem _ he))
    ready := by
      intro q hq
      rcases List.mem_append.mp hq with hq | hq
      · exact h.ready q hq
      · simp only [List.mem_singleton] at hq
        subst hq
        exact ht
    getting := by simp [Worker.isGetting]
    reaching := fun _ => hnr
    afterTake := fun ht _ => absurd hnt ht
    enough := fun hr _ => by rw [hnr] at hr; simp at hr }

theorem inv_reachedRecv (h : Inv peers round skew c0 s) {p : Pt} {rest : List Pt} {m : Nat} (lag : Nat)
    (hw : s.worker = .waiting m) (hc : s.chan = p :: rest) : Inv peers round skew c0 (s.reachedRecv p rest m lag) := by
  have hnr := h.reaching (by rw [hw]; trivial)
  have hm := h.maxTime m (by rw [hw]; rfl)
  have hsk := h.skewEq
  have hin := h.inChannel
  have hto := h.total
  rw [hw] at hin hto
  simp only [Worker.pending] at hin hto
  rw [hc] at hin
  simp only [List.length_cons] at hin
  unfold St.reachedRecv
  dsimp only
  split
  · rename_i hfar
    exact { h with
      places := by
        refine h.places.trans ?_
        unfold St.places
        simp only
        refine List.Perm.append_left _ ?_
        rw [hc, List.cons_append, ← List.append_assoc, ← List.append_assoc]
        refine List.perm_middle.symm.trans ?_
        simp only [List.append_assoc, List.cons_append]
        exact .refl _
      inChannel := by simp only [Worker.pending]; omega
      total := by simp only [Worker.pending, List.length_cons]; omega
      exact := fun _ h2 => absurd rfl (h2 m 1)
      maxTime := by
        intro m' hm'
        simp only [Worker.maxTime?, Option.some.injEq] at hm'
        subst hm'
        exact hm
      discarded := by
        intro q hq
        rcases List.mem_cons.mp hq with rfl | hq
        · omega
        · exact h.discarded q hq
      getting := by simp [Worker.isGetting]
      reaching := fun _ => hnr
      afterTake := fun ht _ => by have := h.takenReached ht; rw [hnr] at this; simp at this
      enough := fun hr _ => by simp only [hnr] at hr; simp at hr }
  · generalize hm' : (if p.time - m > 0 then s.clock + s.skew else m) = m'
    have hm'' : c0 + skew ≤ m' ∧ m' ≤ s.clock + skew := by
      rw [← hm']
      split
      · rw [hsk]; exact ⟨by have := h.clock; omega, Nat.le_refl _⟩
      · exact hm
    split
    · rename_i hgt
      have hm3 : m' = s.clock + skew := by
        rw [← hm']
        rw [if_pos, hsk]
        by_cases hz : p.time - m > 0
        · exact hz
        · rw [if_neg hz] at hm'; omega
      exact { h with
        places := by
          refine h.places.trans ?_
          unfold St.places
          simp only
          refine List.Perm.append_left _ ?_
          rw [hc, List.cons_append, ← List.append_assoc]
          refine List.perm_middle.symm.trans ?_
          rw [List.append_assoc]
          refine List.Perm.append_left _ (List.Perm.append_left _ ?_)
          rw [List.map_append, List.append_assoc]
          exact List.perm_middle.symm
        inChannel := by simp only [Worker.pending]; omega
        total := by simp only [Worker.pending, List.length_append, List.length_singleton]; omega
        exact := fun _ h2 => absurd rfl (h2 m' 1)
        maxTime := by
          intro x hx
          simp only [Worker.maxTime?, Option.some.injEq] at hx
          subst hx
          exact hm''
        delayed := by
          intro e he
          rcases List.mem_append.mp he with he | he
          · exact h.delayed e he
          · simp only [List.mem_singleton] at he
            subst he
            simp only
            omega
        getting := by simp [Worker.isGetting]
        reaching := fun _ => hnr
        afterTake := fun ht _ => by have := h.takenReached ht; rw [hnr] at this; simp at this
        enough := fun hr _ => by simp only [hnr] at hr; simp at hr }
    · rename_i hle
      exact (inv_reachedReady h hw hm'' (by omega) (.inl ⟨rfl, hc, rfl⟩)).2

theorem inv_reachedCount (h : Inv peers round skew c0 s) {m k : Nat} (hw : s.worker = .counting m k) :
    ∃ c, s.reachedCount m k = { s with count := c, worker := .waiting m } ∧
      Inv peers round skew c0 (s.reachedCount m k) := by
  have hin := h.inChannel
  have hl := h.lens
  have ha := h.addedLen
  have hf := h.fits
  rw [hw] at hin
  simp only [Worker.pending] at hin
  obtain ⟨c, hc, hu⟩ := setDecrease_spec (n := s.count) (r := s.ready.length) (d := s.delayed.length) (k := k)
    (by omega) (by omega) (by omega)
  have he : s.reachedCount m k = { s with count := c, worker := .waiting m } := by
    unfold St.reachedCount; rw [hc]
  refine ⟨c, he, ?_⟩
  rw [he]
  have hnr := h.reaching (by rw [hw]; trivial)
  have hnt : s.taken = [] := by
    cases ht : s.taken with
    | nil => rfl
    | cons t ts => have := h.takenReached (by rw [ht]; simp); rw [hnr] at this; simp at this
  exact { h with
    target := by simp only [hu]; exact h.target
    inChannel := by simp only [hu, Worker.pending]; omega
    total := by simp only [hu, Worker.pending]; omega
    exact := fun _ _ => by simp only [hu, St.shown, hnt]; exact ⟨trivial, trivial⟩
    maxTime := fun m' hm' => h.maxTime m' (by rw [hw]; exact hm')
    getting := by simp [Worker.isGetting]
    reaching := fun _ => hnr
    afterTake := fun ht _ => absurd hnt ht }

theorem inv_free (h : Inv peers round skew c0 s) {m : Nat} (hw : s.worker = .waiting m) (r : Bool)
    (hr : r = true → s.target ≤ s.ready.length) :
    Inv peers round skew c0 { s with isReached := r, worker := .free } := by
  have hnr := h.reaching (by rw [hw]; trivial)
  have hnt : s.taken = [] := by
    cases ht : s.taken with
    | nil => rfl
    | cons t ts => have := h.takenReached (by rw [ht]; simp); rw [hnr] at this; simp at this
  have hin := h.inChannel
  have hto := h.total
  rw [hw] at hin hto
  exact { h with
    inChannel := hin
    total := hto
    exact := fun _ _ => h.exact (.inl (by rw [hw]; trivial)) (by rw [hw]; simp)
    maxTime := by simp [Worker.maxTime?]
    getting := by simp [Worker.isGetting]
    reaching := by simp [Worker.isReaching]
    takenReached := fun ht => absurd hnt ht
    afterTake := fun ht _ => absurd hnt ht
    enough := fun h1 _ => hr h1 }

theorem inv_getStart (h : Inv peers round skew c0 s) (lag : Nat) (hw : s.worker = .free) (hr : s.isReached = true) :
    ∃ delayed ready, s.getStart lag =
        { s with delayed := delayed, ready := ready, worker := .draining (s.clock + s.skew) 0 } ∧
      (s.ready ++ s.delayed.map (·.1)).Perm (ready ++ delayed.map (·.1)) ∧
      (∀ e ∈ delayed, s.clock < e.2) ∧
      (∀ δ, lag ≤ δ → (∀ e ∈ s.delayed, e.2 + skew ≤ e.1.time + δ) → ∀ e ∈ delayed, e.2 + skew ≤ e.1.time + δ) ∧
      Inv peers round skew c0 (s.getStart lag) := by
  have hn : ((s.ready ++ s.delayed.map (·.1)).map (·.author)).Nodup := by
    have := h.placesAuthors
    unfold St.places at this
    simp only [List.map_append] at this ⊢
    have := (List.nodup_append.mp (List.nodup_append.mp this).2.1).2.1
    rw [← List.append_assoc] at this
    exact (List.nodup_append.mp this).1
  have hsk := h.skewEq
  obtain ⟨d', r', g1, g2, g3, g4, g5, g6, g7⟩ := drainDelayed_spec s.clock (s.clock + s.skew) lag skew (by rw [hsk])
    s.delayed.length s.delayed s.ready (Nat.le_refl _) hn h.delayed
  have he : s.getStart lag = { s with delayed := d', ready := r', worker := .draining (s.clock + s.skew) 0 } := by
    unfold St.getStart
    rw [if_neg (by simp [hw]), if_neg (by simp [hr]), g1]
  refine ⟨d', r', he, g2, g6, g7, ?_⟩
  rw [he]
  have hlen := g2.length_eq
  simp only [List.length_append, List.length_map] at hlen
  have hin := h.inChannel
  have hto := h.total
  rw [hw] at hin hto
  simp only [Worker.pending] at hin hto
  exact { h with
    places := by
      refine h.places.trans ?_
      unfold St.places
      simp only
      refine List.Perm.append_left _ (List.Perm.append_left _ ?_)
      have := g2.append_right (s.discarded ++ s.taken.flatten)
      simpa only [List.append_assoc] using this
    inChannel := hin
    total := by simp only [Worker.pending]; omega
    exact := by simp [Worker.isReaching]
    maxTime := by
      intro m hm
      simp only [Worker.maxTime?, Option.some.injEq] at hm
      subst hm
      rw [hsk]
      exact ⟨by have := h.clock; omega, Nat.le_refl _⟩
    delayed := g4
    ready := by
      intro p hp
      rcases g5 p hp with h1 | h1
      · exact h.ready p h1
      · rw [← hsk]; exact h1
    getting := fun _ => hr
    reaching := by simp [Worker.isReaching]
    afterTake := by simp [Worker.isGetting]
    enough := fun h1 h2 => by have := h.enough h1 h2; simp only; omega }

theorem inv_getRecv (h : Inv peers round skew c0 s) {p : Pt} {rest : List Pt} {m k : Nat} (lag : Nat)
    (hw : s.worker = .draining m k) (hc : s.chan = p :: rest) :
    Inv peers round skew c0 (s.getRecv p rest m k lag) ∧
      ((∃ x, m < p.time ∧ c0 + skew + tooFar < p.time ∧
          s.getRecv p rest m k lag = { s with chan := rest, worker := .draining m (k + 1), discarded := x } ∧ x = p :: s.discarded) ∨
       (m < p.time ∧ s.getRecv p rest m k lag = { s with
          chan := rest, worker := .draining m (k + 1), delayed := s.delayed ++ [(p, s.clock + lag + (p.time - m))] }) ∨
       (p.time ≤ m ∧ s.getRecv p rest m k lag = { s with chan := rest, worker := .draining m (k + 1), ready := s.ready ++ [p] })) := by
  have hr := h.getting (by rw [hw]; trivial)
  have hm := h.maxTime m (by rw [hw]; rfl)
  have hin := h.inChannel
  have hto := h.total
  have hl := h.lens
  have ha := h.addedLen
  have hf := h.fits
  rw [hw] at hin hto
  simp only [Worker.pending] at hin hto
  rw [hc] at hin hl
  simp only [List.length_cons] at hin hl
  have hpush := h.push (p := p) (.inl (by rw [hc]; exact List.mem_cons_self ..))
  have hmax : ∀ x, (Worker.draining m (k + 1)).maxTime? = some x → c0 + skew ≤ x ∧ x ≤ s.clock + skew := by
    intro x hx
    simp only [Worker.maxTime?, Option.some.injEq] at hx
    subst hx
    exact hm
  have hle : ¬ k + 1 > 255 := by omega
  have hex : ∀ n : Nat, (Worker.draining m (k + 1)).isReaching ∨ Worker.draining m (k + 1) = .free → False := by
    intro n hx
    simp [Worker.isReaching] at hx
  by_cases hfar : p.time - m > tooFar
  · have he : s.getRecv p rest m k lag =
        { s with chan := rest, worker := .draining m (k + 1), discarded := p :: s.discarded } := by
      unfold St.getRecv
      dsimp only
      rw [if_neg hle, if_pos hfar]
    refine ⟨?_, .inl ⟨_, by omega, by omega, he, rfl⟩⟩
    rw [he]
    exact { h with
      places := by
        refine h.places.trans ?_
        unfold St.places
        simp only
        refine List.Perm.append_left _ ?_
        rw [hc, List.cons_append, ← List.append_assoc, ← List.append_assoc]
        refine List.perm_middle.symm.trans ?_
        simp only [List.append_assoc, List.cons_append]
        exact .refl _
      inChannel := by simp only [Worker.pending]; omega
      total := by simp only [Worker.pending, List.length_cons]; omega
      exact := fun hx => absurd hx (hex 0)
      maxTime := hmax
      discarded := by
        intro q hq
        rcases List.mem_cons.mp hq with rfl | hq
        · omega
        · exact h.discarded q hq
      getting := fun _ => hr
      reaching := by simp [Worker.isReaching]
      afterTake := by simp [Worker.isGetting] }
  · by_cases hgt : p.time - m > 0
    · have he : s.getRecv p rest m k lag = { s with
          chan := rest, worker := .draining m (k + 1), delayed := s.delayed ++ [(p, s.clock + lag + (p.time - m))] } := by
        unfold St.getRecv
        dsimp only
        rw [if_neg hle, if_neg hfar, if_pos hgt]
      refine ⟨?_, .inr (.inl ⟨by omega, he⟩)⟩
      rw [he]
      exact { h with
        places := by
          refine h.places.trans ?_
          unfold St.places
          simp only
          refine List.Perm.append_left _ ?_
          rw [hc, List.cons_append, ← List.append_assoc]
          refine List.perm_middle.symm.trans ?_
          rw [List.append_assoc]
          refine List.Perm.append_left _ (List.Perm.append_left _ ?_)
          rw [List.map_append, List.append_assoc]
          exact List.perm_middle.symm
        inChannel := by simp only [Worker.pending]; omega
        total := by simp only [Worker.pending, List.length_append, List.length_singleton]; omega
        exact := fun hx => absurd hx (hex 0)
        maxTime := hmax
        delayed := by
          intro e he
          rcases List.mem_append.mp he with he | he
          · exact h.delayed e he
          · simp only [List.mem_singleton] at he
            subst he
            simp only
            omega
        getting := fun _ => hr
        reaching := by simp [Worker.isReaching]
        afterTake := by simp [Worker.isGetting] }
    · have he : s.getRecv p rest m k lag =
          { s with chan := rest, worker := .draining m (k + 1), ready := s.ready ++ [p] } := by
        unfold St.getRecv
        dsimp only
        rw [if_neg hle, if_neg hfar, if_neg hgt, hpush]
      refine ⟨?_, .inr (.inr ⟨by omega, he⟩)⟩
      rw [he]
      exact { h with
        places := by
          refine h.places.trans ?_
          unfold St.places
          simp only
          refine List.Perm.append_left _ ?_
          rw [hc, List.cons_append]
          refine List.perm_middle.symm.trans ?_
          refine List.Perm.append_left _ ?_
          rw [List.append_assoc, List.singleton_append]
          exact List.perm_middle.symm
        inChannel := by simp only [Worker.pending]; omega
        total := by simp only [Worker.pending, List.length_append, List.length_singleton]; omega
        exact := fun hx => absurd hx (hex 0)
        maxTime := hmax
        ready := by
          intro q hq
          rcases List.mem_append.mp hq with hq | hq
          · exact h.ready q hq
          · simp only [List.mem_singleton] at hq
            subst hq
            simp only
            omega
        getting := fun _ => hr
        reaching := by simp [Worker.isReaching]
        afterTake := by simp [Worker.isGetting]
        enough := fun h1 h2 => by have := h.enough h1 h2; simp only [List.length_append]; omega }

theorem inv_getEmpty (h : Inv peers round skew c0 s) {m k : Nat} (hw : s.worker = .draining m k) :
    Inv peers round skew c0 { s with worker := .drained k } := by
  have hin := h.inChannel
  have hto := h.total
  rw [hw] at hin hto
  exact { h with
    inChannel := hin
    total := hto
    exact := by simp [Worker.isReaching]
    maxTime := by simp [Worker.maxTime?]
    getting := fun _ => h.getting (by rw [hw]; trivial)
    reaching := by simp [Worker.isReaching]
    afterTake := by simp [Worker.isGetting] }

theorem inv_getFinish (h : Inv peers round skew c0 s) {k : Nat} (hw : s.worker = .drained k) :
    ∃ c, s.getFinish k = { s with count := c, ready := [], worker := .free, taken := s.ready :: s.taken } ∧
      Inv peers round skew c0 (s.getFinish k) := by
  have hin := h.inChannel
  have hl := h.lens
  have ha := h.addedLen
  have hf := h.fits
  rw [hw] at hin
  simp only [Worker.pending] at hin
  obtain ⟨c, hc, hu⟩ := setDecrease_spec (n := s.count) (r := s.ready.length) (d := s.delayed.length) (k := k)
    (by omega) (by omega) (by omega)
  have he : s.getFinish k = { s with count := c, ready := [], worker := .free, taken := s.ready :: s.taken } := by
    unfold St.getFinish; rw [hc]
  refine ⟨c, he, ?_⟩
  rw [he]
  have hr := h.getting (by rw [hw]; trivial)
  exact { h with
    places := by
      refine h.places.trans ?_
      unfold St.places
      simp only [List.flatten_cons, List.nil_append]
      refine List.Perm.append_left _ (List.Perm.append_left _ ?_)
      have : (s.ready ++ (s.delayed.map (·.1) ++ s.discarded)).Perm ((s.delayed.map (·.1) ++ s.discarded) ++ s.ready) :=
        List.perm_append_comm
      have := this.append_right s.taken.flatten
      simpa only [List.append_assoc] using this
    target := by simp only [hu]; exact h.target
    inChannel := by simp only [hu, Worker.pending]; omega
    total := by simp only [hu, Worker.pending, List.flatten_cons, List.length_append, List.length_nil]; omega
    exact := fun _ _ => by simp only [hu, St.shown]; exact ⟨trivial, trivial⟩
    maxTime := by simp [Worker.maxTime?]
    ready := by simp
    getting := by simp [Worker.isGetting]
    reaching := by simp [Worker.isReaching]
    takenReached := fun _ => hr
    afterTake := fun _ _ => rfl
    enough := by simp }

/-- Every legal step keeps the invariant. -/
theorem inv_step (h : Inv peers round skew c0 s) {a : Act} (hl : Legal peers s a) (hs : step s a = some s') :
    Inv peers round skew c0 s' := by
  cases a with
  | tick ms => simp only [step, Option.some.injEq] at hs; subst hs; exact inv_tick h ms
  | addCount p =>
    simp only [step, Option.some.injEq] at hs; subst hs
    obtain ⟨c, _, hi⟩ := inv_addCount h hl.1 hl.2.1 hl.2.2
    exact hi
  | addSend p =>
    simp only [step] at hs
    split at hs
    · rename_i hp
      injection hs with hs; subst hs
      exact (inv_addSend h hp).2
    · simp at hs
  | reachedStart =>
    simp only [step] at hs
    split at hs
    · rename_i hw
      injection hs with hs; subst hs
      exact inv_reachedStart h hw
    · simp at hs
  | reachedRecv lag =>
    simp only [step] at hs
    split at hs
    · rename_i m p rest hw hc
      split at hs
      · injection hs with hs; subst hs
        exact inv_reachedRecv h lag hw hc
      · simp at hs
    · simp at hs
  | reachedExpired e =>
    simp only [step] at hs
    split at hs
    · rename_i m hw
      split at hs
      · rename_i hc
        injection hs with hs; subst hs
        have hd := h.delayed e hc.2.1
        exact (inv_reachedReady (k := 0) (chan := s.chan) (delayed := s.delayed.erase e) h hw
          (h.maxTime m (by rw [hw]; rfl)) (by omega) (.inr ⟨rfl, rfl, e.2, List.perm_cons_erase hc.2.1⟩)).2
      · simp at hs
    · simp at hs
  | reachedCount =>
    simp only [step] at hs
    split at hs
    · rename_i m k hw
      injection hs with hs; subst hs
      obtain ⟨c, _, hi⟩ := inv_reachedCount h hw
      exact hi
    · simp at hs
  | reachedDone =>
    simp only [step] at hs
    split at hs
    · rename_i m hw
      split at hs
      · rename_i hc
        injection hs with hs; subst hs
        exact inv_free h hw true (fun _ => hc)
      · simp at hs
    · simp at hs
  | reachedDrop =>
    simp only [step] at hs
    split at hs
    · rename_i m hw
      split at hs
      · injection hs with hs; subst hs
        have := inv_free h hw s.isReached (fun hr => by rw [h.reaching (by rw [hw]; trivial)] at hr; simp at hr)
        exact this
      · simp at hs
    · simp at hs
  | getStart lag =>
    simp only [step, Option.some.injEq] at hs; subst hs
    obtain ⟨_, _, _, _, _, _, hi⟩ := inv_getStart h lag hl.1 hl.2
    exact hi
  | getRecv lag =>
    simp only [step] at hs
    split at hs
    · rename_i m k p rest hw hc
      injection hs with hs; subst hs
      exact (inv_getRecv h lag hw hc).1
    · simp at hs
  | getEmpty =>
    simp only [step] at hs
    split at hs
    · rename_i m k hw hc
      injection hs with hs; subst hs
      exact inv_getEmpty h hw
    · simp at hs
  | getFinish =>
    simp only [step] at hs
    split at hs
    · rename_i k hw
      injection hs with hs; subst hs
      obtain ⟨c, _, hi⟩ := inv_getFinish h hw
      exact hi
    · simp at hs

theorem inv_run {A : St → Act → Prop} {acts : List Act} (h : Inv peers round skew c0 s) (hr : Run peers A s acts s') :
    Inv peers round skew c0 s' := by
  induction hr with
  | nil => exact h
  | cons _ hl hs _ ih => exact ih (inv_step h hl hs)

theorem Reachable.inv {A : St → Act → Prop} (h : Reachable peers round skew c0 A s) : Inv peers round skew c0 s := by
  obtain ⟨pc, acts, hp, hr⟩ := h
  exact inv_run (inv_init hp) hr

end

end Tycho.Threshold
