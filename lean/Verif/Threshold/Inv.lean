import Verif.Threshold.Spec
import Mathlib.Data.List.Perm.Basic
import Mathlib.Data.List.Nodup
import Mathlib.Data.List.Perm.Subperm

/-! The invariant of the threshold. -/
namespace Tycho.Threshold

open Tycho.PeerCount

/-! ### the packed counter -/

/-- The four bytes. -/
def Count.Ok (c : Count) : Prop := c.target < 256 ∧ c.ready < 256 ∧ c.delayed < 256 ∧ c.inChannel < 256

theorem unpack_pack {c : Count} (h : c.Ok) : unpack c.pack = c := by
  obtain ⟨a, b, d, e⟩ := c
  obtain ⟨h1, h2, h3, h4⟩ := h
  simp only at h1 h2 h3 h4
  unfold unpack Count.pack
  simp only [Count.mk.injEq]
  refine ⟨?_, ?_, ?_, ?_⟩ <;> omega

theorem unpack_ok (n : Nat) : (unpack n).Ok := by
  unfold unpack Count.Ok
  refine ⟨?_, ?_, ?_, ?_⟩ <;> exact Nat.mod_lt _ (by decide)

theorem addOne_spec {n : Nat} (h : (unpack n).inChannel < 255) :
    ∃ m, addOneInChannel n = some m ∧ unpack m = { unpack n with inChannel := (unpack n).inChannel + 1 } := by
  unfold addOneInChannel
  dsimp only
  rw [if_pos (by omega)]
  refine ⟨_, rfl, unpack_pack ?_⟩
  obtain ⟨h1, h2, h3, h4⟩ := unpack_ok n
  exact ⟨h1, h2, h3, by simp only; omega⟩

theorem setDecrease_spec {n r d k : Nat} (hr : r ≤ 255) (hd : d ≤ 255) (hk : k ≤ (unpack n).inChannel) :
    ∃ m, setDecrease n r d k = some m ∧
      unpack m = { unpack n with ready := r, delayed := d, inChannel := (unpack n).inChannel - k } := by
  unfold setDecrease
  rw [if_pos ⟨hr, hd⟩]
  dsimp only
  rw [if_pos hk]
  refine ⟨_, rfl, unpack_pack ?_⟩
  obtain ⟨h1, h2, h3, h4⟩ := unpack_ok n
  exact ⟨h1, by simp only; omega, by simp only; omega, by simp only; omega⟩

/-! ### invariant -/

/-- Points received and not yet subtracted from the counter. -/
def Worker.pending : Worker → Nat
  | .free | .waiting _ => 0
  | .counting _ k | .draining _ k | .drained k => k

/-- `max_time` of a running call. -/
def Worker.maxTime? : Worker → Option Nat
  | .waiting m | .counting m _ | .draining m _ => some m
  | .free | .drained _ => none

/-- `reached` runs. -/
def Worker.isReaching : Worker → Prop
  | .waiting _ | .counting _ _ => True
  | _ => False

/-- `get_reached` runs. -/
def Worker.isGetting : Worker → Prop
  | .draining _ _ | .drained _ => True
  | _ => False

/-- All points that were added, by place. -/
def St.places (s : St) : List Pt :=
  s.adding ++ (s.chan ++ (s.ready ++ (s.delayed.map (·.1) ++ (s.discarded ++ s.taken.flatten))))

/-- What the counter shows as ready: the points waiting, or the last ones given out. -/
def St.shown (s : St) : Nat := match s.taken with
  | [] => s.ready.length
  | t :: _ => t.length

structure Inv (peers : List Nat) (round skew c0 : Nat) (s : St) : Prop where
  calm : s.panicked = false
  roundEq : s.round = round
  skewEq : s.skew = skew
  fits : peers.length ≤ s.capacity ∧ s.capacity ≤ 255
  targetEq : s.target = majorityOf peers.length
  targetCap : s.target ≤ s.capacity
  clock : c0 ≤ s.clock
  authors : (s.added.map (·.author)).Nodup
  legal : ∀ p ∈ s.added, p.round = round ∧ p.author ∈ peers
  places : s.added.Perm s.places
  target : (unpack s.count).target = s.target
  inChannel : (unpack s.count).inChannel = s.adding.length + s.chan.length + s.worker.pending
  total : (unpack s.count).ready + (unpack s.count).delayed + s.worker.pending ≤
    s.ready.length + s.delayed.length + s.discarded.length + s.taken.flatten.length
  /-- the counter is exact unless a call is between a change and its `set_decrease` -/
  exact : s.worker.isReaching ∨ s.worker = .free → (∀ m k, s.worker ≠ .counting m k) →
    (unpack s.count).delayed = s.delayed.length ∧
      (unpack s.count).ready = s.shown
  maxTime : ∀ m, s.worker.maxTime? = some m → c0 + skew ≤ m ∧ m ≤ s.clock + skew
  delayed : ∀ e ∈ s.delayed, e.1.time ≤ e.2 + skew
  ready : ∀ p ∈ s.ready, p.time ≤ s.clock + skew
  discarded : ∀ p ∈ s.discarded, c0 + skew + tooFar < p.time
  getting : s.worker.isGetting → s.isReached = true
  reaching : s.worker.isReaching → s.isReached = false
  takenReached : s.taken ≠ [] → s.isReached = true
  afterTake : s.taken ≠ [] → ¬ s.worker.isGetting → s.ready = []
  enough : s.isReached = true → s.taken = [] → s.target ≤ s.ready.length

section
variable {peers : List Nat} {round skew c0 : Nat} {s s' : St}

theorem Inv.addedLen (h : Inv peers round skew c0 s) : s.added.length ≤ peers.length := by
  have h1 : (s.added.map (·.author)).Subperm peers := by
    apply List.Nodup.subperm h.authors
    intro a ha
    obtain ⟨p, hp, rfl⟩ := List.mem_map.mp ha
    exact (h.legal p hp).2
  have := h1.length_le
  simpa using this

theorem Inv.lens (h : Inv peers round skew c0 s) : s.added.length = s.adding.length + s.chan.length + s.ready.length +
    s.delayed.length + s.discarded.length + s.taken.flatten.length := by
  rw [h.places.length_eq]
  unfold St.places
  simp only [List.length_append, List.length_map]
  omega

theorem Inv.placesAuthors (h : Inv peers round skew c0 s) : (s.places.map (·.author)).Nodup :=
  (h.places.map _).nodup_iff.mp h.authors

/-- Pushing a point from another place into `ready` does not meet the same author. -/
theorem Inv.push (h : Inv peers round skew c0 s) {p : Pt} (hp : p ∈ s.chan ∨ p ∈ s.delayed.map (·.1)) :
    pushReady s.ready p = some (s.ready ++ [p]) := by
  unfold pushReady
  rw [if_neg]
  intro hc
  simp only [List.any_eq_true, decide_eq_true_eq] at hc
  obtain ⟨q, hq, ha⟩ := hc
  have hn := h.placesAuthors
  unfold St.places at hn
  simp only [List.map_append] at hn
  have h1 := (List.nodup_append.mp hn).2.1
  rcases hp with hp | hp
  · have h2 := (List.nodup_append.mp h1).2.2
    exact h2 _ (List.mem_map_of_mem hp) _ (List.mem_append_left _ (List.mem_map_of_mem hq)) ha.symm
  · have h2 := (List.nodup_append.mp (List.nodup_append.mp h1).2.1).2.2
    exact h2 _ (List.mem_map_of_mem hq) _ (List.mem_append_left _ (List.mem_map_of_mem hp)) ha

end

theorem popMin_spec : ∀ {l : List (Pt × Nat)} {x rest}, popMin l = some (x, rest) →
    l.Perm (x :: rest) ∧ ∀ e ∈ rest, x.2 ≤ e.2 := by
  intro l
  induction l with
  | nil => intro x rest h; simp [popMin] at h
  | cons y ys ih =>
    intro x rest h
    unfold popMin at h
    split at h
    · rename_i hn
      simp only [Option.some.injEq, Prod.mk.injEq] at h
      obtain ⟨rfl, rfl⟩ := h
      have : ys = [] := by
        cases ys with
        | nil => rfl
        | cons z zs =>
          unfold popMin at hn
          split at hn
          · simp at hn
          · split at hn <;> simp at hn
      subst this
      simp
    · rename_i z zs hz
      obtain ⟨h1, h2⟩ := ih hz
      split at h
      · rename_i hle
        simp only [Option.some.injEq, Prod.mk.injEq] at h
        obtain ⟨rfl, rfl⟩ := h
        refine ⟨h1.cons _, ?_⟩
        intro e he
        rcases List.mem_cons.mp he with rfl | he
        · exact hle
        · exact Nat.le_trans hle (h2 e he)
      · rename_i hle
        simp only [Option.some.injEq, Prod.mk.injEq] at h
        obtain ⟨rfl, rfl⟩ := h
        refine ⟨(h1.cons _).trans (List.Perm.swap _ _ _), ?_⟩
        intro e he
        rcases List.mem_cons.mp he with rfl | he
        · omega
        · exact h2 e he

theorem popMin_none {l : List (Pt × Nat)} (h : popMin l = none) : l = [] := by
  cases l with
  | nil => rfl
  | cons z zs =>
    unfold popMin at h
    split at h
    · simp at h
    · split at h <;> simp at h

/-- What the loop over delayed points does: it does not panic, moves points whose time has come, and keeps the rest. -/
theorem drainDelayed_spec (clock maxTime lag skew : Nat) (hm : maxTime = clock + skew) :
    ∀ (fuel : Nat) (delayed : List (Pt × Nat)) (ready : List Pt), delayed.length ≤ fuel →
    ((ready ++ delayed.map (·.1)).map (·.author)).Nodup → (∀ e ∈ delayed, e.1.time ≤ e.2 + skew) →
    ∃ delayed' ready', drainDelayed fuel clock maxTime lag delayed ready = some (delayed', ready') ∧
      (ready ++ delayed.map (·.1)).Perm (ready' ++ delayed'.map (·.1)) ∧ ready.length ≤ ready'.length ∧
      (∀ e ∈ delayed', e.1.time ≤ e.2 + skew) ∧ (∀ p ∈ ready', p ∈ ready ∨ p.time ≤ maxTime) ∧
      (∀ e ∈ delayed', clock < e.2) ∧
      (∀ δ, lag ≤ δ → (∀ e ∈ delayed, e.2 + skew ≤ e.1.time + δ) → ∀ e ∈ delayed', e.2 + skew ≤ e.1.time + δ) := by
  intro fuel
  induction fuel with
  | zero =>
    intro delayed ready hl _ hd
    have : delayed = [] := List.length_eq_zero_iff.mp (by omega)
    subst this
    exact ⟨[], ready, rfl, .refl _, Nat.le_refl _, by simp, fun p hp => .inl hp, by simp, by simp⟩
  | succ fuel ih =>
    intro delayed ready hl hn hd
    unfold drainDelayed
    cases hp : popMin delayed with
    | none =>
      have := popMin_none hp
      subst this
      exact ⟨[], ready, rfl, .refl _, Nat.le_refl _, by simp, fun p hp => .inl hp, by simp, by simp⟩
    | some xr =>
      obtain ⟨⟨p, d⟩, rest⟩ := xr
      obtain ⟨hperm, hmin⟩ := popMin_spec hp
      have hdp : p.time ≤ d + skew := hd (p, d) (hperm.mem_iff.mpr (List.mem_cons_self ..))
      have hdr : ∀ e ∈ rest, e.1.time ≤ e.2 + skew := fun e he => hd e (hperm.mem_iff.mpr (List.mem_cons_of_mem _ he))
      have hpm : (delayed.map (·.1)).Perm (p :: rest.map (·.1)) := hperm.map _
      dsimp only
      split
      · rename_i hgt
        refine ⟨_, _, rfl, ?_, Nat.le_refl _, ?_, fun q hq => .inl hq, ?_, ?_⟩
        · refine List.Perm.append_left _ (hpm.trans ?_)
          simp only [List.map_append, List.map_cons, List.map_nil]
          exact (List.perm_append_singleton _ _).symm
        · intro e he
          rcases List.mem_append.mp he with he | he
          · exact hdr e he
          · simp only [List.mem_singleton] at he
            subst he
            simp only
            omega
        · intro e he
          rcases List.mem_append.mp he with he | he
          · have h2 := hmin e he
            simp only at h2
            omega
          · simp only [List.mem_singleton] at he
            subst he
            simp only
            omega
        · intro δ hlag hex e he
          rcases List.mem_append.mp he with he | he
          · exact hex e (hperm.mem_iff.mpr (List.mem_cons_of_mem _ he))
          · simp only [List.mem_singleton] at he
            subst he
            simp only
            omega
      · rename_i hle
        have hpush : pushReady ready p = some (ready ++ [p]) := by
          unfold pushReady
          rw [if_neg]
          intro hc
          simp only [List.any_eq_true, decide_eq_true_eq] at hc
          obtain ⟨q, hq, ha⟩ := hc
          rw [List.map_append] at hn
          exact (List.nodup_append.mp hn).2.2 _ (List.mem_map_of_mem hq) _
            (List.mem_map_of_mem (hpm.mem_iff.mpr (List.mem_cons_self ..))) ha
        rw [hpush]
        dsimp only
        have hshift : (ready ++ delayed.map (·.1)).Perm ((ready ++ [p]) ++ rest.map (·.1)) := by
          rw [List.append_assoc]
          exact List.Perm.append_left _ hpm
        obtain ⟨d', r', g1, g2, g3, g4, g5, g6, g7⟩ := ih rest (ready ++ [p])
          (by have := hperm.length_eq; simp at this; omega) ((hshift.map _).nodup_iff.mp hn) hdr
        refine ⟨d', r', g1, hshift.trans g2, by simp at g3; omega, g4, ?_, g6, ?_⟩
        · intro q hq
          rcases g5 q hq with h | h
          · rcases List.mem_append.mp h with h | h
            · exact .inl h
            · simp only [List.mem_singleton] at h
              subst h
              exact .inr (by omega)
          · exact .inr h
        · intro δ hlag hex
          exact g7 δ hlag (fun e he => hex e (hperm.mem_iff.mpr (List.mem_cons_of_mem _ he)))

end Tycho.Threshold
