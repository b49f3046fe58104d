import Verif.Producer.Spec
import Verif.Verifier.Props
import Mathlib.Data.List.Nodup

namespace Tycho.Producer

open Tycho.PeerCount Tycho.Verifier

/-! ### maxima and sources -/

theorem maxBy_mem {f : Info → Nat} {l : List Info} {m : Info} (h : maxBy f l = some m) : m ∈ l := by
  induction l generalizing m with
  | nil => simp [maxBy] at h
  | cons x xs ih =>
    unfold maxBy at h
    split at h
    · injection h with h; subst h; exact List.mem_cons_self
    · rename_i y hy
      split at h
      · injection h with h; subst h; exact List.mem_cons_of_mem _ (ih hy)
      · injection h with h; subst h; exact List.mem_cons_self

theorem maxBy_none {f : Info → Nat} {l : List Info} (h : maxBy f l = none) : l = [] := by
  cases l with
  | nil => rfl
  | cons x xs =>
    unfold maxBy at h
    split at h
    · simp at h
    · split at h <;> simp at h

theorem maxBy_le {f : Info → Nat} {l : List Info} {m : Info} (h : maxBy f l = some m) : ∀ x ∈ l, f x ≤ f m := by
  induction l generalizing m with
  | nil => simp
  | cons x xs ih =>
    unfold maxBy at h
    split at h
    · rename_i hn
      have := maxBy_none hn
      subst this
      injection h with h; subst h
      simp
    · rename_i y hy
      split at h
      · rename_i hle
        injection h with h; subst h
        intro z hz
        rcases List.mem_cons.mp hz with rfl | hz
        · exact hle
        · exact ih hy z hz
      · rename_i hgt
        injection h with h; subst h
        intro z hz
        rcases List.mem_cons.mp hz with rfl | hz
        · exact Nat.le_refl _
        · have := ih hy z hz; omega

/-- The source is a dependency and the path leads to it. -/
def Source.From (src : Source) (includes witness : List Info) : Prop :=
  (src.info ∈ includes ∧ src.path = .includes src.info.author) ∨
    (src.info ∈ witness ∧ src.path = .witness src.info.author)

theorem linkSource_spec {includes witness : List Info} {s : Stage} {src : Source}
    (h : linkSource includes witness s = some src) :
    src.From includes witness ∧ ∀ q, q ∈ includes ∨ q ∈ witness → q.anchorRound s ≤ src.info.anchorRound s := by
  unfold linkSource at h
  rw [Option.bind_eq_bind, Option.bind_eq_some_iff] at h
  obtain ⟨inc, hinc, h⟩ := h
  have hle := maxBy_le hinc
  split at h
  · rename_i w hw
    simp only [Option.pure_def, Option.some.injEq] at h
    subst h
    rw [Option.filter_eq_some_iff] at hw
    obtain ⟨hw, hgt⟩ := hw
    simp only [decide_eq_true_eq] at hgt
    refine ⟨.inr ⟨maxBy_mem hw, rfl⟩, ?_⟩
    rintro q (hq | hq)
    · have := hle q hq; dsimp only at this ⊢; omega
    · exact maxBy_le hw q hq
  · rename_i hw
    simp only [Option.pure_def, Option.some.injEq] at h
    subst h
    refine ⟨.inl ⟨maxBy_mem hinc, rfl⟩, ?_⟩
    rintro q (hq | hq)
    · exact hle q hq
    · cases hm : maxBy (fun q => q.anchorRound s) witness with
      | none => rw [maxBy_none hm] at hq; simp at hq
      | some w =>
        have h1 := maxBy_le hm q hq
        rw [hm] at hw
        simp only [Option.filter_some, gt_iff_lt, decide_eq_true_eq, ite_eq_right_iff, reduceCtorEq, imp_false, Nat.not_lt] at hw
        dsimp only at h1 ⊢
        omega

theorem linkSource_isSome {includes witness : List Info} (s : Stage) (h : includes ≠ []) :
    (linkSource includes witness s).isSome := by
  unfold linkSource
  cases hm : maxBy (fun q => q.anchorRound s) includes with
  | none => exact absurd (maxBy_none hm) h
  | some m =>
    simp only [Option.bind_eq_bind, Option.bind_some]
    split <;> rfl

/-! ### maps of digests -/

theorem digests_uniq {l : List Info} (h : (l.map (·.author)).Nodup) : (digests l).Uniq := by
  unfold PMap.Uniq digests
  rw [List.map_map]
  exact h

theorem digests_get {l : List Info} (h : (l.map (·.author)).Nodup) {q : Info} (hq : q ∈ l) :
    (digests l).get? q.author = some q.id.digest :=
  PMap.get?_of_mem (digests_uniq h) (List.mem_map_of_mem hq)

theorem mem_digests {l : List Info} {a d : Nat} : (a, d) ∈ digests l ↔ ∃ q ∈ l, q.author = a ∧ q.id.digest = d := by
  unfold digests
  simp [List.mem_map]

theorem author_inj {l : List Info} (h : (l.map (·.author)).Nodup) {q q' : Info} (hq : q ∈ l) (hq' : q' ∈ l)
    (e : q.author = q'.author) : q = q' := List.inj_on_of_nodup_map h hq hq' e

theorem byAuthor_some {l : List Info} {a : Nat} {q : Info} (h : byAuthor l a = some q) : q ∈ l ∧ q.author = a := by
  unfold byAuthor at h
  exact ⟨List.mem_of_find?_eq_some h, by simpa using List.find?_some h⟩

theorem byAuthor_of_mem {l : List Info} (h : (l.map (·.author)).Nodup) {q : Info} (hq : q ∈ l) :
    byAuthor l q.author = some q := by
  cases hb : byAuthor l q.author with
  | none =>
    unfold byAuthor at hb
    rw [List.find?_eq_none] at hb
    exact absurd (hb q hq) (by simp)
  | some q' =>
    obtain ⟨h1, h2⟩ := byAuthor_some hb
    rw [author_inj h h1 hq h2]

/-! ### facts about accepted dependencies -/

theorem id_eq_mk {q : Info} {r : Nat} (h : q.round = r) : q.id = ⟨r, q.id.digest, q.author⟩ := by
  subst h; rfl

theorem anchorRound_lt {q : Info} (hs : Shape q) (hr : 0 < q.round) {s : Stage} (hn : q.anchorLink s ≠ .toSelf) :
    q.anchorRound s < q.round := by
  unfold Info.anchorRound
  cases hl : q.anchorLink s with
  | toSelf => exact absurd hl hn
  | direct t => cases t <;> simp only <;> omega
  | indirect l =>
    simp only
    obtain ⟨h1, h2⟩ := hs.throughId_indirect hl
    obtain ⟨i, hi⟩ := Option.isSome_iff_exists.mp h1
    have h3 := h2 i hi
    have h4 := throughId_round hi
    split at h4 <;> omega

/-- What is used of a dependency. -/
structure DepOk (W : World) (q : Info) : Prop where
  above : W.conf.genesisRound ≤ q.round
  lt : ∀ s, q.anchorLink s ≠ .toSelf → q.anchorRound s < q.round
  low : ∀ s, W.conf.genesisRound ≤ q.anchorRound s
  author : q.author ∈ W.peersFor q.round

theorem verify_author {p : Info} {peersFor conf} (h : verify p peersFor conf = .ok) : p.author ∈ peersFor p.round := by
  obtain ⟨inner, hi, _, _, hp⟩ := verify_ok h
  have hs : inner.same.2 = peersFor p.round := by
    unfold Inner.new at hi
    dsimp only at hi
    split at hi
    · simp at hi
    · cases h1 : peerCountFor true (peersFor p.round).length p.round .evidence with
      | error e => rw [h1] at hi; simp [bind, Except.bind] at hi
      | ok c => rw [h1] at hi; simp [bind, Except.bind, pure, Except.pure] at hi; rw [← hi]
    · cases h1 : peerCountFor false (peersFor p.round).length p.round .evidence with
      | error e => rw [h1] at hi; simp [bind, Except.bind] at hi
      | ok c =>
        cases h2 : peerCountFor true (peersFor (p.round - 1)).length (p.round - 1) .includes with
        | error e => rw [h1, h2] at hi; simp [bind, Except.bind] at hi
        | ok c' => rw [h1, h2] at hi; simp [bind, Except.bind, pure, Except.pure] at hi; rw [← hi]
    · rename_i n _
      cases h0 : peerCountFor (decide (n = 0)) (peersFor (p.round - 1 - 1)).length (p.round - 1 - 1) .witness with
      | error e => rw [h0] at hi; simp [bind, Except.bind] at hi
      | ok c0 =>
        cases h1 : peerCountFor false (peersFor p.round).length p.round .evidence with
        | error e => rw [h0, h1] at hi; simp [bind, Except.bind] at hi
        | ok c =>
          cases h2 : peerCountFor false (peersFor (p.round - 1)).length (p.round - 1) .includes with
          | error e => rw [h0, h1, h2] at hi; simp [bind, Except.bind] at hi
          | ok c' => rw [h0, h1, h2] at hi; simp [bind, Except.bind, pure, Except.pure] at hi; rw [← hi]
  unfold peersError at hp
  rw [or_eq_none'] at hp
  have h1 := hp.1
  unfold evidencePeersError at h1
  split at h1
  · simp at h1
  · rename_i hn
    rw [hs] at hn
    simpa using hn

theorem depOk {W : World} (hW : W.Ok) {q : Info} (h : AllAccepted W q) : DepOk W q := by
  have hge := verify_round h.self.verified hW.genesis_pos
  have hg := hW.genesis_pos
  by_cases hr : q.round = W.conf.genesisRound
  · obtain ⟨hrole, _⟩ := verify_genesis h.self.verified hr hW.genesis_pos
    refine ⟨hge, ?_, ?_, verify_author h.self.verified⟩
    · intro s hn
      exact absurd (genesis_toSelf hrole s) hn
    · intro s
      unfold Info.anchorRound
      rw [genesis_toSelf hrole s]
      exact hge
  · have hs := verify_shape h.self.verified hr
    exact ⟨hge, fun s hn => anchorRound_lt hs (by omega) hn, (verify_bounds h.self.verified hr).1,
      verify_author h.self.verified⟩

/-- A named trigger is at most one round newer than the named proof. -/
theorem trigger_round_le {W : World} (hW : W.Ok) {q : Info} (h : AllAccepted W q) :
    q.anchorRound .trigger ≤ q.anchorRound .proof + 1 := by
  obtain ⟨t, h1, h2, h3, h4⟩ := anchor_target hW .trigger q h
  have hacc : Accepted W t := h t h3
  have htr := anchorId_round h1
  have hle := anchorRound_history hW .proof q h
  by_cases hr : t.round = W.conf.genesisRound
  · obtain ⟨hrole, _⟩ := verify_genesis hacc.verified hr hW.genesis_pos
    have := hle t h3
    have ht : t.anchorRound .proof = t.round := by unfold Info.anchorRound; rw [genesis_toSelf hrole]
    have : t.id.round = t.round := rfl
    omega
  · obtain ⟨c, hc, hs⟩ := trigger_follows_proof hW t hacc hr (isStage_iff.mpr h4)
    have h5 := hle c (h3.tail (isPrev_dep hc))
    rw [isStage_iff] at hs
    have h6 : c.anchorRound .proof = c.round := by unfold Info.anchorRound; rw [hs]
    have h7 := hc.2.1
    have : t.id.round = t.round := rfl
    have : c.id.round = c.round := rfl
    omega

end Tycho.Producer
