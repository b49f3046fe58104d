import Verif.Verifier.Verdict

/-! The rule about an author that goes on after its previous round: which other versions of its previous point a point
without faults of its own can have. -/
namespace Tycho.Verifier

theorem validate_items {conf : Conf} {p : Info} {run : Run} (hr : conf.genesisRound < p.round)
    (h : validate conf p run = .valid ∨ ∃ d, validate conf p run = .transInvalid d) :
    ∃ P, ∀ item ∈ run.order, itemOk conf p P item := by
  unfold validate at h
  rw [if_neg (by omega), if_neg (by omega)] at h
  split at h
  · simp at h
  split at h
  · simp at h
  split at h
  · simp at h
  split at h
  · simp at h
  split at h
  · simp at h
  · rename_i P hP
    dsimp only at h
    split at h
    · simp at h
    · rename_i hinv
      exact ⟨P, (checkValid_inv run.order).mp hinv⟩

/-- What may be known about a version of the author's previous point which the point does not refer to: it is valid, and
either it is not the first valid version or the point refers to another version; or it was not found, and nobody has
certified it. -/
inductive MayBeSkipped (hasPrev : Bool) : DagPoint → Prop
  | valid (q first) : (hasPrev = true ∨ first = false) → MayBeSkipped hasPrev (.valid q first)
  | notFound (i) : MayBeSkipped hasPrev (.notFound i false)

/-- **C56.** A point without faults of its own (`Valid` or `TransInvalid`) does not go on after a version of its author's
previous point that is known to be invalid, transitively invalid or ill-formed unless it refers to it, and does not omit
its first valid or a certified previous point. -/
theorem skipped_previous_point {W : World} {p : Info} {run : Run} (hf : Faithful W p run)
    (hr : W.conf.genesisRound < p.round)
    (h : validate W.conf p run = .valid ∨ ∃ d, validate W.conf p run = .transInvalid d)
    (dp : DagPoint) (hdp : some dp ∈ run.others) : MayBeSkipped (p.prevDigest.isSome) dp := by
  obtain ⟨P, hP⟩ := validate_items hr h
  have hmem : some dp ∈ run.order := hf.order.mem_iff.mpr (List.mem_append_right _ hdp)
  have := hP _ hmem
  obtain ⟨h1, h2, h3⟩ := hf.others dp hdp
  simp only [itemOk] at this
  rw [if_pos ⟨⟨h1, h2⟩, h3⟩] at this
  unfold otherVersion at this
  cases dp with
  | valid q first =>
    rw [fire_eq_none] at this
    refine .valid _ _ ?_
    cases hp : p.prevDigest <;> simp_all
  | transInvalid => simp at this
  | invalid => simp at this
  | illFormed => simp at this
  | notFound i c =>
    rw [fire_eq_none] at this
    subst this
    exact .notFound _

/-- **C56.** Every dependency requested by a point without faults of its own was found with its body and verified. -/
theorem dependencies_found {W : World} {p : Info} {run : Run} (hf : Faithful W p run)
    (hr : W.conf.genesisRound < p.round)
    (h : validate W.conf p run = .valid ∨ ∃ d, validate W.conf p run = .transInvalid d)
    (hg : 0 < W.conf.genesisRound) (hu : p.includes.Uniq) (i : PointId) (hi : i ∈ depIds p run.r2) :
    ∃ dp q, run.resolve i = some dp ∧ dp.info? = some q ∧ q.id = i ∧ W.body i = some q := by
  obtain ⟨P, hP⟩ := validate_items hr h
  have hmem : run.resolve i ∈ run.order :=
    hf.order.mem_iff.mpr (List.mem_append_left _ (List.mem_map_of_mem hi))
  have hok := hP _ hmem
  cases hres : run.resolve i with
  | none => rw [hres] at hok; exact absurd hok (by simp [itemOk])
  | some dp =>
    rw [hres] at hok hmem
    have hid := hf.resolves i dp hres
    simp only [itemOk] at hok
    rw [if_neg] at hok
    · obtain ⟨q, hq, _⟩ := hok
      have hqid : q.id = i := by
        rw [← hid]
        cases dp <;> simp [DagPoint.info?] at hq <;> subst hq <;> rfl
      exact ⟨dp, q, rfl, hq, hqid, hid ▸ hf.bodies dp hmem q hq⟩
    · rintro ⟨⟨h1, h2⟩, h3⟩
      rw [hid] at h1 h2 h3
      apply h3
      unfold depIds at hi
      rcases List.mem_append.mp hi with hw | hinc
      · split at hw
        · obtain ⟨e, he, rfl⟩ := List.mem_map.mp hw
          dsimp only at h1
          exact absurd h1 (by have := hr; omega)
        · simp at hw
      · obtain ⟨e, he, rfl⟩ := List.mem_map.mp hinc
        dsimp only at h2 ⊢
        unfold Info.prevDigest
        rw [← h2]
        exact PMap.get?_of_mem hu he

end Tycho.Verifier
