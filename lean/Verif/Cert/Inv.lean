import Verif.Cert.Spec
/-! The invariant of all interleavings: heights come from paths, and every known dependency is high enough or about to be. -/
namespace Tycho.Cert

/-- What a traversal is going to certify, and at which height. -/
def Task.Pending : Task → Nat → Nat → Prop
  | .direct h incs wit cur incl, i, n =>
    (i ∈ incs ∧ n = h) ∨ (i ∈ wit ∧ n = h - 1) ∨ (i ∈ cur ∧ n = h - 1) ∨ (i ∈ incl ∧ n = h - 2)
  | .loop h cur incl wit, i, n => (i ∈ cur ∧ n = h) ∨ (i ∈ incl ∧ n = h - 1) ∨ (i ∈ wit ∧ n = h - 2)
  | .done, _, _ => False

/-- What any traversal of a list is going to certify. -/
def Pends (ts : List Task) (i n : Nat) : Prop := ∃ t ∈ ts, t.Pending i n

/-- A path without conditions. -/
abbrev Leads (known : Nat → Option Deps) (p q c : Nat) : Prop := Path known (fun _ => True) p q c

/-- The invariant, for certs `nodes`, reachable ones `alive`, directly certified ones `C`, and pending work `P`. -/
structure Good (depth : Nat) (nodes : Nat → Node) (alive : Nat → Bool) (C : Nat → Prop) (P : Nat → Nat → Prop) : Prop where
  low : ∀ q, 1 ≤ (nodes q).word.height →
    ∃ p c, C p ∧ Leads (fun i => (nodes i).known) p q c ∧ (nodes q).word.height + c = depth + 1
  pend : ∀ q h, P q h → 1 ≤ h → ∃ p c, C p ∧ Leads (fun i => (nodes i).known) p q c ∧ h + c = depth + 1
  incl : ∀ q d r, (nodes q).known = some d → alive r = true → r ∈ d.includes → 2 ≤ (nodes q).word.height →
    (nodes q).word.height - 1 ≤ (nodes r).word.height ∨ ∃ h, (nodes q).word.height - 1 ≤ h ∧ P r h
  wit : ∀ q d r, (nodes q).known = some d → alive r = true → r ∈ d.witness → 3 ≤ (nodes q).word.height →
    (nodes q).word.height - 2 ≤ (nodes r).word.height ∨ ∃ h, (nodes q).word.height - 2 ≤ h ∧ P r h
  top : ∀ q, (nodes q).word.top = true ↔ C q
  full : ∀ q, C q → (nodes q).word.height = depth + 1
  order : ∀ q, (nodes q).word.completed = true → (nodes q).word.started = true

theorem path_mono {k k' : Nat → Option Deps} {ok ok' : Nat → Prop} (hk : ∀ q d, k q = some d → k' q = some d)
    (ho : ∀ q, ok q → ok' q) {p q c : Nat} (h : Path k ok p q c) : Path k' ok' p q c := by
  induction h with
  | here => exact .here
  | inc _ h1 h2 h3 ih => exact .inc ih (hk _ _ h1) h2 (ho _ h3)
  | wit _ h1 h2 h3 ih => exact .wit ih (hk _ _ h1) h2 (ho _ h3)

theorem path_zero {k : Nat → Option Deps} {ok : Nat → Prop} {p q : Nat} (h : Path k ok p q 0) : q = p := by
  cases h with
  | here => rfl

theorem good_init (depth : Nat) : Good depth (fun _ => Node.init) (fun _ => true) (fun _ => False) (Pends []) := by
  constructor
  · intro q h; simp [Node.init] at h
  · rintro q h ⟨t, ht, _⟩; simp at ht
  · intro q d r h; simp [Node.known, Node.init] at h
  · intro q d r h; simp [Node.known, Node.init] at h
  · intro q; simp [Node.init]
  · intro q h; cases h
  · intro q h; simp [Node.init] at h

/-- What `deeper` does. -/
theorem deeper_cases (n : Node) (h : Nat) (top : Bool) :
    (h ≤ n.word.height ∧ n.deeper h top = (n, none)) ∨
    (n.word.height < h ∧ (n.deeper h top).1 = { n with word := { n.word with height := h, top := n.word.top || top } } ∧
      (((n.word.completed = false ∨ h ≤ 1) ∧ (n.deeper h top).2 = none) ∨
        (n.word.completed = true ∧ 2 ≤ h ∧ (n.deeper h top).2 = some (n.deps.refs h)))) := by
  unfold Node.deeper Word.raise
  by_cases hh : h > n.word.height
  · right
    rw [if_pos hh]
    refine ⟨hh, rfl, ?_⟩
    by_cases hc : n.word.completed = true
    · by_cases h1 : h > 1
      · right; exact ⟨hc, h1, by simp [hc, h1]⟩
      · left; exact ⟨Or.inr (by omega), by simp [hc, h1]⟩
    · simp only [Bool.not_eq_true] at hc
      left; exact ⟨Or.inl hc, by simp [hc]⟩
  · left
    rw [if_neg hh]
    exact ⟨by omega, rfl⟩

/-- The main step: one cert is raised to a justified height, and the work left changes accordingly. -/
theorem good_raise {depth : Nat} {nodes : Nat → Node} {alive : Nat → Bool} {C C' : Nat → Prop} {P P' : Nat → Nat → Prop}
    (g : Good depth nodes alive C P) (i h : Nat) (top : Bool) (h1 : 1 ≤ h)
    (hC : ∀ q, C q → C' q)
    (hj : ∃ p c, C' p ∧ Leads (fun i => (nodes i).known) p i c ∧ h + c = depth + 1)
    (htop : ∀ q, C' q ↔ C q ∨ (q = i ∧ top = true))
    (hfull : top = true → h = depth + 1)
    (hdown : ∀ r n, P r n → 1 ≤ n → P' r n ∨ (r = i ∧ n ≤ h))
    (hnew : ∀ d, ((nodes i).deeper h top).2 = some d →
      (∀ r ∈ d.includes, alive r = true → P' r (h - 1)) ∧ (∀ r ∈ d.witness, alive r = true → P' r (h - 2)))
    (hup : ∀ r n, P' r n → 1 ≤ n → P r n ∨ ∃ d, ((nodes i).deeper h top).2 = some d ∧
      ((r ∈ d.includes ∧ n = h - 1) ∨ (r ∈ d.witness ∧ n = h - 2))) :
    Good depth (fun j => if j = i then ((nodes i).deeper h top).1 else nodes j) alive C' P' := by
  have hknown : ∀ j, (if j = i then ((nodes i).deeper h top).1 else nodes j).known = (nodes j).known := by
    intro j
    by_cases hji : j = i
    · subst hji
      rw [if_pos rfl]
      rcases deeper_cases (nodes j) h top with ⟨_, he⟩ | ⟨_, he, _⟩
      · rw [he]
      · rw [he]; rfl
    · rw [if_neg hji]
  have hkf : (fun j => (if j = i then ((nodes i).deeper h top).1 else nodes j).known) = fun j => (nodes j).known :=
    funext hknown
  have hle : h ≤ depth + 1 := by obtain ⟨_, c, _, _, hc⟩ := hj; omega
  -- heights
  have hhi : ∀ j, (if j = i then ((nodes i).deeper h top).1 else nodes j).word.height =
      if j = i then max (nodes i).word.height h else (nodes j).word.height := by
    intro j
    by_cases hji : j = i
    · subst hji
      simp only [if_true]
      rcases deeper_cases (nodes j) h top with ⟨hl, he⟩ | ⟨hl, he, _⟩
      · rw [he]; simp only; omega
      · rw [he]; simp only; omega
    · simp only [if_neg hji]
  have hmono : ∀ j, (nodes j).word.height ≤ (if j = i then max (nodes i).word.height h else (nodes j).word.height) := by
    intro j; split
    · rename_i he; subst he; omega
    · exact Nat.le_refl _
  have hige : ∀ j, j = i → h ≤ (if j = i then max (nodes i).word.height h else (nodes j).word.height) := by
    intro j hj; rw [if_pos hj]; omega
  constructor
  · intro q hq
    rw [hhi] at hq ⊢
    rw [hkf]
    by_cases hqi : q = i
    · subst hqi
      rw [if_pos rfl] at hq ⊢
      by_cases hl : (nodes q).word.height < h
      · obtain ⟨p, c, hp, hpath, hc⟩ := hj
        exact ⟨p, c, hp, hpath, by omega⟩
      · obtain ⟨p, c, hp, hpath, hc⟩ := g.low q (by omega)
        exact ⟨p, c, hC _ hp, hpath, by omega⟩
    · rw [if_neg hqi] at hq ⊢
      obtain ⟨p, c, hp, hpath, hc⟩ := g.low q hq
      exact ⟨p, c, hC _ hp, hpath, hc⟩
  · intro q n hq hn
    rw [hkf]
    rcases hup q n hq hn with hP | ⟨d, hd, hr⟩
    · obtain ⟨p, c, hp, hpath, hc⟩ := g.pend q n hP hn
      exact ⟨p, c, hC _ hp, hpath, hc⟩
    · obtain ⟨p, c, hp, hpath, hc⟩ := hj
      rcases deeper_cases (nodes i) h top with ⟨_, he⟩ | ⟨_, _, ⟨_, he⟩ | ⟨hcm, h2, he⟩⟩
      · rw [he] at hd; cases hd
      · rw [he] at hd; cases hd
      · rw [he] at hd; cases hd
        have hki : (nodes i).known = some (nodes i).deps := by simp [Node.known, hcm]
        rcases hr with ⟨hr, rfl⟩ | ⟨hr, rfl⟩
        · exact ⟨p, c + 1, hp, .inc hpath hki hr trivial, by omega⟩
        · unfold Deps.refs at hr
          simp only at hr
          split at hr
          · exact ⟨p, c + 2, hp, .wit hpath hki hr trivial, by omega⟩
          · simp at hr
  · intro q d r hk hr hm h2
    rw [hknown] at hk
    rw [hhi] at h2 ⊢
    rw [hhi]
    by_cases hraised : q = i ∧ (nodes i).word.height < h
    · obtain ⟨rfl, hl⟩ := hraised
      rw [if_pos rfl] at h2 ⊢
      right
      refine ⟨h - 1, by omega, ?_⟩
      rcases deeper_cases (nodes q) h top with ⟨hl2, _⟩ | ⟨_, _, ⟨hcm, he⟩ | ⟨hcm, h3, he⟩⟩
      · omega
      · rcases hcm with hcm | hcm
        · simp [Node.known, hcm] at hk
        · omega
      · have hd : d = (nodes q).deps := by simp [Node.known, hcm] at hk; exact hk.symm
        subst hd
        exact (hnew _ he).1 r hm hr
    · have hq : (if q = i then max (nodes i).word.height h else (nodes q).word.height) = (nodes q).word.height := by
        split
        · rename_i he; subst he
          have : ¬ (nodes q).word.height < h := fun hl => hraised ⟨rfl, hl⟩
          omega
        · rfl
      rw [hq] at h2 ⊢
      rcases g.incl q d r hk hr hm h2 with hh | ⟨n, hn, hP⟩
      · left; exact Nat.le_trans hh (hmono r)
      · rcases hdown r n hP (by omega) with hP' | ⟨hri, hle⟩
        · right; exact ⟨n, hn, hP'⟩
        · left; have := hige r hri; omega
  · intro q d r hk hr hm h2
    rw [hknown] at hk
    rw [hhi] at h2 ⊢
    rw [hhi]
    by_cases hraised : q = i ∧ (nodes i).word.height < h
    · obtain ⟨rfl, hl⟩ := hraised
      rw [if_pos rfl] at h2 ⊢
      right
      refine ⟨h - 2, by omega, ?_⟩
      rcases deeper_cases (nodes q) h top with ⟨hl2, _⟩ | ⟨_, _, ⟨hcm, he⟩ | ⟨hcm, h3, he⟩⟩
      · omega
      · rcases hcm with hcm | hcm
        · simp [Node.known, hcm] at hk
        · omega
      · have hd : d = (nodes q).deps := by simp [Node.known, hcm] at hk; exact hk.symm
        subst hd
        refine (hnew _ he).2 r ?_ hr
        unfold Deps.refs
        simp only
        rw [if_pos (by omega)]; exact hm
    · have hq : (if q = i then max (nodes i).word.height h else (nodes q).word.height) = (nodes q).word.height := by
        split
        · rename_i he; subst he
          have : ¬ (nodes q).word.height < h := fun hl => hraised ⟨rfl, hl⟩
          omega
        · rfl
      rw [hq] at h2 ⊢
      rcases g.wit q d r hk hr hm h2 with hh | ⟨n, hn, hP⟩
      · left; exact Nat.le_trans hh (hmono r)
      · rcases hdown r n hP (by omega) with hP' | ⟨hri, hle⟩
        · right; exact ⟨n, hn, hP'⟩
        · left; have := hige r hri; omega
  · intro q
    rw [htop, ← g.top]
    by_cases hqi : q = i
    · subst hqi
      rw [if_pos rfl]
      rcases deeper_cases (nodes q) h top with ⟨hl, he⟩ | ⟨hl, he, _⟩
      · rw [he]
        simp only [true_and]
        constructor
        · exact Or.inl
        · rintro (hh | hh)
          · exact hh
          · have hfull' := hfull hh
            obtain ⟨p, c, hp, hpath, hc⟩ := g.low q (by omega)
            have : c = 0 := by omega
            subst this
            have := path_zero hpath
            subst this
            exact (g.top _).mpr hp
      · rw [he]; simp
    · rw [if_neg hqi]; simp [hqi]
  · intro q hq
    rw [hhi]
    have hub : ∀ q, (nodes q).word.height ≤ depth + 1 := by
      intro q
      by_cases hz : (nodes q).word.height = 0
      · omega
      · obtain ⟨_, _, _, _, hc⟩ := g.low q (by omega); omega
    rcases (htop q).mp hq with hq | ⟨rfl, ht⟩
    · have := g.full q hq
      split
      · rename_i he; subst he; omega
      · exact this
    · rw [if_pos rfl]
      have := hub q
      have := hfull ht
      omega
  · intro q
    by_cases hqi : q = i
    · subst hqi
      rw [if_pos rfl]
      rcases deeper_cases (nodes q) h top with ⟨hl, he⟩ | ⟨hl, he, _⟩
      · rw [he]; exact g.order q
      · rw [he]; exact g.order q
    · rw [if_neg hqi]; exact g.order q

/-- Work may be rearranged. -/
theorem good_work {depth : Nat} {nodes : Nat → Node} {alive : Nat → Bool} {C : Nat → Prop} {P P' : Nat → Nat → Prop}
    (g : Good depth nodes alive C P)
    (hdown : ∀ r n, P r n → 1 ≤ n → alive r = true → P' r n) (hup : ∀ r n, P' r n → 1 ≤ n → P r n) :
    Good depth nodes alive C P' := by
  refine ⟨g.low, fun q h hq h1 => g.pend q h (hup q h hq h1) h1, ?_, ?_, g.top, g.full, g.order⟩
  · intro q d r hk hr hm h2
    rcases g.incl q d r hk hr hm h2 with hh | ⟨n, hn, hP⟩
    · exact Or.inl hh
    · exact Or.inr ⟨n, hn, hdown r n hP (by omega) hr⟩
  · intro q d r hk hr hm h2
    rcases g.wit q d r hk hr hm h2 with hh | ⟨n, hn, hP⟩
    · exact Or.inl hh
    · exact Or.inr ⟨n, hn, hdown r n hP (by omega) hr⟩

end Tycho.Cert
