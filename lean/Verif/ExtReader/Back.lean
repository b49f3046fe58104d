import Verif.ExtReader.Seg
/-! What is known about the end of the run is known in every state of it. -/
namespace Tycho.ExtReader
variable {B : Type}

theorem fut_append {ours : Nat → Bool} {timeout : Nat} {h : H B} (hi : Inv ours timeout h) (e : Env B) (rd : Bool)
    (hne : h.st.ranges ≠ []) {FR : List (Range B)}
    (hF : FutS timeout { h.st with ranges := h.st.ranges ++ [nextRange e.ops h.st] } true h.st.off FR) :
    Fut timeout h.st rd h.st.off FR := by
  obtain ⟨l1, r1, L1, x1, ext1, hE, hstr⟩ := hF
  obtain ⟨hl1, hr1⟩ := List.append_inj' hE.hs rfl
  have hr1' : nextRange e.ops h.st = r1 := by simpa using hr1
  subst hr1'
  subst hl1
  rcases List.eq_nil_or_concat h.st.ranges with h1 | ⟨l, r, h1⟩
  · exact absurd h1 hne
  · rw [List.concat_eq_append] at h1
    have hp := hE.pre
    rw [h1, List.map_append] at hp
    obtain ⟨L, Lx, hL, hL1, hL2⟩ := List.map_eq_append_iff.1 hp
    obtain ⟨x, hx⟩ : ∃ x, Lx = [x] := by
      cases Lx with
      | nil => simp at hL2
      | cons x t =>
        cases t with
        | nil => exact ⟨x, rfl⟩
        | cons _ _ => simp at hL2
    subst hx
    have hst : stat x = stat r := by simpa using hL2
    simp only [stat, Prod.mk.injEq] at hst
    obtain ⟨s1, s2, s3, s4, s5, s6⟩ := hst
    have hend : endOf h.st.ranges = r.to := by simp [endOf, h1]
    obtain ⟨e1, e2, e3, e4⟩ := hE.same
    have e2' : x1.lo = r.to := by rw [e2]; exact hend
    have e4' : x1.skip = h.st.off := e4
    have hto : x1.lo ≤ x1.to := by
      have : (nextRange e.ops h.st).to = x1.lo := e2.symm ▸ rfl
      rw [← this]; exact hE.to
    have hrm : r ∈ h.st.ranges := by rw [h1]; simp
    refine ⟨l, r, L, x, x1 :: ext1, h1, ?_, hL1, ⟨s1, s2, s4, s5⟩, by rw [s3]; exact Key.le_refl _, by omega, fun _ => s3, ?_, ?_, ?_, ?_⟩
    · rw [hE.hF, hL]; simp
    · left; rw [s3, hi.toEq r hrm]
    · intro y hy
      rcases List.mem_cons.1 hy with h2 | h2
      · rw [h2, e4', s3, e2']; exact ⟨Nat.le_refl _, e2' ▸ hto, Key.le_refl _⟩
      · obtain ⟨a1, a2, a3⟩ := hE.tail y h2
        refine ⟨a1, a2, Key.le_trans ?_ a3⟩
        rw [s3, ← e2']; exact hto
    · intro y hy
      simp only [List.head?_cons, Option.some.injEq] at hy
      rw [← hy, e2', s3]
      exact ⟨rfl, Or.inr rfl⟩
    · intro y hy; exact hstr y hy

theorem fut_block {ours : Nat → Bool} {timeout : Nat} {h : H B} (hi : Inv ours timeout h) (b ct : Nat) (rd : Bool) {FR : List (Range B)}
    (hF : Fut timeout (newBlock b ct (finalize h.st)) true h.st.off FR) : Fut timeout h.st rd h.st.off FR := by
  obtain ⟨l', r', L, x, ext, hE⟩ := hF
  rcases List.eq_nil_or_concat h.st.ranges with h1 | ⟨l, r, h1⟩
  · have := hE.hs
    simp [newBlock, finalize, h1] at this
  · rw [List.concat_eq_append] at h1
    have hgl : h.st.ranges.getLast? = some r := by rw [h1]; simp
    have hrm : r ∈ h.st.ranges := by rw [h1]; simp
    have hfin : ∃ p, r.proc ≤ p ∧ (finalize h.st).ranges = l ++ [{ r with proc := p }] ∧ (finalize h.st).cache = h.st.cache := by
      unfold finalize
      rw [hgl]
      simp only
      split
      · exact ⟨h.st.off, (hi.skip r hrm).2, by rw [h1, List.dropLast_concat], rfl⟩
      · exact ⟨r.proc, Nat.le_refl _, h1, rfl⟩
    obtain ⟨p, hp, hfr, hfc⟩ := hfin
    have hs := hE.hs
    simp only [newBlock, hfr, List.map_append, List.map_cons, List.map_nil] at hs
    obtain ⟨hl', hr'⟩ := List.append_inj' hs rfl
    have hr'' : ({ r with proc := p, fully := decide (r.cur = r.to) } : Range B) = r' := by simpa using hr'
    have hrto := hi.toEq r hrm
    have hcl := hE.closed (Or.inl (by rw [← hr'']; simpa using hrto))
    have hcl' : x.to = r.to := by rw [hcl, ← hr'']
    refine ⟨l, r, L, x, ext, h1, hE.hF, ?_, ?_, ?_, ?_, fun _ => hcl', Or.inl (hcl'.trans hrto.symm), hE.tail, ?_, hE.tl⟩
    · rw [hE.pre, ← hl', List.map_map]; rfl
    · have := hE.same; rw [← hr''] at this; exact this
    · rw [hcl']; exact Key.le_refl _
    · have := hE.proc; rw [← hr''] at this; simp only at this; omega
    · intro y hy
      exact ⟨(hE.head y hy).1, Or.inr hcl'⟩

theorem fut_imp {timeout : Nat} {ours : Nat → Bool} {s : St B} (a : Anchor) {rd : Bool} {o : Nat} {FR : List (Range B)}
    (hF : Fut timeout (importAnchor ours a s) rd o FR) : Fut timeout s rd o FR := by
  obtain ⟨l, r, L, x, ext, hE⟩ := hF
  refine ⟨l, r, L, x, ext, { hE with hs := hE.hs, next := ?_ }⟩
  rcases hE.next with h | h
  · exact Or.inl h
  · right
    intro c hc
    apply h
    simp only [importAnchor]
    split
    · rw [List.head?_append, hc]; rfl
    · exact hc

theorem collect_noevent (e : Env B) (f : Collect B) (s : St B)
    (h : allCollected e.ops (collectStep e f s).off (collectStep e f s).ranges = false) :
    collectStep e f s = { s with off := s.off + 1, ranges := putBufs (s.off + 1) s.ranges (f (s.off + 1) (seen (s.off + 1) s.ranges)) } ∧
      allCollected e.ops (s.off + 1) (putBufs (s.off + 1) s.ranges (f (s.off + 1) (seen (s.off + 1) s.ranges))) = false := by
  generalize hs2 : ({ s with off := s.off + 1, ranges := putBufs (s.off + 1) s.ranges (f (s.off + 1) (seen (s.off + 1) s.ranges)) } : St B) = s2
  have hcs : collectStep e f s = if allCollected e.ops s2.off s2.ranges then finishCollected s2 else s2 := by rw [← hs2]; rfl
  have hgoal : allCollected e.ops (s.off + 1) (putBufs (s.off + 1) s.ranges (f (s.off + 1) (seen (s.off + 1) s.ranges))) =
      allCollected e.ops s2.off s2.ranges := by rw [← hs2]
  rw [hgoal]
  by_cases hc : allCollected e.ops s2.off s2.ranges = true
  · exfalso
    rw [hcs, if_pos hc] at h
    unfold finishCollected at h
    cases hl : s2.ranges.getLast? with
    | none =>
      rw [hl] at h
      simp only at h
      rw [hc] at h; cases h
    | some r =>
      rw [hl] at h
      have hrm := List.mem_of_getLast? hl
      have hr := List.all_eq_true.1 hc r hrm
      simp only [Bool.and_eq_true, decide_eq_true_eq] at hr
      simp only [allCollected, List.all_cons, List.all_nil, Bool.and_true] at h
      by_cases hp : r.proc < s2.off
      · simp [if_pos hp, hr.1] at h
      · simp [if_neg hp, hr.1] at h
        omega
  · rw [hcs, if_neg hc]
    exact ⟨rfl, by simpa using hc⟩

/-- What a group of the run is: maybe a new range, maybe a read of the last range, then the collection. -/
theorem group_parts {c : Cfg B} {f : Collect B} {h : H B} (hi : Inv c.ours c.timeout h) (limit : Nat) (np reading : Bool)
    (hn : allCollected c.ops (group (c.env limit np) .continue_ reading f h.st).st.off
        (group (c.env limit np) .continue_ reading f h.st).st.ranges = false) :
    ∃ s2 : St B, s2.off = h.st.off ∧ s2.procTo = h.st.procTo ∧
      (group (c.env limit np) .continue_ reading f h.st).st =
        { s2 with off := s2.off + 1, ranges := putBufs (s2.off + 1) s2.ranges (f (s2.off + 1) (seen (s2.off + 1) s2.ranges)) } ∧
      allCollected c.ops (s2.off + 1) (putBufs (s2.off + 1) s2.ranges (f (s2.off + 1) (seen (s2.off + 1) s2.ranges))) = false ∧
      ((∃ b, s2 = { h.st with allFully := b } ∧ (reading = true → h.st.allFully = true ∨ ∀ q ∈ h.st.ranges, q.fully = true)) ∨
        (reading = true ∧ ∃ l r b, h.st.ranges = l ++ [r] ∧ r.fully = false ∧ s2 = h.st.readLast (c.env limit np) l r b) ∨
        (reading = true ∧ lastSeqno h.st.ranges < h.st.block ∧ ∃ b, s2 =
          St.readLast (c.env limit np) { h.st with ranges := h.st.ranges ++ [nextRange c.ops h.st] } h.st.ranges (nextRange c.ops h.st) b)) := by
  generalize hs2 : (if !reading then (⟨h.st, [], false⟩ : Res B) else readAll (c.env limit np) .continue_ h.st).st = s2
  have hg : (group (c.env limit np) .continue_ reading f h.st).st = collectStep (c.env limit np) f s2 := by
    rw [← hs2]; simp [group]
  have hcase : (∃ b, s2 = { h.st with allFully := b } ∧ (reading = true → h.st.allFully = true ∨ ∀ q ∈ h.st.ranges, q.fully = true)) ∨
        (reading = true ∧ ∃ l r b, h.st.ranges = l ++ [r] ∧ r.fully = false ∧ s2 = h.st.readLast (c.env limit np) l r b) ∨
        (reading = true ∧ lastSeqno h.st.ranges < h.st.block ∧ ∃ b, s2 =
          St.readLast (c.env limit np) { h.st with ranges := h.st.ranges ++ [nextRange c.ops h.st] } h.st.ranges (nextRange c.ops h.st) b) := by
    cases reading with
    | false => left; exact ⟨h.st.allFully, by rw [← hs2]; rfl, fun h1 => by cases h1⟩
    | true =>
      simp only [Bool.not_true, Bool.false_eq_true, if_false] at hs2
      rcases readAll_cases hi (c.env limit np) with ⟨b, h1, h2⟩ | ⟨l, r, b, h1, h2, h3, _⟩ | ⟨b, h1, h2, _⟩
      · left; exact ⟨b, by rw [← hs2, h1], fun _ => h2⟩
      · right; left; exact ⟨rfl, l, r, b, h1, h2, by rw [← hs2, h3]⟩
      · right; right; exact ⟨rfl, h1, b, by rw [← hs2, h2]; rfl⟩
  rw [hg] at hn ⊢
  obtain ⟨h1, h2⟩ := collect_noevent (c.env limit np) f s2 hn
  refine ⟨s2, ?_, ?_, h1, h2, hcase⟩
  · rcases hcase with ⟨b, h3, _⟩ | ⟨_, l, r, b, _, _, h3⟩ | ⟨_, _, b, h3⟩ <;> rw [h3] <;> rfl
  · rcases hcase with ⟨b, h3, _⟩ | ⟨_, l, r, b, _, _, h3⟩ | ⟨_, _, b, h3⟩ <;> rw [h3] <;> rfl

theorem fut_collect {timeout : Nat} {s2 : St B} {rd : Bool} {FR : List (Range B)} (bs : List B)
    (hF : Fut timeout { s2 with off := s2.off + 1, ranges := putBufs (s2.off + 1) s2.ranges bs } rd (s2.off + 1) FR) :
    FutS timeout s2 rd s2.off FR := by
  refine fut_lower (fut_congr hF ?_ rfl)
  exact putBufs_noBuf _ _ _

theorem fut_group {c : Cfg B} {f : Collect B} {h : H B} (hi : Inv c.ours c.timeout h) (hne : h.st.ranges ≠ []) (limit : Nat) (np reading rd : Bool)
    (hrd : reading = true → rd = true)
    (hn : allCollected c.ops (group (c.env limit np) .continue_ reading f h.st).st.off
        (group (c.env limit np) .continue_ reading f h.st).st.ranges = false) {FR : List (Range B)}
    (hF : Fut c.timeout (group (c.env limit np) .continue_ reading f h.st).st reading
      (group (c.env limit np) .continue_ reading f h.st).st.off FR) : Fut c.timeout h.st rd h.st.off FR := by
  obtain ⟨s2, h1, _, h2, _, h3⟩ := group_parts hi limit np reading hn
  rw [h2] at hF
  have hF2 := fut_collect _ hF
  rw [h1] at hF2
  rcases h3 with ⟨b, h3, _⟩ | ⟨hr, l, r, b, h4, h5, h6⟩ | ⟨hr, h4, b, h5⟩
  · rw [h3] at hF2
    have h6 : Fut c.timeout h.st reading h.st.off FR := fut_congr hF2.fut rfl rfl
    -- the flag can only be larger
    obtain ⟨l, r, L, x, ext, hE⟩ := h6
    refine ⟨l, r, L, x, ext, { hE with closed := ?_ }⟩
    intro h7
    refine hE.closed (h7.imp id (fun h8 => ?_))
    cases hreading : reading with
    | false => rfl
    | true => rw [hrd hreading] at h8; cases h8
  · rw [hrd hr]
    rw [h6] at hF2
    exact (fut_read hi (c.env limit np) rfl rfl l r h4 h5 b reading hF2).fut
  · rw [h5] at hF2
    obtain ⟨hn2, _, _⟩ := inv_newRange hi c.ops h4
    have hF3 := fut_read hn2 (c.env limit np) rfl rfl h.st.ranges (nextRange c.ops h.st) rfl rfl b reading hF2
    exact fut_append hi (c.env limit np) rd hne hF3

theorem putBufs_nil_iff (off : Nat) (rs : List (Range B)) (bs : List B) : putBufs off rs bs = [] ↔ rs = [] := by
  have := putBufs_noBuf off rs bs
  constructor
  · intro h; rw [h] at this; simpa using this.symm
  · intro h; subst h; simpa using this

theorem seg_ranges_ne {c : Cfg B} {f : Collect B} {g g' : G B} (hi : Inv c.ours c.timeout g.h) (hs : SegStep c f g g')
    (hne : g.h.st.ranges ≠ []) : g'.h.st.ranges ≠ [] := by
  cases hs with
  | imp a _ _ => exact hne
  | reset => exact hne
  | group limit np reading _ hn =>
    obtain ⟨s2, _, _, h2, _, h3⟩ := group_parts hi limit np reading hn
    rw [h2]
    simp only [ne_eq, putBufs_nil_iff]
    rcases h3 with ⟨b, h3, _⟩ | ⟨_, l, r, b, _, _, h3⟩ | ⟨_, _, b, h3⟩
    · rw [h3]; exact hne
    · rw [h3]; simp [St.readLast]
    · rw [h3]; simp [St.readLast]
  | block b ct _ _ =>
    simp only [newBlock, ne_eq, List.map_eq_nil_iff]
    unfold finalize
    split
    · exact hne
    · split
      · simp
      · exact hne

theorem fut_step {c : Cfg B} {f : Collect B} {g g' : G B} (hi : Inv c.ours c.timeout g.h) (hne : g.h.st.ranges ≠ [])
    (hs : SegStep c f g g') {FR : List (Range B)} (hF : Fut c.timeout g'.h.st g'.rd g'.h.st.off FR) : Fut c.timeout g.h.st g.rd g.h.st.off FR := by
  cases hs with
  | imp a _ _ => exact fut_imp a hF
  | group limit np reading hrd hn => exact fut_group hi hne limit np reading g.rd hrd hn hF
  | reset => exact fut_congr hF rfl rfl
  | block b ct _ _ =>
    have : (newBlock b ct (finalize g.h.st)).off = g.h.st.off := by
      simp only [newBlock]
      unfold finalize; split
      · rfl
      · split <;> rfl
    simp only [this] at hF
    exact fut_block hi b ct g.rd hF

/-- The end of the run itself. -/
theorem fut_end {ours : Nat → Bool} {timeout : Nat} {h : H B} (hi : Inv ours timeout h) (hne : h.st.ranges ≠ []) (rd : Bool) :
    Fut timeout h.st rd h.st.off (finalize h.st).ranges := by
  rcases List.eq_nil_or_concat h.st.ranges with h1 | ⟨l, r, h1⟩
  · exact absurd h1 hne
  · rw [List.concat_eq_append] at h1
    have hgl : h.st.ranges.getLast? = some r := by rw [h1]; simp
    have hrm : r ∈ h.st.ranges := by rw [h1]; simp
    have hfin : ∃ p, r.proc ≤ p ∧ (finalize h.st).ranges = l ++ [{ r with proc := p }] := by
      unfold finalize
      rw [hgl]
      simp only
      split
      · exact ⟨h.st.off, (hi.skip r hrm).2, by rw [h1, List.dropLast_concat]⟩
      · exact ⟨r.proc, Nat.le_refl _, h1⟩
    obtain ⟨p, hp, hfr⟩ := hfin
    refine ⟨l, r, l, { r with proc := p }, [], h1, hfr, rfl, ⟨rfl, rfl, rfl, rfl⟩, Key.le_refl _, hp, fun _ => rfl,
      Or.inl (hi.toEq r hrm).symm, ?_, ?_, ?_⟩
    · intro y hy; cases hy
    · intro y hy; cases hy
    · intro y hy; cases hy

end Tycho.ExtReader
