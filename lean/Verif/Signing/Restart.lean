import Verif.Signing.Inv

/-! What a restart leaves. -/
namespace Tycho.Signing

/-- The task of a restored record that is not the first one. -/
def plain (r : Rec) : Task := ⟨r.digest, r.isValid, r.time, .done, false, false⟩

/-- The task of the first restored record. -/
def headTask (r : Rec) : Task := ⟨r.digest, r.isValid, r.time, .done, true, r.isValid⟩

/-- The location after the first restored record. -/
def headLoc (r : Rec) : Loc :=
  if r.isValid then ⟨some (.valid r.digest (some (some ⟨r.digest, r.time, none⟩))), some r.digest⟩
  else ⟨some (.notValid r.digest), none⟩

theorem restoreAll_rest {l : Loc} (hl : l.resolved ≠ none) (rs : List Rec) (ts : List Task)
    (hf : ∀ r ∈ rs, r.firstValid = false) (hr : ∀ r ∈ rs, rdig l ≠ some r.digest) (hv : ∀ r ∈ rs, l.valid ≠ some r.digest) :
    restoreAll l ts rs = some (l, (rs.map plain).reverse ++ ts) := by
  induction rs generalizing ts with
  | nil => rfl
  | cons r rs ih =>
    have hnone : l.resolved.isNone = false := by cases h : l.resolved with
      | none => exact absurd h hl
      | some _ => rfl
    have h1 : acquireRestore l r = some (l, ⟨r.digest, r.isValid, r.time, .stored, false, false⟩) := by
      unfold acquireRestore
      simp [hnone, hf r (by simp)]
    have h2 : resolveFirst l ⟨r.digest, r.isValid, r.time, .stored, false, false⟩ = some l := by
      unfold resolveFirst
      simp only [Bool.false_eq_true, if_false]
      have := hr r (by simp)
      cases h : l.resolved with
      | none => rfl
      | some f =>
        cases f with
        | closed => rfl
        | notValid d => simp [rdig, h] at this; simp [this]
        | valid d c => simp [rdig, h] at this; simp [this]
    have h3 : checkValid l ⟨r.digest, r.isValid, r.time, .stored, false, false⟩ = true := by
      unfold checkValid
      simp; exact hv r (by simp)
    have h4 : resolve l ⟨r.digest, r.isValid, r.time, .stored, false, false⟩ = some (l, plain r) := by
      unfold resolve
      rw [h2]; simp only [h3, if_true]; rfl
    unfold restoreAll
    rw [h1]
    simp only [h4]
    rw [ih _ (fun x hx => hf x (by simp [hx])) (fun x hx => hr x (by simp [hx])) (fun x hx => hv x (by simp [hx]))]
    simp

theorem restoreAll_head (r : Rec) (rs : List Rec) (hv : r.firstValid = true → r.isValid = true) :
    restoreAll .new [] (r :: rs) = restoreAll (headLoc r) [headTask r] rs := by
  rcases r with ⟨d, iv, tm, f⟩
  cases iv <;> cases f <;>
    simp_all [restoreAll, acquireRestore, Loc.new, resolve, resolveFirst, checkValid, headLoc, headTask]

theorem rdig_headLoc (r : Rec) : rdig (headLoc r) = some r.digest := by
  unfold headLoc; split <;> rfl

/-- What a restart from `order` leaves, when the stored records are as `Inv` says. -/
structure Restored (order : List Rec) (l : Loc) (ts : List Task) : Prop where
  loc : l = match order with | [] => Loc.new | r :: _ => headLoc r
  mem : ∀ t, t ∈ ts ↔ match order with | [] => False | r :: rs => t = headTask r ∨ ∃ x ∈ rs, t = plain x
  digests : (ts.map Task.digest).Perm (order.map Rec.digest)

theorem restore_ok {order : List Rec} (hn : (order.map Rec.digest).Nodup)
    (hs : order.Pairwise fun a b => restoreOrder a ≤ restoreOrder b)
    (hf : ∀ r ∈ order, r.firstValid = true → r.isValid = true)
    (hu : ∀ r ∈ order, ∀ q ∈ order, r.firstValid = true → q.firstValid = true → r.digest = q.digest) :
    ∃ l ts, restoreAll .new [] order = some (l, ts) ∧ Restored order l ts := by
  cases order with
  | nil => exact ⟨_, _, rfl, ⟨rfl, by simp, by simp⟩⟩
  | cons r rs =>
    have hne : ∀ x ∈ rs, x.digest ≠ r.digest := by
      intro x hx h
      simp only [List.map_cons, List.nodup_cons] at hn
      exact hn.1 (List.mem_map.2 ⟨x, hx, h⟩)
    rw [restoreAll_head r rs (hf r (by simp))]
    rw [restoreAll_rest]
    · refine ⟨_, _, rfl, rfl, ?_, ?_⟩
      · intro t
        simp only [List.mem_append, List.mem_reverse, List.mem_map, List.mem_singleton]
        constructor
        · rintro (⟨x, hx, rfl⟩ | h)
          · exact Or.inr ⟨x, hx, rfl⟩
          · exact Or.inl h
        · rintro (h | ⟨x, hx, rfl⟩)
          · exact Or.inr h
          · exact Or.inl ⟨x, hx, rfl⟩
      · simp only [List.map_append, List.map_reverse, List.map_map, List.map_cons, List.map_nil]
        have e : (Task.digest ∘ plain) = Rec.digest := rfl
        rw [e]
        refine (List.perm_append_comm).trans ?_
        exact List.Perm.cons _ (List.reverse_perm _)
    · unfold headLoc; split <;> simp
    · intro x hx
      cases hfx : x.firstValid with
      | false => rfl
      | true =>
        have h1 := (List.pairwise_cons.1 hs).1 x hx
        have h0 : restoreOrder x = 0 := by unfold restoreOrder; simp [hfx]
        have h2 : restoreOrder r = 0 := by omega
        have h3 : r.firstValid = true := by
          unfold restoreOrder at h2
          split at h2
          · assumption
          · split at h2 <;> simp at h2
        exact absurd (hu x (by simp [hx]) r (by simp) hfx h3) (hne x hx)
    · intro x hx h; rw [rdig_headLoc] at h; simp at h; exact hne x hx h.symm
    · intro x hx h
      unfold headLoc at h
      split at h <;> simp at h
      exact hne x hx h.symm

/-- If a record is flagged it is restored first. -/
theorem flagged_first {r f : Rec} {rs : List Rec} (hs : (r :: rs).Pairwise fun a b => restoreOrder a ≤ restoreOrder b)
    (hf : f ∈ r :: rs) (h : f.firstValid = true) : r.firstValid = true := by
  rcases List.mem_cons.1 hf with rfl | hf
  · exact h
  · have h1 := (List.pairwise_cons.1 hs).1 f hf
    have h0 : restoreOrder f = 0 := by unfold restoreOrder; simp [h]
    have h2 : restoreOrder r = 0 := by omega
    unfold restoreOrder at h2
    split at h2
    · assumption
    · split at h2 <;> simp at h2

theorem mem_afterFix {fix db} {r : Rec} (h : r ∈ afterFix fix db) : r ∈ db := by
  unfold afterFix at h
  split at h
  · exact (List.mem_filter.1 h).1
  · exact h

theorem nodup_afterFix {fix db} (h : (db.map Rec.digest).Nodup) : ((afterFix fix db).map Rec.digest).Nodup := by
  unfold afterFix
  split
  · exact (List.filter_sublist.map _).nodup h
  · exact h

theorem mem_afterFix_flagged {fix db} {r : Rec} (h : r ∈ db) (hv : r.isValid = true) (hf : r.firstValid = true) :
    r ∈ afterFix fix db := by
  unfold afterFix
  split
  · exact List.mem_filter.2 ⟨h, by simp [hv, hf]⟩
  · exact h

theorem inv_restart {s : Sys} (I : Inv s) {fix order} (hp : order.Perm (afterFix fix s.db))
    (hs : order.Pairwise fun a b => restoreOrder a ≤ restoreOrder b) :
    ∃ l ts, restoreAll .new [] order = some (l, ts) ∧ Restored order l ts ∧ Inv ⟨l, ts, afterFix fix s.db, s.signed⟩ := by
  have hmem : ∀ r, r ∈ order ↔ r ∈ afterFix fix s.db := fun r => hp.mem_iff
  have hin : ∀ r ∈ order, r ∈ s.db := fun r h => mem_afterFix ((hmem r).1 h)
  have hn0 := nodup_afterFix (fix := fix) I.dbNodup
  have hn : (order.map Rec.digest).Nodup := (hp.map Rec.digest).nodup_iff.2 hn0
  have hfv : ∀ r ∈ order, r.firstValid = true → r.isValid = true := fun r h hf => (I.flag r (hin r h) hf).2
  have hu : ∀ r ∈ order, ∀ q ∈ order, r.firstValid = true → q.firstValid = true → r.digest = q.digest := by
    intro r hr q hq h1 h2
    have e1 := (I.flag r (hin r hr) h1).1
    have e2 := (I.flag q (hin q hq) h2).1
    rw [e1] at e2; simpa using e2
  obtain ⟨l, ts, hrun, R⟩ := restore_ok hn hs hfv hu
  refine ⟨l, ts, hrun, R, ?_⟩
  have hrl := R.loc
  have hts := R.mem
  have hdig := R.digests
  cases order with
  | nil =>
    simp only at hrl hts
    subst hrl
    have hemp : ∀ r, r ∉ afterFix fix s.db := fun r h => by simpa using (hmem r).2 h
    refine ⟨hdig.nodup_iff.2 hn, by simp [Loc.new], by simp [Loc.new], by simp [Loc.new], by simp [Loc.new, rdig], ?_, ?_, ?_, ?_,
      ?_, by simp [Loc.new], ?_, ?_, ?_, ?_, hn0⟩
    all_goals first
      | (intro t ht; exact absurd ((hts t).1 ht) id)
      | (intro t ht; exact absurd ht (hemp t))
  | cons r rs =>
    simp only at hrl hts
    subst hrl
    have hne : ∀ x ∈ rs, x.digest ≠ r.digest := by
      intro x hx h
      simp only [List.map_cons, List.nodup_cons] at hn
      exact hn.1 (List.mem_map.2 ⟨x, hx, h⟩)
    have hrm : r ∈ afterFix fix s.db := (hmem r).1 (by simp)
    have hxm : ∀ x ∈ rs, x ∈ afterFix fix s.db := fun x hx => (hmem x).1 (by simp [hx])
    have hht : headTask r ∈ ts := (hts _).2 (Or.inl rfl)
    have hval : ∀ d, (headLoc r).valid = some d ↔ r.isValid = true ∧ r.digest = d := by
      intro d
      unfold headLoc
      split <;> simp [*]
    refine ⟨hdig.nodup_iff.2 hn, ?_, ?_, ?_, ?_, ?_, ?_, ?_, ?_,
      ?_, ?_, ?_, ?_, ?_, ?_, hn0⟩
    · intro h; unfold headLoc at h; split at h <;> simp at h
    · intro d c h
      show (headLoc r).valid = some d
      have h' : (headLoc r).resolved = some (.valid d c) := h
      unfold headLoc at h' ⊢
      split at h' <;> simp_all
    · intro d h; exact ⟨_, hht, ((hval d).1 h).2⟩
    · intro d h; have h' : rdig (headLoc r) = some d := h; rw [rdig_headLoc] at h'; simp at h'; exact ⟨_, hht, h'⟩
    · intro t ht
      show _ ↔ (headLoc r).valid = _
      rcases (hts t).1 ht with rfl | ⟨x, hx, rfl⟩
      · rw [hval]; simp [headTask]
      · rw [hval]; simp [plain]; exact fun _ h => hne x hx h.symm
    · intro t ht
      show _ ↔ rdig (headLoc r) = _
      rw [rdig_headLoc]
      rcases (hts t).1 ht with rfl | ⟨x, hx, rfl⟩
      · simp [headTask]
      · simp [plain]; exact fun h => hne x hx h.symm
    · intro t ht h
      rcases (hts t).1 ht with rfl | ⟨x, hx, rfl⟩
      · exact h
      · simp [plain] at h
    · intro t ht c h
      have h' : (headLoc r).resolved = some (.valid t.digest c) := h
      rcases (hts t).1 ht with rfl | ⟨x, hx, rfl⟩
      · unfold headLoc at h'
        split at h'
        · assumption
        · simp at h'
      · unfold headLoc at h'
        split at h'
        · simp [plain] at h'; exact absurd h'.1.symm (hne x hx)
        · simp at h'
    · intro t ht h
      have h' : (headLoc r).resolved = some (.notValid t.digest) := h
      rcases (hts t).1 ht with rfl | ⟨x, hx, rfl⟩
      · unfold headLoc at h'
        split at h'
        · simp at h'
        · rename_i h; simpa [headTask] using h
      · unfold headLoc at h'
        split at h'
        · simp at h'
        · simp [plain] at h'; exact absurd h'.symm (hne x hx)
    · intro d g h
      have h' : (headLoc r).resolved = some (.valid d (some (some g))) := h
      unfold headLoc at h'
      split at h'
      · rename_i hv
        simp at h'
        obtain ⟨rfl, rfl⟩ := h'
        exact ⟨rfl, r, hrm, rfl, hv⟩
      · simp at h'
    · intro t ht _
      rcases (hts t).1 ht with rfl | ⟨x, hx, rfl⟩
      · exact ⟨r, hrm, rfl, rfl⟩
      · exact ⟨x, hxm x hx, rfl, rfl⟩
    · intro t ht h
      rcases (hts t).1 ht with rfl | ⟨x, hx, rfl⟩
      · simp [headTask, inDb] at h
      · simp [plain, inDb] at h
    · intro x hx
      rcases List.mem_cons.1 ((hmem x).2 hx) with rfl | hx
      · exact ⟨_, hht, rfl⟩
      · exact ⟨_, (hts _).2 (Or.inr ⟨x, hx, rfl⟩), rfl⟩
    · intro x hx h
      have hxo := (hmem x).2 hx
      have hrf := flagged_first hs hxo h
      have he := hu x hxo r (by simp) h hrf
      exact ⟨(hval _).2 ⟨hfv r (by simp) hrf, he.symm⟩, hfv x hxo h⟩

end Tycho.Signing
