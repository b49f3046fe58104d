import Verif.ArchiveFile.Verify
import Mathlib.Tactic.ByContra

/-! Theorems on archive packages. -/
namespace Tycho.ArchiveFile
open Tycho.Bytes Tycho.Codec

variable {x : Ext}

theorem length_le {es : List Entry} (he : ∀ e ∈ es, EntryOk x e) : es.length ≤ (es.flatMap (encEntry x)).length := by
  induction es with
  | nil => simp
  | cons e es ih =>
    have := entry_length (x := x) (he e (by simp)).1
    have := ih (fun e' h' => he e' (by simp [h']))
    simp only [List.flatMap_cons, List.length_append, List.length_cons]
    omega

/-- **C93** what is written is read back -/
theorem read_roundTrip (ok : x.Ok) {es : List Entry} (he : ∀ e ∈ es, EntryOk x e) : read x (encArchive x es) = some es := by
  unfold read encArchive rdPrefix
  rw [if_pos (by simp [pre])]
  have e0 : (pre ++ es.flatMap (encEntry x)).drop 4 = es.flatMap (encEntry x) := rfl
  simp only [e0]
  have := readLoop_enc ok he (r := []) (by simp) (n := (es.flatMap (encEntry x)).length) (by
    cases es with
    | nil => exact .inr ⟨rfl, rfl⟩
    | cons e es =>
      left
      have h1 := entry_length (x := x) (he e (by simp)).1
      have h2 := length_le (x := x) (es := es) (fun e' h' => he e' (by simp [h']))
      simp only [List.flatMap_cons, List.length_append, List.length_cons]
      omega)
  simpa using this

/-- **C93** what is read was written so: the reader ignores only less than 8 bytes at the end -/
theorem read_canonical {s : List Nat} (hs : IsBytes s) {es : List Entry} (h : read x s = some es) :
    (∀ e ∈ es, EntryOk x e) ∧ ∃ r, s = encArchive x es ++ r ∧ r.length < 8 := by
  unfold read at h
  split at h
  · cases h
  · rename_i r hr
    unfold rdPrefix at hr
    split at hr
    · rename_i hp
      cases hr
      obtain ⟨h1, t, h2, h3⟩ := readLoop_canon (fun b hb => hs b (List.mem_of_mem_drop hb)) (Nat.le_refl _) h
      refine ⟨h1, t, ?_, h3⟩
      unfold encArchive
      rw [List.append_assoc, ← h2, ← hp, List.take_append_drop]
    · cases hr

/-- **C93** two different lists of entries have different packages -/
theorem archive_injective (ok : x.Ok) {es es' : List Entry} (h1 : ∀ e ∈ es, EntryOk x e) (h2 : ∀ e ∈ es', EntryOk x e)
    (h : encArchive x es = encArchive x es') : es = es' := by
  have e1 := read_roundTrip ok h1
  rw [h, read_roundTrip ok h2] at e1
  exact (Option.some.inj e1).symm

/-- **C94** the verifier of a download accepts exactly the packages whose last entry has data, however they are cut (the first chunk has the prefix) -/
theorem verify_iff (ok : x.Ok) {c : List Nat} {cs : List (List Nat)} (hc : 4 ≤ c.length) (hs : IsBytes (c :: cs).flatten) :
    verifyAll x (c :: cs) = true ↔ ∃ es, (∀ e ∈ es, EntryOk x e) ∧ (c :: cs).flatten = encArchive x es ∧ ∀ e, es.getLast? = some e → e.data ≠ [] := by
  rw [verify_chunks hc]
  generalize (c :: cs).flatten = s at hs
  constructor
  · intro h
    split at h
    · cases h
    · rename_i r hr
      unfold rdPrefix at hr
      split at hr
      · rename_i hp
        cases hr
        split at h
        · cases h
        · rename_i v hv
          have hat := at_bytes (fun b hb => hs b (List.mem_of_mem_drop hb)) hv
          cases v with
          | start => exact hat.elim
          | data k => cases h
          | header buf =>
            obtain ⟨es, e1, e2, e3, e4⟩ := hat
            have hb : buf = [] := by simpa [finalCheck] using h
            subst hb
            refine ⟨es, e1, ?_, e4 rfl⟩
            unfold encArchive
            rw [List.append_nil] at e2
            rw [← e2, ← hp, List.take_append_drop]
      · cases hr
  · rintro ⟨es, h1, rfl, h3⟩
    have : rdPrefix (encArchive x es) = some (es.flatMap (encEntry x)) := by
      unfold rdPrefix encArchive
      rw [if_pos (by simp [pre])]
      rfl
    rw [this]
    simp only [bytes_entries ok h1]
    unfold afterEntries
    split
    · rename_i e he
      rw [if_neg (h3 e he)]; rfl
    · rfl

/-- **C94** a verified download is read without an error, to the last byte -/
theorem verified_read (ok : x.Ok) {c : List Nat} {cs : List (List Nat)} (hc : 4 ≤ c.length) (hs : IsBytes (c :: cs).flatten)
    (h : verifyAll x (c :: cs) = true) : ∃ es, read x (c :: cs).flatten = some es ∧ (c :: cs).flatten = encArchive x es := by
  obtain ⟨es, h1, h2, _⟩ := (verify_iff ok hc hs).1 h
  exact ⟨es, by rw [h2]; exact read_roundTrip ok h1, h2⟩

/-! ### Parsed archives -/

theorem get_set {p : Parts} {t t' : Ty} {d : List Nat} : (p.set t d).get t' = if t' = t then some d else p.get t' := by
  cases t <;> cases t' <;> simp [Parts.set, Parts.get]

def Archive.part (a : Archive) (i : BlockId) (t : Ty) : Option (List Nat) :=
  match a.blocks i with
  | none => none
  | some p => p.get t

/-- what the archive has after entries -/
structure Has (a : Archive) (es : List Entry) : Prop where
  parts : ∀ i t d, a.part i t = some d ↔ ⟨i, t, d⟩ ∈ es
  ids : ∀ i, (a.blocks i).isSome = true ↔ ∃ e ∈ es, e.id = i
  mcOf : ∀ n i, a.mc n = some i → i.isMc = true ∧ i.seqno = n ∧ ∃ e ∈ es, e.id = i
  mc : ∀ e ∈ es, e.id.isMc = true → (a.mc e.id.seqno).isSome = true

theorem add_has {a a' : Archive} {es : List Entry} {e : Entry} (h : Has a es) (ha : a.add e = some a') : Has a' (es ++ [e]) := by
  unfold Archive.add at ha
  simp only at ha
  split at ha
  · cases ha
  · rename_i hn
    cases ha
    have hpe : ∀ t, ((a.blocks e.id).getD ⟨none, none, none⟩).get t = a.part e.id t := by
      intro t
      unfold Archive.part
      cases a.blocks e.id with
      | none => cases t <;> rfl
      | some p => rfl
    rw [hpe] at hn
    refine ⟨fun i t d => ?_, fun i => ?_, fun n i hi => ?_, fun e' he' hmc => ?_⟩
    · simp only [Archive.part, List.mem_append, List.mem_singleton]
      by_cases hi : i = e.id
      · subst hi
        simp only [if_true, get_set]
        by_cases ht : t = e.ty
        · subst ht
          simp only [if_true, Option.some.injEq]
          constructor
          · rintro rfl; exact .inr rfl
          · rintro (g | g)
            · rw [← h.parts] at g; rw [g] at hn; simp at hn
            · rw [← g]
        · rw [if_neg ht, hpe, h.parts]
          constructor
          · exact .inl
          · rintro (g | g)
            · exact g
            · rw [← g] at ht; exact absurd rfl ht
      · simp only [if_neg hi]
        have := h.parts i t d
        unfold Archive.part at this
        rw [this]
        constructor
        · exact .inl
        · rintro (g | g)
          · exact g
          · rw [← g] at hi; exact absurd rfl hi
    · simp only [List.mem_append, List.mem_singleton]
      by_cases hi : i = e.id
      · simp only [if_pos hi, Option.isSome_some, true_iff]
        exact ⟨e, .inr rfl, hi.symm⟩
      · simp only [if_neg hi]
        rw [h.ids]
        constructor
        · rintro ⟨e', g1, g2⟩; exact ⟨e', .inl g1, g2⟩
        · rintro ⟨e', g1 | g1, g2⟩
          · exact ⟨e', g1, g2⟩
          · subst g1; exact absurd g2.symm hi
    · have old : a.mc n = some i → i.isMc = true ∧ i.seqno = n ∧ ∃ e' ∈ es ++ [e], e'.id = i := by
        intro g
        obtain ⟨g1, g2, e', g3, g4⟩ := h.mcOf n i g
        exact ⟨g1, g2, e', List.mem_append_left _ g3, g4⟩
      simp only at hi
      split at hi
      · rename_i hm
        simp only at hi
        split at hi
        · rename_i hn
          cases hi
          exact ⟨hm, hn.symm, e, by simp, rfl⟩
        · exact old hi
      · exact old hi
    · have old : (a.mc e'.id.seqno).isSome = true → ((if e.id.isMc = true then fun n => if n = e.id.seqno then some e.id else a.mc n else a.mc) e'.id.seqno).isSome = true := by
        intro g
        split
        · simp only; split
          · rfl
          · exact g
        · exact g
      rcases List.mem_append.1 he' with g | g
      · exact old (h.mc e' g hmc)
      · simp only [List.mem_singleton] at g; subst g
        simp [hmc]

theorem fold_has {es0 es : List Entry} {a a' : Archive} (h : Has a es0) (hf : es.foldlM Archive.add a = some a') : Has a' (es0 ++ es) := by
  induction es generalizing es0 a with
  | nil => cases hf; simpa using h
  | cons e es ih =>
    rw [List.foldlM_cons] at hf
    obtain ⟨b, h1, h2⟩ := Option.bind_eq_some_iff.1 hf
    have := ih (add_has h h1) h2
    simpa using this

theorem has_nil : Has ⟨fun _ => none, fun _ => none⟩ [] := by
  constructor <;> simp [Archive.part]

/-- no part of a block twice -/
def NoDup (es : List Entry) : Prop := (es.map (fun e => (e.id, e.ty))).Nodup

theorem add_ok {a : Archive} {es : List Entry} {e : Entry} (h : Has a es) (hn : ∀ e' ∈ es, (e'.id, e'.ty) ≠ (e.id, e.ty)) : ∃ a', a.add e = some a' := by
  unfold Archive.add
  simp only
  rw [if_neg]
  · exact ⟨_, rfl⟩
  · intro hs
    have hpe : ((a.blocks e.id).getD ⟨none, none, none⟩).get e.ty = a.part e.id e.ty := by
      unfold Archive.part
      cases a.blocks e.id with
      | none => cases e.ty <;> rfl
      | some p => rfl
    rw [hpe] at hs
    obtain ⟨d, hd⟩ := Option.isSome_iff_exists.1 hs
    exact hn _ ((h.parts _ _ _).1 hd) rfl

theorem fold_ok {es0 es : List Entry} {a : Archive} (h : Has a es0) (hn : NoDup (es0 ++ es)) : ∃ a', es.foldlM Archive.add a = some a' := by
  induction es generalizing es0 a with
  | nil => exact ⟨a, rfl⟩
  | cons e es ih =>
    have hd : ∀ e' ∈ es0, (e'.id, e'.ty) ≠ (e.id, e.ty) := by
      intro e' he' hc
      unfold NoDup at hn
      rw [List.map_append, List.nodup_append] at hn
      exact hn.2.2 _ (List.mem_map_of_mem he') _ (List.mem_map_of_mem (List.mem_cons_self)) hc
    obtain ⟨b, hb⟩ := add_ok h hd
    obtain ⟨a', ha'⟩ := ih (add_has h hb) (by simpa using hn)
    exact ⟨a', by rw [List.foldlM_cons, hb]; exact ha'⟩

theorem fold_dup {es0 es : List Entry} {a a' : Archive} (h : Has a es0) (hd : NoDup es0) (hf : es.foldlM Archive.add a = some a') : NoDup (es0 ++ es) := by
  induction es generalizing es0 a with
  | nil => simpa using hd
  | cons e es ih =>
    rw [List.foldlM_cons] at hf
    obtain ⟨b, h1, h2⟩ := Option.bind_eq_some_iff.1 hf
    have hnew : NoDup (es0 ++ [e]) := by
      unfold NoDup at hd ⊢
      rw [List.map_append, List.nodup_append]
      refine ⟨hd, by simp, fun p hp q hq hpq => ?_⟩
      obtain ⟨e', g1, rfl⟩ := List.mem_map.1 hp
      simp only [List.map_cons, List.map_nil, List.mem_singleton] at hq
      rw [hq] at hpq
      unfold Archive.add at h1
      simp only at h1
      split at h1
      · cases h1
      · rename_i hns
        have hpe : ((a.blocks e.id).getD ⟨none, none, none⟩).get e.ty = a.part e.id e.ty := by
          unfold Archive.part
          cases a.blocks e.id with
          | none => cases e.ty <;> rfl
          | some p => rfl
        rw [hpe] at hns
        obtain ⟨q1, q2⟩ := Prod.mk.inj hpq
        have := (h.parts e'.id e'.ty e'.data).2 g1
        rw [q1, q2] at this
        rw [this] at hns
        simp at hns
    have := ih (add_has h h1) hnew h2
    simpa using this

/-- **C95** a package is opened if and only if it is read without an error and has no part of a block twice; then it has exactly the parts of the package -/
theorem new_iff {s : List Nat} : (∃ a, Archive.new x s = some a) ↔ ∃ es, read x s = some es ∧ NoDup es := by
  unfold Archive.new
  constructor
  · rintro ⟨a, h⟩
    split at h
    · cases h
    · rename_i es hes
      exact ⟨es, hes, by simpa using fold_dup has_nil (by simp [NoDup]) h⟩
  · rintro ⟨es, h1, h2⟩
    rw [h1]
    exact fold_ok has_nil (by simpa using h2)

theorem new_parts {s : List Nat} {a : Archive} (h : Archive.new x s = some a) : ∃ es, read x s = some es ∧ Has a es := by
  unfold Archive.new at h
  split at h
  · cases h
  · rename_i es hes
    exact ⟨es, hes, by simpa using fold_has has_nil h⟩

theorem asc_last {a : Nat} {l : List Nat} (h : (a :: l).Pairwise (· < ·)) : ∃ b, (a :: l).getLast? = some b ∧ a + l.length ≤ b ∧ (b = a + l.length → a :: l = List.range' a (l.length + 1)) := by
  induction l generalizing a with
  | nil => exact ⟨a, rfl, by simp, fun _ => rfl⟩
  | cons c l ih =>
    obtain ⟨h1, h2⟩ := List.pairwise_cons.1 h
    obtain ⟨b, g1, g2, g3⟩ := ih h2
    have hac := h1 c (by simp)
    refine ⟨b, by simpa using g1, by simp only [List.length_cons]; omega, fun e => ?_⟩
    simp only [List.length_cons] at e
    have hc : c = a + 1 := by omega
    have h3 := g3 (by omega)
    have hr : List.range' a (l.length + 1 + 1) = a :: List.range' (a + 1) (l.length + 1) := rfl
    rw [List.length_cons, hr, ← hc, ← h3]

/-- **C95** the check of the range: the masterchain blocks are a non-empty range without gaps (keys of the map, in order) -/
theorem checkRange_iff {keys : List Nat} (h : keys.Pairwise (· < ·)) : checkRange keys = true ↔ ∃ a k, keys = List.range' a (k + 1) := by
  cases keys with
  | nil => simp [checkRange, List.range']
  | cons a l =>
    obtain ⟨b, g1, g2, g3⟩ := asc_last h
    simp only [checkRange, List.head?_cons, g1, List.length_cons, beq_iff_eq]
    constructor
    · intro e
      exact ⟨a, l.length, g3 (by omega)⟩
    · rintro ⟨a', k, e⟩
      rw [e] at g1
      have hl := congrArg List.length e
      simp only [List.length_cons, List.length_range'] at hl
      have ha : a = a' := by
        have := congrArg List.head? e
        simpa [List.range'] using this
      have hb : b = a' + k := by
        rw [List.getLast?_range'] at g1
        simp at g1
        omega
      omega

end Tycho.ArchiveFile
