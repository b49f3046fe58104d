import Verif.ArchiveFile.Lemmas
import Mathlib.Data.List.Induction

/-! The verifier takes bytes one by one, however they are cut into chunks. -/
namespace Tycho.ArchiveFile
open Tycho.Bytes Tycho.Codec

variable {x : Ext}

def headerByte (x : Ext) (buf : List Nat) (b : Nat) : Option V :=
  if (buf ++ [b]).length = 92 then
    match rdHeader x (buf ++ [b]) with
    | none => none
    | some (h, _) => some (.data h.len)
  else some (.header (buf ++ [b]))

/-- the verifier after one more byte -/
def byteStep (x : Ext) (v : V) (b : Nat) : Option V :=
  match v with
  | .start => none
  | .header buf => headerByte x buf b
  | .data 0 => headerByte x [] b
  | .data 1 => some (.header [])
  | .data (k + 2) => some (.data (k + 1))

def bytes (x : Ext) (v : V) (s : List Nat) : Option V := s.foldlM (byteStep x) v

theorem bytes_nil (v : V) : bytes x v [] = some v := rfl

theorem bytes_cons (v : V) (b : Nat) (s : List Nat) : bytes x v (b :: s) = (byteStep x v b).bind (fun v' => bytes x v' s) := by
  simp only [bytes, List.foldlM_cons]; rfl

theorem bytes_append (v : V) (a b : List Nat) : bytes x v (a ++ b) = (bytes x v a).bind (fun v' => bytes x v' b) := by
  simp only [bytes, List.foldlM_append]; rfl

theorem bytes_snoc (v : V) (a : List Nat) (b : Nat) : bytes x v (a ++ [b]) = (bytes x v a).bind (fun v' => byteStep x v' b) := by
  rw [bytes_append]
  congr 1
  funext v'
  rw [bytes_cons]
  cases byteStep x v' b <;> rfl

/-- part of a header -/
theorem bytes_header {buf l : List Nat} (h : buf.length + l.length < 92) : bytes x (.header buf) l = some (.header (buf ++ l)) := by
  induction l generalizing buf with
  | nil => simp [bytes_nil]
  | cons b l ih =>
    simp only [List.length_cons] at h
    rw [bytes_cons]
    simp only [byteStep, headerByte]
    rw [if_neg (by simp; omega)]
    simp only [Option.bind_some]
    rw [ih (by simp; omega)]
    simp

/-- a whole header -/
theorem bytes_header_full {buf l : List Nat} (h : buf.length + l.length = 92) (hb : buf.length < 92) :
    bytes x (.header buf) l = match rdHeader x (buf ++ l) with
      | none => none
      | some (h, _) => some (.data h.len) := by
  obtain ⟨l', b, rfl⟩ : ∃ l' b, l = l' ++ [b] := by
    rcases List.eq_nil_or_concat l with e | ⟨l', b, e⟩
    · subst e; simp at h; omega
    · exact ⟨l', b, by simpa using e⟩
  simp only [List.length_append, List.length_cons, List.length_nil] at h
  rw [bytes_snoc, bytes_header (by omega)]
  simp only [Option.bind_some, byteStep, headerByte]
  rw [if_pos (by simp; omega)]
  simp

/-- part of the data -/
theorem bytes_data {k : Nat} {l : List Nat} (h : l.length < k) : bytes x (.data k) l = some (.data (k - l.length)) := by
  induction l generalizing k with
  | nil => simp [bytes_nil]
  | cons b l ih =>
    simp only [List.length_cons] at h
    rw [bytes_cons]
    obtain ⟨j, rfl⟩ : ∃ j, k = j + 2 := ⟨k - 2, by omega⟩
    simp only [byteStep, Option.bind_some]
    rw [ih (by omega)]
    simp only [List.length_cons, Option.some.injEq, V.data.injEq]
    omega

theorem bytes_data_full {l : List Nat} (h : l ≠ []) : bytes x (.data l.length) l = some (.header []) := by
  obtain ⟨l', b, rfl⟩ : ∃ l' b, l = l' ++ [b] := by
    rcases List.eq_nil_or_concat l with e | ⟨l', b, e⟩
    · exact absurd e h
    · exact ⟨l', b, by simpa using e⟩
  simp only [List.length_append, List.length_cons, List.length_nil, Nat.zero_add]
  rw [bytes_snoc, bytes_data (by omega)]
  simp only [Option.bind_some]
  rw [show l'.length + 1 - l'.length = 1 by omega]
  rfl

theorem bytes_zero {l : List Nat} (h : l ≠ []) : bytes x (.data 0) l = bytes x (.header []) l := by
  cases l with
  | nil => exact absurd rfl h
  | cons b l => rw [bytes_cons, bytes_cons]; rfl

def Wf : V → Prop
  | .start => False
  | .header buf => buf.length < 92
  | .data _ => True

def extra : V → Nat
  | .data 0 => 1
  | _ => 0

theorem extra_le (v : V) : extra v ≤ 1 := by
  unfold extra; split <;> omega

theorem loop_bytes {n : Nat} {v : V} {part : List Nat} (hv : Wf v) (hn : 2 * part.length + extra v ≤ n) : loop x n v part = bytes x v part := by
  induction n generalizing v part with
  | zero =>
    have : part = [] := List.length_eq_zero_iff.1 (by omega)
    subst this
    rfl
  | succ n ih =>
    unfold loop
    by_cases hp : part = []
    · subst hp; rfl
    · rw [if_neg hp]
      have hl : 0 < part.length := List.length_pos_iff.2 hp
      cases v with
      | start => exact hv.elim
      | header buf =>
        have hb : buf.length < 92 := hv
        simp only [iter]
        generalize hk : min part.length (92 - buf.length) = k
        have hk1 : 1 ≤ k := by omega
        have hkl : k ≤ part.length := by omega
        have hlt : (part.take k).length = k := by simp [hkl]
        have hsplit := bytes_append (x := x) (.header buf) (part.take k) (part.drop k)
        rw [List.take_append_drop] at hsplit
        rw [hsplit]
        by_cases h92 : (buf ++ part.take k).length = 92
        · rw [if_pos h92, bytes_header_full (by simpa using h92) hb]
          cases hr : rdHeader x (buf ++ part.take k) with
          | none => rfl
          | some p =>
            simp only [Option.bind_some]
            refine ih trivial ?_
            have := extra_le (.data p.1.len)
            simp only [List.length_drop]
            omega
        · rw [if_neg h92]
          simp only [List.length_append, hlt] at h92
          have hlt92 : buf.length + (part.take k).length < 92 := by omega
          rw [bytes_header hlt92]
          simp only [Option.bind_some]
          refine ih (by simp only [Wf, List.length_append]; exact hlt92) ?_
          simp only [List.length_drop, extra]
          omega
      | data len =>
        simp only [iter]
        cases len with
        | zero =>
          rw [bytes_zero hp]
          simp only [Nat.min_zero, Nat.sub_self, if_true, List.drop_zero]
          refine ih (by simp [Wf]) ?_
          simp only [extra] at *
          omega
        | succ len =>
          generalize hk : min part.length (len + 1) = k
          have hk1 : 1 ≤ k := by omega
          have hkl : k ≤ part.length := by omega
          have hlt : (part.take k).length = k := by simp [hkl]
          have hsplit := bytes_append (x := x) (.data (len + 1)) (part.take k) (part.drop k)
          rw [List.take_append_drop] at hsplit
          rw [hsplit]
          by_cases h0 : len + 1 - k = 0
          · rw [if_pos h0]
            have e : len + 1 = (part.take k).length := by omega
            rw [e, bytes_data_full (by intro e'; rw [e'] at e; simp at e)]
            simp only [Option.bind_some]
            refine ih (by simp [Wf]) ?_
            simp only [List.length_drop, extra]
            omega
          · rw [if_neg h0, bytes_data (by omega), hlt]
            simp only [Option.bind_some]
            refine ih trivial ?_
            have := extra_le (.data (len + 1 - k))
            simp only [List.length_drop]
            omega

theorem byteStep_wf {v v' : V} {b : Nat} (hv : Wf v) (h : byteStep x v b = some v') : Wf v' := by
  have hh : ∀ buf, buf.length < 92 → headerByte x buf b = some v' → Wf v' := by
    intro buf hb h
    unfold headerByte at h
    split at h
    · split at h
      · cases h
      · cases h; trivial
    · cases h; simp only [Wf, List.length_append, List.length_cons, List.length_nil] at *; omega
  unfold byteStep at h
  split at h
  · cases h
  · exact hh _ hv h
  · exact hh _ (by simp) h
  · cases h; simp [Wf]
  · cases h; trivial

theorem bytes_wf {v v' : V} {s : List Nat} (hv : Wf v) (h : bytes x v s = some v') : Wf v' := by
  induction s generalizing v with
  | nil => cases h; exact hv
  | cons b s ih =>
    rw [bytes_cons] at h
    obtain ⟨u, h1, h2⟩ := Option.bind_eq_some_iff.1 h
    exact ih (byteStep_wf hv h1) h2

theorem writeVerify_bytes {v : V} {part : List Nat} (hv : Wf v) : writeVerify x v part = bytes x v part :=
  loop_bytes hv (by have := extra_le v; omega)

theorem rdPrefix_append {c r : List Nat} (h : 4 ≤ c.length) : rdPrefix (c ++ r) = (rdPrefix c).map (· ++ r) := by
  unfold rdPrefix
  rw [List.take_append_of_le_length h, List.drop_append_of_le_length h]
  split <;> rfl

theorem writeVerify_start {c : List Nat} (h : 4 ≤ c.length) : writeVerify x .start c = (rdPrefix c).bind (fun r => bytes x (.header []) r) := by
  unfold writeVerify
  rw [loop, if_neg (by intro e; rw [e] at h; simp at h)]
  simp only [iter]
  rw [if_pos h]
  cases hp : rdPrefix c with
  | none => rfl
  | some r =>
    simp only [Option.map_some, Option.bind_some]
    refine loop_bytes (by simp [Wf]) ?_
    have : r.length ≤ c.length := by
      unfold rdPrefix at hp
      split at hp
      · cases hp; simp
      · cases hp
    simp only [extra]; omega

theorem chunks_bytes {v : V} (hv : Wf v) {cs : List (List Nat)} : cs.foldlM (writeVerify x) v = bytes x v cs.flatten := by
  induction cs generalizing v with
  | nil => rfl
  | cons c cs ih =>
    rw [List.foldlM_cons, List.flatten_cons, bytes_append, writeVerify_bytes hv]
    cases h : bytes x v c with
    | none => rfl
    | some v' =>
      simp only [Option.bind_some]
      exact ih (bytes_wf hv h)

/-- chunks do not matter: what is verified is their concatenation -/
theorem verify_chunks {c : List Nat} {cs : List (List Nat)} (h : 4 ≤ c.length) :
    verifyAll x (c :: cs) = match rdPrefix (c :: cs).flatten with
      | none => false
      | some r => match bytes x (.header []) r with
        | none => false
        | some v => finalCheck v := by
  unfold verifyAll
  rw [List.foldlM_cons, writeVerify_start h, List.flatten_cons, rdPrefix_append h]
  cases rdPrefix c with
  | none => rfl
  | some r =>
    simp only [Option.bind_some, Option.map_some]
    rw [bytes_append]
    cases hb : bytes x (.header []) r with
    | none => rfl
    | some v =>
      simp only [Option.bind_some]
      rw [← chunks_bytes (bytes_wf (by simp [Wf]) hb)]
      rfl

/-! ### What is accepted -/

/-- the last entry has data -/
def LastFull (es : List Entry) : Prop := ∀ e, es.getLast? = some e → e.data ≠ []

/-- the bytes `s` read so far -/
def At (x : Ext) (s : List Nat) : V → Prop
  | .start => False
  | .header buf => ∃ es : List Entry, (∀ e ∈ es, EntryOk x e) ∧ s = es.flatMap (encEntry x) ++ buf ∧ buf.length < 92 ∧ (buf = [] → LastFull es)
  | .data k => ∃ (es : List Entry) (id : BlockId) (ty : Ty) (d : List Nat), (∀ e ∈ es, EntryOk x e) ∧ IdOk x id ∧ IsBytes d ∧ d.length + k < 256 ^ 4 ∧ (k = 0 → d = []) ∧
      s = es.flatMap (encEntry x) ++ (encHeader x ⟨id, ty, d.length + k⟩ ++ d)

theorem at_header {es : List Entry} (he : ∀ e ∈ es, EntryOk x e) {buf : List Nat} {b : Nat} {v : V} (hb : buf.length < 92)
    (hs : IsBytes (es.flatMap (encEntry x) ++ (buf ++ [b]))) (h : headerByte x buf b = some v) : At x (es.flatMap (encEntry x) ++ (buf ++ [b])) v := by
  unfold headerByte at h
  split at h
  · rename_i h92
    split at h
    · cases h
    · rename_i hd r hr
      cases h
      obtain ⟨g1, g2, g3⟩ := header_canon _ _ _ (isBytes_append.1 hs).2 hr
      have hl := header_length (x := x) g1.1
      have : r = [] := by
        have := congrArg List.length g2
        rw [h92, List.length_append, hl] at this
        exact List.length_eq_zero_iff.1 (by omega)
      subst this
      refine ⟨es, hd.id, hd.ty, [], he, g1.1, by simp [IsBytes], by simpa using g1.2, fun _ => rfl, ?_⟩
      simp only [List.append_nil, List.length_nil, Nat.zero_add] at g2 ⊢
      rw [g2]
  · rename_i h92
    cases h
    refine ⟨es, he, rfl, ?_, by simp⟩
    simp only [List.length_append, List.length_cons, List.length_nil] at *
    omega

theorem at_bytes {s : List Nat} (hs : IsBytes s) {v : V} (h : bytes x (.header []) s = some v) : At x s v := by
  induction s using List.reverseRecOn generalizing v with
  | nil =>
    cases h
    exact ⟨[], by simp, by simp, by simp, fun _ e he => by simp at he⟩
  | append_singleton s b ih =>
    rw [bytes_snoc] at h
    obtain ⟨u, h1, h2⟩ := Option.bind_eq_some_iff.1 h
    obtain ⟨hs1, hs2⟩ := isBytes_append.1 hs
    have hu := ih hs1 h1
    have hbb : b < 256 := hs2 b (by simp)
    unfold byteStep at h2
    split at h2
    · cases h2
    · rename_i buf
      obtain ⟨es, e1, e2, e3, e4⟩ := hu
      rw [e2, List.append_assoc] at hs ⊢
      exact at_header e1 e3 hs h2
    · obtain ⟨es, id, ty, d, e1, e2, e3, e4, e5, e6⟩ := hu
      have hd := e5 rfl
      subst hd
      have hok : ∀ e ∈ es ++ [⟨id, ty, []⟩], EntryOk x e := by
        intro e he
        rcases List.mem_append.1 he with g | g
        · exact e1 e g
        · simp only [List.mem_singleton] at g; subst g
          exact ⟨e2, by simp, by simp [IsBytes]⟩
      have hf : (es ++ [(⟨id, ty, []⟩ : Entry)]).flatMap (encEntry x) = s := by
        rw [e6]; simp [encEntry, Entry.header]
      have := at_header (x := x) hok (buf := []) (b := b) (v := v) (by simp) (by rw [hf]; exact hs) h2
      rw [hf] at this
      exact this
    · obtain ⟨es, id, ty, d, e1, e2, e3, e4, e5, e6⟩ := hu
      cases h2
      have hdb : IsBytes (d ++ [b]) := isBytes_append.2 ⟨e3, hs2⟩
      refine ⟨es ++ [⟨id, ty, d ++ [b]⟩], ?_, ?_, by simp, fun _ e he => ?_⟩
      · intro e he
        rcases List.mem_append.1 he with g | g
        · exact e1 e g
        · simp only [List.mem_singleton] at g; subst g
          exact ⟨e2, by simpa using e4, hdb⟩
      · rw [e6]; simp [encEntry, Entry.header]
      · simp at he; subst he; simp
    · rename_i k
      obtain ⟨es, id, ty, d, e1, e2, e3, e4, e5, e6⟩ := hu
      cases h2
      refine ⟨es, id, ty, d ++ [b], e1, e2, isBytes_append.2 ⟨e3, hs2⟩, ?_, by simp, ?_⟩
      · simp only [List.length_append, List.length_cons, List.length_nil]; omega
      · rw [e6]
        simp only [List.length_append, List.length_cons, List.length_nil, List.append_assoc]
        rw [show d.length + (k + 2) = d.length + (0 + 1) + (k + 1) by omega]

/-- state after a number of entries -/
def afterEntries (es : List Entry) : V :=
  match es.getLast? with
  | some e => if e.data = [] then .data 0 else .header []
  | none => .header []

theorem bytes_entry (ok : x.Ok) {e : Entry} (he : EntryOk x e) {v : V} (hv : v = .header [] ∨ v = .data 0) :
    bytes x v (encEntry x e) = some (if e.data = [] then .data 0 else .header []) := by
  have hl := header_length (x := x) (h := e.header) he.1
  have hne : encEntry x e ≠ [] := by
    intro h
    have := congrArg List.length h
    rw [entry_length he.1] at this
    simp at this
  have h1 : bytes x v (encEntry x e) = bytes x (.header []) (encEntry x e) := by
    rcases hv with rfl | rfl
    · rfl
    · exact bytes_zero hne
  rw [h1]
  unfold encEntry
  rw [bytes_append, bytes_header_full (by simpa using hl) (by simp)]
  have := header_rt ok e.header ⟨he.1, he.2.1⟩ []
  simp only [List.append_nil] at this
  rw [List.nil_append, this]
  simp only [Option.bind_some, Entry.header]
  split
  · rename_i h; rw [h]; rfl
  · rename_i h; exact bytes_data_full h

theorem bytes_entries (ok : x.Ok) {es : List Entry} (he : ∀ e ∈ es, EntryOk x e) : bytes x (.header []) (es.flatMap (encEntry x)) = some (afterEntries es) := by
  induction es using List.reverseRecOn with
  | nil => rfl
  | append_singleton es e ih =>
    rw [List.flatMap_append, bytes_append, ih (fun e' h' => he e' (by simp [h']))]
    simp only [Option.bind_some, List.flatMap_cons, List.flatMap_nil, List.append_nil]
    rw [bytes_entry ok (he e (by simp))]
    · simp [afterEntries]
    · unfold afterEntries
      split
      · split
        · exact .inr rfl
        · exact .inl rfl
      · exact .inl rfl

end Tycho.ArchiveFile
