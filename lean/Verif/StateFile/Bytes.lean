import Verif.StateFile.Spec
/-! Encodings: rows, cells, the file, the temporary file. -/
namespace Tycho.StateFile
open Tycho.Bytes Tycho.Codec Tycho.Table

/-- What `finalize_cell` guarantees about sizes, and that it ignores the flag of stored hashes. -/
structure Laws (H : Hasher) : Prop where
  depth : ∀ b es e, H.build b es = some e → (H.depth e).length = 2
  extra : ∀ b es e, H.build b es = some e → (H.extra e).length = 34 * (H.hashCount b.d1 - 1)
  repr : ∀ b es e, H.build b es = some e → H.repr e < 256 ^ 32
  count : ∀ d, H.hashCount (clearStored d) = H.hashCount d
  clear : ∀ b es, H.build b.clear es = H.build b es

/-- The descriptor fits the data and the references. -/
structure Fits (b : Body) (n : Nat) : Prop where
  data : b.data.length = byteLen b.d2
  refs : n = refCount b.d1

/-- The data is stored in the shortest form (`bitLen` is exact). -/
def Normal (b : Body) : Prop := (bitLen b + 7) / 8 = byteLen b.d2 ∧ bitLen b < 65536

theorem refCount_clear (d : Nat) : refCount (clearStored d) = refCount d := by
  unfold refCount clearStored storesHashes
  split
  · next h => simp only [beq_iff_eq] at h; omega
  · rfl

theorem clear_clear (d : Nat) : clearStored (clearStored d) = clearStored d := by
  unfold clearStored storesHashes
  by_cases h : (d / 16 % 2 == 1) = true
  · rw [if_pos h]
    simp only [beq_iff_eq] at h
    rw [if_neg]
    simp only [beq_iff_eq]
    omega
  · rw [if_neg h, if_neg h]

theorem notStored_clear (d : Nat) : storesHashes (clearStored d) = false := by
  unfold clearStored storesHashes
  by_cases h : (d / 16 % 2 == 1) = true
  · rw [if_pos h]
    simp only [beq_iff_eq] at h
    rw [beq_eq_false_iff_ne]
    omega
  · rw [if_neg h]; simpa using h

theorem rdBe_roundTrip (n : Nat) : RoundTrip (beBytes n) (rdBe n) (fun x => x < 256 ^ n) := fun _ hx r => rdBe_append hx r

theorem rdMany_be {n : Nat} {xs : List Nat} (hx : ∀ x ∈ xs, x < 256 ^ n) (r : List Nat) :
    rdMany (rdBe n) xs.length (xs.flatMap (beBytes n) ++ r) = some (xs, r) := rdMany_append (rdBe_roundTrip n) xs hx r

variable {H : Hasher}

/-- The writer reads from a row what was put there. -/
theorem deserialize_row (hl : Laws H) {b : Body} {es : List H.Entry} {e : H.Entry} {refs : List Nat} (hb : H.build b es = some e)
    (hf : Fits b refs.length) (hn : Normal b) (hr : ∀ x ∈ refs, x < 256 ^ 32) :
    deserialize H (rowBytes H b e refs) = some (b.clear, refs) := by
  unfold deserialize rowBytes
  simp only []
  rw [Rd.bind_of (rdBytes_append' (by rfl) _), Rd.bind_of (rdLe_append (by simpa using hn.2) _), Rd.bind_of (rdBytes_append' (hl.depth b es e hb) _)]
  simp only [List.getD_cons_zero, List.getD_cons_succ]
  rw [Rd.bind_of (rdBytes_append' hf.data _), Rd.ite_run, if_pos hn.1]
  rw [Rd.bind_of (a := ()) (r := refs.flatMap (beBytes 32))]
  · rw [refCount_clear, ← hf.refs]
    have := rdMany_be hr []
    rw [List.append_nil] at this
    rw [Rd.bind_of this, Rd.pure_run]
    rfl
  · simp only [skip, Option.some.injEq, Prod.mk.injEq, true_and]
    rw [hl.count, ← hl.extra b es e hb, List.drop_left]

/-- The import reads from a row what was put there. -/
theorem loadTemp_row (hl : Laws H) {b : Body} {es : List H.Entry} {e : H.Entry} {refs : List Nat} (hb : H.build b es = some e)
    (hf : Fits b refs.length) (hr : ∀ x ∈ refs, x < 256 ^ 32) :
    loadTemp H (rowBytes H b e refs) = some (b, refs) := by
  unfold loadTemp rowBytes
  simp only []
  rw [Rd.bind_of (rdBytes_append' (by rfl) _)]
  rw [← List.append_assoc (leBytes 2 (bitLen b)), Rd.bind_of (rdBytes_append' (by simp [hl.depth b es e hb]) _)]
  simp only [List.getD_cons_zero, List.getD_cons_succ]
  rw [Rd.bind_of (rdBytes_append' hf.data _), Rd.bind_of (rdBytes_append' (hl.extra b es e hb) _)]
  rw [← hf.refs]
  have := rdMany_be hr []
  rw [List.append_nil] at this
  rw [Rd.bind_of this, Rd.pure_run]
  rfl

/-- A cell that the file can hold. -/
structure Good (b : Body) (refs : List Nat) : Prop where
  fits : Fits b refs.length
  stored : storesHashes b.d1 = false
  absent : isAbsent b.d1 = false
  few : refCount b.d1 ≤ 4
  small : ∀ x ∈ refs, x < 256 ^ 4

theorem remapRefs_of (n : Nat) (refs : List Nat) (hr : ∀ x ∈ refs, x < 256 ^ 4) :
    remapRefs n refs.length (refs.flatMap (beBytes 4)) = (refs.map (fun x => n - x - 1)).flatMap (beBytes 4) := by
  induction refs with
  | nil => rfl
  | cons x refs ih =>
    simp only [List.length_cons, remapRefs, List.flatMap_cons, List.map_cons]
    have h1 : (beBytes 4 x ++ refs.flatMap (beBytes 4)).take 4 = beBytes 4 x := List.take_left' (by simp)
    have h2 : (beBytes 4 x ++ refs.flatMap (beBytes 4)).drop 4 = refs.flatMap (beBytes 4) := List.drop_left' (by simp)
    rw [h1, h2, ofBe_beBytes 4 x (hr x List.mem_cons_self), ih (fun y hy => hr y (List.mem_cons_of_mem _ hy))]

theorem remapCell_of (n : Nat) {b : Body} {refs : List Nat} (hf : Fits b refs.length) (hr : ∀ x ∈ refs, x < 256 ^ 4) :
    remapCell n (cellBytes b refs) = cellBytes b (refs.map (fun x => n - x - 1)) := by
  unfold remapCell cellBytes
  simp only [List.cons_append, List.nil_append, List.getD_cons_zero, List.getD_cons_succ]
  have h1 : (b.d1 :: b.d2 :: (b.data ++ refs.flatMap (beBytes 4))) = (b.d1 :: b.d2 :: b.data) ++ refs.flatMap (beBytes 4) := by simp
  have h2 : 2 + byteLen b.d2 = (b.d1 :: b.d2 :: b.data).length := by simp [hf.data]; omega
  rw [h1, h2, List.take_left, List.drop_left, ← hf.refs, remapRefs_of n refs hr]
  simp

theorem cellBytes_length (b : Body) (refs : List Nat) : (cellBytes b refs).length = 2 + b.data.length + 4 * refs.length := by
  unfold cellBytes
  simp only [List.length_append, List.length_cons, List.length_nil, List.length_flatMap, beBytes_length]
  simp; omega

/-- The reader gets the cell back. -/
theorem readCell_of {b : Body} {refs : List Nat} (hg : Good b refs) (r : List Nat) :
    readCell H 4 (cellBytes b refs ++ r) = some (cellBytes b refs, r) := by
  unfold readCell cellBytes
  rw [List.append_assoc, Rd.bind_of (rdBytes_append' (by rfl) _)]
  simp only [List.getD_cons_zero, List.getD_cons_succ, hg.absent, hg.stored, Bool.false_eq_true, if_false]
  rw [if_neg (by have := hg.few; omega)]
  rw [Rd.bind_of (a := ()) (r := b.data ++ refs.flatMap (beBytes 4) ++ r) (by simp [skip])]
  rw [Rd.bind_of (rdBytes_append' (by simp [hg.fits.data, ← hg.fits.refs]) _), Rd.pure_run]

/-- `splitChunk` gives the cells of a chunk. -/
theorem splitChunk_of : ∀ (cs : List (List Nat)) (fuel : Nat), cs.length ≤ fuel →
    splitChunk fuel (cs.reverse.flatMap fun c => c ++ [c.length]) = some cs := by
  intro cs
  induction cs with
  | nil => intro fuel _; cases fuel <;> rfl
  | cons c cs ih =>
    intro fuel hf
    cases fuel with
    | zero => simp at hf
    | succ fuel =>
      simp only [List.reverse_cons, List.flatMap_append, List.flatMap_cons, List.flatMap_nil, List.append_nil]
      generalize hx : (cs.reverse.flatMap fun c => c ++ [c.length]) = x at ih
      cases hl : x ++ (c ++ [c.length]) with
      | nil => simp at hl
      | cons a l =>
        unfold splitChunk
        rw [← hl]
        have h1 : (x ++ (c ++ [c.length])).getLast?.getD 0 = c.length := by
          rw [← List.append_assoc]; simp
        simp only [h1]
        have h2 : (x ++ (c ++ [c.length])).length = x.length + (c.length + 1) := by simp
        rw [if_neg (by omega), h2, Nat.add_sub_cancel, List.take_left, List.drop_left, ih fuel (by simpa using hf)]
        simp

theorem flatMap_size_le (cs : List (List Nat)) : cs.length ≤ (cs.flatMap fun c => c ++ [c.length]).length := by
  induction cs with
  | nil => simp
  | cons c cs ih => simp only [List.flatMap_cons, List.length_append, List.length_cons, List.length_nil]; omega

/-- `splitFile` gives the chunks. -/
theorem splitFile_of : ∀ (chunks : List (List (List Nat))) (fuel : Nat), chunks.length < fuel →
    (∀ cs ∈ chunks, (cs.flatMap fun c => c ++ [c.length]).length < 256 ^ 4) →
    splitFile fuel (chunks.reverse.flatMap chunkBytes) = some (chunks.map List.reverse) := by
  intro chunks
  induction chunks with
  | nil =>
    intro fuel hf _
    cases fuel with
    | zero => simp at hf
    | succ fuel => simp [splitFile]
  | cons cs chunks ih =>
    intro fuel hf hs
    cases fuel with
    | zero => simp at hf
    | succ fuel =>
      simp only [List.reverse_cons, List.flatMap_append, List.flatMap_cons, List.flatMap_nil, List.append_nil]
      have ih' := ih fuel (by simpa using hf) (fun c hc => hs c (List.mem_cons_of_mem _ hc))
      generalize (chunks.reverse.flatMap chunkBytes) = x at ih' ⊢
      have hsz := hs cs List.mem_cons_self
      unfold chunkBytes
      generalize hd : (cs.flatMap fun c => c ++ [c.length]) = d at hsz
      unfold splitFile
      have h2 : (x ++ (d ++ leBytes 4 d.length)).length = (x.length + d.length) + 4 := by simp; omega
      rw [if_neg (by omega)]
      simp only [h2, Nat.add_sub_cancel]
      have h3 : (x ++ (d ++ leBytes 4 d.length)).drop (x.length + d.length) = leBytes 4 d.length := by
        rw [← List.append_assoc]; exact List.drop_left' (by simp)
      have h4 : (x ++ (d ++ leBytes 4 d.length)).take (x.length + d.length) = x ++ d := by
        rw [← List.append_assoc]; exact List.take_left' (by simp)
      have h5 : (x ++ (d ++ leBytes 4 d.length)).take x.length = x := List.take_left
      rw [h3, ofLe_leBytes 4 _ hsz, if_neg (by omega), h4, Nat.add_sub_cancel, List.drop_left, h5, ih']
      have h6 := splitChunk_of cs.reverse d.length (by
        rw [List.length_reverse, ← hd]; exact flatMap_size_le cs)
      rw [List.reverse_reverse, hd] at h6
      rw [h6]
      rfl

end Tycho.StateFile
