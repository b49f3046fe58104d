import Verif.NurseryWal.Spec

namespace Tycho.NurseryWal
open Tycho.Bytes Tycho.Codec Tycho.Table

/-! ### The record format -/

/-- Field bounds of an insert. -/
def RecFits (e : Rec) : Prop := e.1.length = 32 ∧ e.2.idx < 2 ^ 64 ∧ e.2.born < 2 ^ 32 ∧ e.2.data.length < 2 ^ 16

theorem rdRec_roundTrip : RoundTrip encRec rdRec RecFits := by
  rintro ⟨h, ⟨idx, born, data⟩⟩ ⟨h1, h2, h3, h4⟩ r
  simp only [encRec, List.append_assoc]
  unfold rdRec
  rw [Rd.bind_of (rdBytes_append' h1 _), Rd.bind_of (rdLe_append (n := 8) (by simpa using h2) _),
    Rd.bind_of (rdLe_append (n := 4) (by simpa using h3) _), Rd.bind_of (rdLe_append (n := 2) (by simpa using h4) _),
    Rd.bind_of (rdBytes_append _ _), Rd.pure_run]

theorem rdHash_roundTrip : RoundTrip (fun h : List Nat => h) (rdBytes 32) (fun h => h.length = 32) :=
  fun _ hx r => rdBytes_append' hx r

theorem flatMap_self (l : List (List Nat)) : l.flatMap (fun h => h) = l.flatten := by
  induction l with
  | nil => rfl
  | cons x l ih => simp [ih]

theorem rdPayload_enc {id : Nat} {d : Delta} (hf : Fits d) (hid : id < 2 ^ 64) (r : List Nat) :
    rdPayload (encPayload id d ++ r) = some ((id, d), r) := by
  simp only [encPayload, List.append_assoc]
  unfold rdPayload
  rw [Rd.bind_of (rdLe_append (n := 8) (by simpa using hid) _),
    Rd.bind_of (rdLe_append (n := 4) (by simpa using hf.counts.1) _),
    Rd.bind_of (rdLe_append (n := 4) (by simpa using hf.counts.2) _),
    Rd.bind_of (rdMany_append rdRec_roundTrip d.inserts hf.recs _)]
  have h := rdMany_append rdHash_roundTrip d.removes hf.hashes r
  rw [flatMap_self] at h
  rw [Rd.bind_of h, Rd.pure_run]

theorem encRec_sum (l : List Rec) (h : ∀ e ∈ l, RecFits e) :
    (l.flatMap encRec).length = l.length * 46 + (l.map (fun e => e.2.data.length)).sum := by
  induction l with
  | nil => simp
  | cons e l ih =>
    have he := (h e (by simp)).1
    have := ih (fun x hx => h x (by simp [hx]))
    simp only [List.flatMap_cons, List.length_append, List.length_cons, List.map_cons, List.sum_cons, this]
    simp only [encRec, List.length_append, leBytes_length, he]
    omega

theorem hashes_sum (l : List (List Nat)) (h : ∀ x ∈ l, x.length = 32) : l.flatten.length = l.length * 32 := by
  induction l with
  | nil => simp
  | cons e l ih =>
    have he := h e (by simp)
    have := ih (fun x hx => h x (by simp [hx]))
    simp only [List.flatten_cons, List.length_append, List.length_cons, this, he]
    omega

/-- The length written in front of the payload is its length (the assertion format.rs:109). -/
theorem encPayload_length {id : Nat} {d : Delta} (hf : Fits d) :
    (encPayload id d).length = metaLen d.inserts.length d.removes.length + cellBytes d := by
  simp only [encPayload, List.length_append, leBytes_length, encRec_sum d.inserts hf.recs,
    hashes_sum d.removes hf.hashes, metaLen, cellBytes]
  omega

section
variable {H : List Nat → List Nat} (hH : ∀ x, (H x).length = 32)
include hH

/-- A record reads back as what was written. -/
theorem rdRecord_enc {id : Nat} {d : Delta} (hf : Fits d) (hid : id < 2 ^ 64) (r : List Nat) :
    rdRecord H (encRecord H id d ++ r) = some (⟨id, H (encHashed id d), d⟩, r) := by
  have ht := hf.total
  have hl := encPayload_length (id := id) hf
  have hn : metaLen d.inserts.length d.removes.length + cellBytes d < 256 ^ 8 := by
    have : (256 : Nat) ^ 8 = 2 ^ 64 := by decide
    omega
  unfold rdRecord encRecord
  rw [List.append_assoc, Rd.bind_of (rdBytes_append' (hH _) _)]
  show (rdLe 8 >>= _) (encHashed id d ++ r) = _
  have e : encHashed id d ++ r = leBytes 8 (metaLen d.inserts.length d.removes.length + cellBytes d) ++
      (encPayload id d ++ r) := by simp [encHashed]
  rw [e, Rd.bind_of (rdLe_append hn _), if_neg (by omega), Rd.bind_of (rdBytes_append' hl _)]
  have e2 : leBytes 8 (metaLen d.inserts.length d.removes.length + cellBytes d) ++ encPayload id d = encHashed id d := rfl
  rw [e2]
  simp only [ne_eq, not_true_eq_false, if_false]
  have := rdPayload_enc hf hid []
  rw [List.append_nil] at this
  rw [this]
  rfl

theorem encRecord_length {id : Nat} {d : Delta} (hf : Fits d) :
    (encRecord H id d).length = 40 + metaLen d.inserts.length d.removes.length + cellBytes d := by
  simp only [encRecord, encHashed, List.length_append, hH, leBytes_length, encPayload_length hf]
  omega

/-- A torn record is rejected. -/
theorem rdRecord_torn {id : Nat} {d : Delta} (hf : Fits d) {k : Nat} (hk : k < (encRecord H id d).length) :
    rdRecord H ((encRecord H id d).take k) = none := by
  have ht := hf.total
  have hlen := encRecord_length hH (id := id) hf
  have hn : metaLen d.inserts.length d.removes.length + cellBytes d < 256 ^ 8 := by
    have : (256 : Nat) ^ 8 = 2 ^ 64 := by decide
    omega
  cases hr : rdRecord H ((encRecord H id d).take k) with
  | none => rfl
  | some p =>
    exfalso
    obtain ⟨x, r⟩ := p
    unfold rdRecord at hr
    obtain ⟨hash, t1, h1, hr⟩ := Rd.bind_some.1 hr
    obtain ⟨n, t2, h2, hr⟩ := Rd.bind_some.1 hr
    rw [Rd.ite_run] at hr
    split at hr
    · cases hr
    obtain ⟨payload, t3, h3, hr⟩ := Rd.bind_some.1 hr
    obtain ⟨e1, l1⟩ := rdBytes_some h1
    unfold rdLe at h2
    obtain ⟨b, t2', h2a, h2b⟩ := Rd.bind_some.1 h2
    rw [Rd.pure_run] at h2b
    obtain ⟨e2, l2⟩ := rdBytes_some h2a
    simp only [Option.some.injEq, Prod.mk.injEq] at h2b
    obtain ⟨hn2, rfl⟩ := h2b
    obtain ⟨e3, l3⟩ := rdBytes_some h3
    -- the whole record, split in the same way
    have hfull : encRecord H id d = H (encHashed id d) ++ (leBytes 8 (metaLen d.inserts.length d.removes.length +
        cellBytes d) ++ encPayload id d) := rfl
    have htake : (encRecord H id d).take k ++ (encRecord H id d).drop k = encRecord H id d := List.take_append_drop _ _
    rw [e1, e2, e3, hfull] at htake
    simp only [List.append_assoc] at htake
    have hA := List.append_inj htake (by rw [l1, hH])
    have hB := List.append_inj hA.2 (by rw [l2, leBytes_length])
    have hnn : n = metaLen d.inserts.length d.removes.length + cellBytes d := by
      rw [← hn2, hB.1, ofLe_leBytes 8 _ hn]
    have hlen2 : ((encRecord H id d).take k).length = k := by rw [List.length_take]; omega
    rw [e1, e2, e3] at hlen2
    simp only [List.length_append] at hlen2
    omega
end

end Tycho.NurseryWal
