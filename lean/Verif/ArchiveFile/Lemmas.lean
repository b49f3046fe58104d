import Verif.ArchiveFile.Model

namespace Tycho.ArchiveFile
open Tycho.Bytes Tycho.Codec

variable {x : Ext}

/-- a block id that can be written: fields in the ranges of their types, a shard that exists -/
structure IdOk (x : Ext) (i : BlockId) : Prop where
  wc : i.wc < 256 ^ 4
  prefix_ : i.prefix_ < 256 ^ 8
  seqno : i.seqno < 256 ^ 4
  root : i.root.length = 32 ∧ IsBytes i.root
  file : i.file.length = 32 ∧ IsBytes i.file
  shard : x.shard i.wc i.prefix_ = true

def HeaderOk (x : Ext) (h : Header) : Prop := IdOk x h.id ∧ h.len < 256 ^ 4

/-- an entry that can be written -/
def EntryOk (x : Ext) (e : Entry) : Prop := IdOk x e.id ∧ e.data.length < 256 ^ 4 ∧ IsBytes e.data

theorem id_rt : RoundTrip encId (rdId x) (IdOk x) := by
  intro i hi r
  unfold rdId encId
  simp only [List.append_assoc]
  rw [Rd.bind_of (rdLe_append hi.wc _), Rd.bind_of (rdLe_append hi.prefix_ _), Rd.bind_of (rdLe_append hi.seqno _), Rd.ite_run, if_pos hi.shard,
    Rd.bind_of (rdBytes_append' hi.root.1 _), Rd.bind_of (rdBytes_append' hi.file.1 _), Rd.pure_run]

theorem id_canon : Canonical encId (rdId x) (IdOk x) := by
  intro s i r hs h
  unfold rdId at h
  obtain ⟨wc, s1, h1, k1⟩ := Rd.bind_some.1 h
  obtain ⟨rfl, b1, t1⟩ := rdLe_some hs h1
  obtain ⟨p, s2, h2, k2⟩ := Rd.bind_some.1 k1
  obtain ⟨rfl, b2, t2⟩ := rdLe_some t1 h2
  obtain ⟨q, s3, h3, k3⟩ := Rd.bind_some.1 k2
  obtain ⟨rfl, b3, t3⟩ := rdLe_some t2 h3
  rw [Rd.ite_run] at k3
  split at k3
  · rename_i hsh
    obtain ⟨ro, s4, h4, k4⟩ := Rd.bind_some.1 k3
    obtain ⟨rfl, l4⟩ := rdBytes_some h4
    obtain ⟨fi, s5, h5, k5⟩ := Rd.bind_some.1 k4
    obtain ⟨rfl, l5⟩ := rdBytes_some h5
    rw [Rd.pure_run] at k5
    cases k5
    obtain ⟨q1, t4⟩ := isBytes_append.1 t3
    obtain ⟨q2, t5⟩ := isBytes_append.1 t4
    exact ⟨⟨b1, b2, b3, ⟨l4, q1⟩, ⟨l5, q2⟩, hsh⟩, by simp [encId], t5⟩
  · cases k3

theorem tyId_lt (ok : x.Ok) (t : Ty) : tyId x t < 256 ^ 4 := by
  cases t
  · exact ok.block
  · exact ok.proof
  · exact ok.diff

theorem ty_rt (ok : x.Ok) : RoundTrip (fun t => leBytes 4 (tyId x t)) (rdTy x) (fun _ => True) := by
  intro t _ r
  unfold rdTy
  rw [Rd.bind_of (rdLe_append (tyId_lt ok t) r)]
  have h1 := ok.bp
  have h2 := ok.bd
  have h3 := ok.pd
  cases t
  · simp [tyId, Rd.pure_run]
  · simp [tyId, Rd.ite_run, Rd.pure_run, h1.symm]
  · simp [tyId, Rd.ite_run, Rd.pure_run, h2.symm, h3.symm]

theorem ty_canon : Canonical (fun t => leBytes 4 (tyId x t)) (rdTy x) (fun _ => True) := by
  intro s t r hs h
  unfold rdTy at h
  obtain ⟨n, s1, h1, k1⟩ := Rd.bind_some.1 h
  obtain ⟨rfl, b1, t1⟩ := rdLe_some hs h1
  refine ⟨trivial, ?_⟩
  simp only [Rd.ite_run] at k1
  split at k1
  · rename_i e; rw [Rd.pure_run] at k1; cases k1; exact ⟨by rw [e]; rfl, t1⟩
  · split at k1
    · rename_i e; rw [Rd.pure_run] at k1; cases k1; exact ⟨by rw [e]; rfl, t1⟩
    · split at k1
      · rename_i e; rw [Rd.pure_run] at k1; cases k1; exact ⟨by rw [e]; rfl, t1⟩
      · cases k1

theorem header_rt (ok : x.Ok) : RoundTrip (encHeader x) (rdHeader x) (HeaderOk x) := by
  intro h hh r
  unfold rdHeader encHeader
  simp only [List.append_assoc]
  rw [Rd.bind_of (rdLe_append ok.header _), Rd.ite_run, if_pos rfl, Rd.bind_of (id_rt _ hh.1 _), Rd.bind_of (ty_rt ok _ trivial _), Rd.bind_of (rdLe_append hh.2 _),
    Rd.pure_run]

theorem header_canon : Canonical (encHeader x) (rdHeader x) (HeaderOk x) := by
  intro s i r hs h
  unfold rdHeader at h
  obtain ⟨n, s1, h1, k1⟩ := Rd.bind_some.1 h
  obtain ⟨rfl, b1, t1⟩ := rdLe_some hs h1
  rw [Rd.ite_run] at k1
  split at k1
  · rename_i e
    obtain ⟨id, s2, h2, k2⟩ := Rd.bind_some.1 k1
    obtain ⟨b2, rfl, t2⟩ := id_canon _ _ _ t1 h2
    obtain ⟨t, s3, h3, k3⟩ := Rd.bind_some.1 k2
    obtain ⟨_, rfl, t3⟩ := ty_canon _ _ _ t2 h3
    obtain ⟨l, s4, h4, k4⟩ := Rd.bind_some.1 k3
    obtain ⟨rfl, b4, t4⟩ := rdLe_some t3 h4
    rw [Rd.pure_run] at k4
    cases k4
    exact ⟨⟨b2, b4⟩, by simp [encHeader, e], t4⟩
  · cases k1

theorem header_length {h : Header} (hh : IdOk x h.id) : (encHeader x h).length = 92 := by
  simp [encHeader, encId, leBytes_length, hh.root.1, hh.file.1]

theorem entry_rt (ok : x.Ok) : RoundTrip (encEntry x) (rdEntry x) (EntryOk x) := by
  intro e he r
  unfold rdEntry encEntry
  rw [List.append_assoc, Rd.bind_of (header_rt ok e.header ⟨he.1, he.2.1⟩ _)]
  simp only [Entry.header]
  rw [Rd.bind_of (rdBytes_append' rfl _), Rd.pure_run]

theorem entry_canon : Canonical (encEntry x) (rdEntry x) (EntryOk x) := by
  intro s e r hs h
  unfold rdEntry at h
  obtain ⟨hd, s1, h1, k1⟩ := Rd.bind_some.1 h
  obtain ⟨b1, rfl, t1⟩ := header_canon _ _ _ hs h1
  obtain ⟨d, s2, h2, k2⟩ := Rd.bind_some.1 k1
  obtain ⟨rfl, l2⟩ := rdBytes_some h2
  rw [Rd.pure_run] at k2
  cases k2
  obtain ⟨q1, t2⟩ := isBytes_append.1 t1
  refine ⟨⟨b1.1, by rw [l2]; exact b1.2, q1⟩, ?_, t2⟩
  have e : (⟨hd.id, hd.ty, d⟩ : Entry).header = hd := by simp [Entry.header, l2]
  simp [encEntry, e]

theorem entry_length {e : Entry} (he : IdOk x e.id) : (encEntry x e).length = 92 + e.data.length := by
  simp [encEntry, header_length (h := e.header) he]

theorem readLoop_enc (ok : x.Ok) {es : List Entry} (he : ∀ e ∈ es, EntryOk x e) {r : List Nat} (hr : r.length < 8) {n : Nat} (hn : es.length < n ∨ (n = 0 ∧ es = [])) :
    readLoop x n (es.flatMap (encEntry x) ++ r) = some es := by
  induction es generalizing n with
  | nil =>
    cases n with
    | zero => rfl
    | succ n => simp [readLoop, hr]
  | cons e es ih =>
    rcases hn with hn | ⟨_, h⟩
    · cases n with
      | zero => omega
      | succ n =>
        have h1 := he e (by simp)
        simp only [readLoop, List.flatMap_cons, List.append_assoc]
        rw [if_neg (by rw [List.length_append, entry_length h1.1]; omega), entry_rt ok e h1]
        simp only
        rw [ih (fun e' h' => he e' (by simp [h']))]
        · rfl
        · left; simp only [List.length_cons] at hn; omega
    · cases h

theorem readLoop_canon {n : Nat} {s : List Nat} (hs : IsBytes s) (hn : s.length ≤ n) {es : List Entry} (h : readLoop x n s = some es) :
    (∀ e ∈ es, EntryOk x e) ∧ ∃ r, s = es.flatMap (encEntry x) ++ r ∧ r.length < 8 := by
  induction n generalizing s es with
  | zero =>
    cases h
    exact ⟨by simp, s, by simp, by omega⟩
  | succ n ih =>
    simp only [readLoop] at h
    split at h
    · cases h
      exact ⟨by simp, s, by simp, by assumption⟩
    · split at h
      · cases h
      · rename_i e r h1
        obtain ⟨es', h2, rfl⟩ := Option.map_eq_some_iff.1 h
        obtain ⟨b1, rfl, hr⟩ := entry_canon _ _ _ hs h1
        have hl := entry_length (x := x) b1.1
        obtain ⟨g1, t, g2, g3⟩ := ih hr (by simp only [List.length_append] at hn; omega) h2
        refine ⟨?_, t, by simp [g2], g3⟩
        intro e' h'
        rcases List.mem_cons.1 h' with rfl | h'
        · exact b1
        · exact g1 e' h'

end Tycho.ArchiveFile
