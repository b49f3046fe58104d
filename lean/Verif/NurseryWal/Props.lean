import Verif.NurseryWal.Step

/-! ## C30 and C31 -/
namespace Tycho.NurseryWal
open Tycho.Table

variable {H : List Nat → List Nat}

/-! ### C30: records -/

/-- Every commit that can be written reads back as the same id and delta, whatever follows it in the file, and the reader stops
exactly behind it. -/
theorem record_round_trip (hH : ∀ x, (H x).length = 32) (id : Nat) (d : Delta) (hf : Fits d) (hid : id < 2 ^ 64)
    (rest : List Nat) : rdRecord H (encRecord H id d ++ rest) = some (⟨id, H (encHashed id d), d⟩, rest) :=
  rdRecord_enc hH hf hid rest

/-- Two writable commits with the same bytes are the same commit. -/
theorem record_injective (hH : ∀ x, (H x).length = 32) {id id' : Nat} {d d' : Delta} (hf : Fits d) (hf' : Fits d')
    (hid : id < 2 ^ 64) (hid' : id' < 2 ^ 64) (h : encRecord H id d = encRecord H id' d') : id = id' ∧ d = d' := by
  have h1 := rdRecord_enc hH hf hid []
  rw [h, rdRecord_enc hH hf' hid' []] at h1
  simp only [Option.some.injEq, Prod.mk.injEq, Decoded.mk.injEq] at h1
  exact ⟨h1.1.1.symm, h1.1.2.2.symm⟩

/-- A record cut short anywhere is not accepted as any record. -/
theorem record_torn (hH : ∀ x, (H x).length = 32) (id : Nat) (d : Delta) (hf : Fits d) (k : Nat)
    (hk : k < (encRecord H id d).length) : rdRecord H ((encRecord H id d).take k) = none :=
  rdRecord_torn hH hf hk

/-- Whatever is accepted carries the hash of its own length and payload. -/
theorem record_hash {bytes rest : List Nat} {r : Decoded} (hb : Codec.IsBytes bytes) (h : rdRecord H bytes = some (r, rest)) :
    ∃ body, bytes = r.hash ++ body ++ rest ∧ H body = r.hash ∧ r.hash.length = 32 ∧ 8 ≤ body.length := by
  unfold rdRecord at h
  obtain ⟨hash, t1, h1, h⟩ := Codec.Rd.bind_some.1 h
  obtain ⟨n, t2, h2, h⟩ := Codec.Rd.bind_some.1 h
  rw [Codec.Rd.ite_run] at h
  split at h
  · cases h
  obtain ⟨payload, t3, h3, h⟩ := Codec.Rd.bind_some.1 h
  obtain ⟨e1, l1⟩ := Codec.rdBytes_some h1
  rw [e1] at hb
  have hb1 := (Codec.isBytes_append.1 hb).2
  obtain ⟨e2, _⟩ := Codec.rdLe_some hb1 h2
  obtain ⟨e3, l3⟩ := Codec.rdBytes_some h3
  rw [Codec.Rd.ite_run] at h
  split at h
  · cases h
  rename_i hh
  have hh : H (Bytes.leBytes 8 n ++ payload) = hash := Classical.byContradiction hh
  cases hp : rdPayload payload with
  | none => rw [hp] at h; cases h
  | some q =>
    obtain ⟨⟨id, d⟩, q⟩ := q
    rw [hp] at h
    simp only [Codec.Rd.pure_run, Option.some.injEq, Prod.mk.injEq] at h
    obtain ⟨rfl, rfl⟩ := h
    refine ⟨Bytes.leBytes 8 n ++ payload, ?_, hh, l1, by simp⟩
    rw [e1, e2, e3]
    simp

/-! ### C31: crashes -/

/-- At any point of any execution, with crashes before it anywhere, if the process ends here then it can be started again, and the nursery it then has is the one after
exactly the commits whose batch was written: none of them is lost, nothing of an unfinished commit is left. -/
theorem restart_recovers (hH : ∀ x, (H x).length = 32) {t : Nat} {s : Sys} (h : Exec H t s) :
    ∃ disk m r, openNursery H s.disk = some (disk, m) ∧ replay s.hist = some r ∧ SameEntries m.nursery r ∧
      Uniq m.nursery.entries ∧ m.committed = s.hist.length ∧ (∀ x e, get m.nursery.entries x = some e → (e.born, x) ∈ m.nursery.rounds) := by
  obtain ⟨a, c, tail, hdisk, _⟩ := h.inv hH
  obtain ⟨w, m, h1, h2, h3, h4, _⟩ := hdisk.open hH
  obtain ⟨r, hr1, hr2⟩ := h2.same
  exact ⟨_, m, r, h1, hr1, hr2, h2.uniq, h4, h3⟩

/-- While a node runs and no operation is under way, its nursery is the one after the commits that are written, the log in
memory has the length of the file, and every entry is in the round index. -/
theorem running_nursery (hH : ∀ x, (H x).length = 32) {t : Nat} {s : Sys} (h : Exec H t s) {m : Mem}
    (hp : s.proc = some (m, .idle)) :
    ∃ r w, replay s.hist = some r ∧ SameEntries m.nursery r ∧ m.committed = s.hist.length ∧ s.disk.wal = some w ∧
      m.walSize = w.length ∧ (∀ x e, get m.nursery.entries x = some e → (e.born, x) ∈ m.nursery.rounds) := by
  obtain ⟨a, c, tail, _, hph⟩ := h.inv hH
  rw [hp] at hph
  obtain ⟨hs, _, hm⟩ := hph
  obtain ⟨r, hr1, hr2⟩ := hm.nur.same
  obtain ⟨w, hw⟩ := Option.isSome_iff_exists.1 hs
  refine ⟨r, w, hr1, hr2, hm.com, hw, ?_, hm.idx⟩
  rw [hm.size, hw]; rfl

/-- A commit that is under way never fails in the nursery: the assertion against duplicate inserts holds when the record is
complete. -/
theorem stage_possible (hH : ∀ x, (H x).length = 32) {t : Nat} {s : Sys} (h : Exec H t s) {m : Mem} {d : Delta}
    (hp : s.proc = some (m, .appending d [])) : (act H t s .stage).isSome := by
  obtain ⟨a, c, tail, _, hph⟩ := h.inv hH
  rw [hp] at hph
  obtain ⟨_, _, _, _, g3, _⟩ := hph
  obtain ⟨n, hn⟩ := Option.isSome_iff_exists.1 g3
  simp only [act, hp, hn, Option.isSome_some]

theorem insertAll_get {a a' : Table (List Nat) Entry} (l : List Rec) (h : insertAll a l = some a') (x : List Nat) (e : Entry) :
    get a' x = some e ↔ (x, e) ∈ l ∨ get a x = some e := by
  constructor
  · intro hg
    exact (insertAll_mem l h hg).symm
  · intro hm
    induction l generalizing a with
    | nil =>
      cases h
      rcases hm with hm | hm
      · cases hm
      · exact hm
    | cons y l ih =>
      unfold insertAll at h
      cases hy : get a y.1 with
      | some _ => rw [hy] at h; cases h
      | none =>
        rw [hy] at h
        refine ih h ?_
        rw [get_put]
        rcases hm with hm | hm
        · rcases List.mem_cons.1 hm with rfl | hm
          · right; simp
          · exact Or.inl hm
        · right
          rw [if_neg]
          · exact hm
          · rintro rfl
            rw [hm] at hy; cases hy

/-- What a commit does to the map: removed keys are gone, inserted keys are there, the rest is as before. -/
theorem applyCommit_get {n n' : Nursery} {d : Delta} (h : applyCommit n d = some n') (x : List Nat) (e : Entry) :
    get n'.entries x = some e ↔ x ∉ d.removes ∧ ((x, e) ∈ d.inserts ∨ get n.entries x = some e) := by
  simp only [applyCommit, Option.map_eq_some_iff] at h
  obtain ⟨es, h1, rfl⟩ := h
  simp only [get_del, List.contains_iff_mem]
  by_cases hx : x ∈ d.removes
  · simp [hx]
  · simp only [hx, if_false, not_false_eq_true, true_and]
    exact insertAll_get _ h1 x e

/-- A commit applies exactly when it inserts no key twice and none that is there. -/
theorem applyCommit_isSome (n : Nursery) (d : Delta) :
    (applyCommit n d).isSome ↔ (d.inserts.map (fun e => e.1)).Nodup ∧ ∀ e ∈ d.inserts, get n.entries e.1 = none := by
  rw [applyCommit, Option.isSome_map]
  generalize n.entries = a
  generalize d.inserts = l
  induction l generalizing a with
  | nil => simp [insertAll]
  | cons y l ih =>
    unfold insertAll
    cases hy : get a y.1 with
    | some v =>
      simp only [Option.isSome_none, Bool.false_eq_true, false_iff, not_and]
      intro _ hall
      have := hall y (by simp)
      rw [hy] at this; cases this
    | none =>
      simp only
      rw [ih, List.map_cons, List.nodup_cons]
      constructor
      · rintro ⟨h1, h2⟩
        have key : ∀ e ∈ l, e.1 ≠ y.1 := by
          intro e he heq
          have := h2 e he
          rw [get_put, if_pos heq] at this; cases this
        refine ⟨⟨?_, h1⟩, ?_⟩
        · intro hm
          obtain ⟨e, he, hk⟩ := List.mem_map.1 hm
          exact key e he hk
        · intro e he
          rcases List.mem_cons.1 he with rfl | he
          · exact hy
          · have := h2 e he
            rw [get_put, if_neg (key e he)] at this; exact this
      · rintro ⟨⟨h0, h1⟩, h2⟩
        refine ⟨h1, ?_⟩
        intro e he
        rw [get_put, if_neg]
        · exact h2 e (by simp [he])
        · intro heq
          exact h0 (heq ▸ List.mem_map_of_mem he)

end Tycho.NurseryWal
