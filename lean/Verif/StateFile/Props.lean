import Verif.StateFile.Trip
import Verif.StateFile.Cell
/-! Properties of the file of a persistent state. -/
namespace Tycho.StateFile
open Tycho.Bytes Tycho.Codec Tycho.Table

/-- The tree of `root` is in the database: every cell that can be reached from the root has the row that `finalize_cell` makes for
its content, under its own hash; the graph has no cycle. -/
structure InDb (C : Crypto) (db : Nat → Option (List Nat)) (root : Nat) where
  ent : Nat → Ent
  rank : Nat → Nat
  content : Content (hasher C) db ent root
  acyclic : ∀ h b refs c, Reach (dbCell (hasher C) db) root h → dbCell (hasher C) db h = some (b, refs) → c ∈ refs → rank c < rank h

theorem nodupRev {l : List Nat} (hn : l.Nodup) : l.reverse.Nodup := by
  unfold List.Nodup at *
  rw [List.pairwise_reverse]
  exact hn.imp (fun h => Ne.symm h)

theorem idxOf_reverse {l : List Nat} (hn : l.Nodup) {c : Nat} (hc : c ∈ l) : l.length - l.idxOf c - 1 = l.reverse.idxOf c := by
  have h1 : l.idxOf c < l.length := List.idxOf_lt_length_of_mem hc
  have h2 : l.length - l.idxOf c - 1 < l.reverse.length := by simp; omega
  have h3 : l.reverse[l.length - l.idxOf c - 1]'h2 = c := by
    rw [List.getElem_reverse]
    have : l.length - 1 - (l.length - l.idxOf c - 1) = l.idxOf c := by omega
    simp only [this]
    exact List.getElem_idxOf h1
  have h4 : c ∈ l.reverse := List.mem_reverse.2 hc
  have h5 : l.reverse.idxOf c < l.reverse.length := List.idxOf_lt_length_of_mem h4
  have h6 : l.reverse[l.reverse.idxOf c]'h5 = c := List.getElem_idxOf h5
  exact (List.getElem_inj (nodupRev hn)).1 (h3.trans h6.symm)

/-- A cell as it is in the file with the cells `order`: references are positions. -/
def cellAt (cell : Nat → Option (Body × List Nat)) (order : List Nat) (h : Nat) : List Nat := match cell h with
  | some (b, refs) => cellBytes b (refs.map (fun c => order.idxOf c))
  | none => []

/-- C98: the writer ends within two turns for each reference; the file has every cell that can be reached from the root exactly
once, the root first, every cell before its children, and every reference is the position of the child. -/
theorem state_file_written (C : Crypto) {db : Nat → Option (List Nat)} {root : Nat} (hdb : InDb C db root) :
    ∃ file order, (∀ fuel, 2 + 2 * edges (dbCell (hasher C) db) order ≤ fuel → writeState (hasher C) db root fuel = some file) ∧
      order.Nodup ∧ (∀ h, h ∈ order ↔ Reach (dbCell (hasher C) db) root h) ∧
      (order.length < 2 ^ 31 → cellsSize (dbCell (hasher C) db) order ≤ 100 * 2 ^ 30 →
        order.head? = some root ∧
        (∀ (j h : Nat), order[j]? = some h → ∃ b refs, dbCell (hasher C) db h = some (b, refs) ∧ ∀ c ∈ refs, ∃ k : Nat, j < k ∧ order[k]? = some c) ∧
        fileCells (hasher C) file = some (⟨false, 4, order.length⟩, order.map (cellAt (dbCell (hasher C) db) order))) := by
  obtain ⟨file, order, h1, h2, h3, h4⟩ := trip (hasher_laws C) hdb.content hdb.acyclic
  have hsum : ∀ (f : Nat → Nat), (order.reverse.map f).sum = (order.map f).sum := by
    intro f
    rw [List.map_reverse, List.sum_reverse]
  refine ⟨file, order.reverse, ?_, nodupRev h2, ?_, ?_⟩
  · intro fuel hf
    apply h1
    unfold edges at hf ⊢
    rw [hsum] at hf
    exact hf
  · intro h; rw [List.mem_reverse]; exact h3 h
  · intro h5 h6
    rw [List.length_reverse] at h5
    have h6' : cellsSize (dbCell (hasher C) db) order ≤ 100 * 2 ^ 30 := by
      unfold cellsSize at h6 ⊢
      rw [hsum] at h6
      exact h6
    obtain ⟨h7, h8, h9, _⟩ := h4 h5 h6'
    refine ⟨by rw [List.head?_reverse]; exact h7, ?_, ?_⟩
    · intro j h hj
      have hlt : j < order.reverse.length := (List.getElem?_eq_some_iff.1 hj).1
      rw [List.length_reverse] at hlt
      rw [List.getElem?_reverse hlt] at hj
      obtain ⟨b, refs, h10, h11, _⟩ := h8.closed _ _ hj
      refine ⟨b, refs, h10, fun c hc => ?_⟩
      obtain ⟨h12, h13⟩ := idxOf_take h2 (h11 c hc)
      refine ⟨order.length - 1 - order.idxOf c, by omega, ?_⟩
      rw [List.getElem?_reverse (by omega)]
      rw [show order.length - 1 - (order.length - 1 - order.idxOf c) = order.idxOf c from by omega]
      exact h13
    · rw [h9, List.length_reverse, ← List.map_reverse]
      congr 2
      apply List.map_congr_left
      intro h hm
      rw [List.mem_reverse] at hm
      obtain ⟨j, hj⟩ := List.getElem?_of_mem hm
      obtain ⟨b, refs, h10, h11, _⟩ := h8.closed _ _ hj
      unfold fileCell cellAt
      rw [h10]
      simp only []
      congr 1
      apply List.map_congr_left
      intro c hc
      exact idxOf_reverse h2 (List.mem_of_mem_take (h11 c hc))

/-- A row without the flag of stored hashes. -/
def clearRow : List Nat → List Nat
  | [] => []
  | d :: r => clearStored d :: r

theorem bitLen_clear (b : Body) : bitLen b.clear = bitLen b := rfl

/-- C99: the file of a stored state is accepted, whatever the sizes of chunks and batches, and gives exactly the cells of the
state: the row of every cell is the stored one (without the flag of stored hashes), and there is no other row. -/
theorem state_file_round_trip (C : Crypto) {db : Nat → Option (List Nat)} {root : Nat} (hdb : InDb C db root) :
    ∃ file order, (∀ fuel, 2 + 2 * edges (dbCell (hasher C) db) order ≤ fuel → writeState (hasher C) db root fuel = some file) ∧
      order.Nodup ∧ (∀ h, h ∈ order ↔ Reach (dbCell (hasher C) db) root h) ∧
      (order.length < 2 ^ 31 → cellsSize (dbCell (hasher C) db) order ≤ 100 * 2 ^ 30 →
        ∀ crcOk per perBatch expected, 0 < per → per ≤ 10000 → (expected = none ∨ expected = some root) →
        ∃ rows, importState (hasher C) crcOk per perBatch expected file = some (root, rows) ∧
          (∀ h, Reach (dbCell (hasher C) db) root h → (get rows h) = (db h).map clearRow ∧ (db h).isSome) ∧
          (∀ h, ¬ Reach (dbCell (hasher C) db) root h → get rows h = none)) := by
  obtain ⟨file, order, h1, h2, h3, h4⟩ := trip (hasher_laws C) hdb.content hdb.acyclic
  refine ⟨file, order, h1, h2, h3, fun h5 h6 crcOk per perBatch expected h7 h8 h9 => ?_⟩
  obtain ⟨_, _, _, h10⟩ := h4 h5 h6
  obtain ⟨rows, h11, h12⟩ := h10 crcOk per perBatch expected h7 h8 h9
  refine ⟨rows, h11, fun h hr => ?_, fun h hr => ?_⟩
  · obtain ⟨b, refs, h13, h14⟩ := hdb.content.cells h hr
    rw [h12 h, if_pos ((h3 h).2 hr), h13.row]
    refine ⟨?_, rfl⟩
    unfold rowOf
    rw [h13.cell (hasher_laws C) h14]
    rfl
  · rw [h12 h, if_neg (fun hm => hr ((h3 h).1 hm))]

/-- C100: what is known of any file that is accepted. The hash is the expected one and the hash of the first cell; every cell of
the file has a row; every row is that of a cell of the file, under the hash of that cell, and the children of a row have rows; and
(unless the file has a collision of hashes) the rows are exactly the cells that can be reached from the root. -/
theorem state_file_sound (C : Crypto) {crcOk : Bool} {per perBatch : Nat} {expected : Option Nat} {file : List Nat} {root : Nat} {rows : Table Nat (List Nat)}
    (hper : per ≤ 10000) (hb : IsBytes file) (h : importState (hasher C) crcOk per perBatch expected file = some (root, rows)) :
    (∀ x, expected = some x → x = root) ∧ ∃ hd cs, fileCells (hasher C) file = some (hd, cs) ∧
      (∃ b es e, CellIn (hasher C) hd.refSize cs 0 b es e ∧ (hasher C).repr e = root) ∧
      (∀ i, i < cs.length → ∃ b es e, CellIn (hasher C) hd.refSize cs i b es e ∧ (get rows ((hasher C).repr e)).isSome) ∧
      (∀ g row, get rows g = some row → ∃ i b es e, CellIn (hasher C) hd.refSize cs i b es e ∧ (hasher C).repr e = g ∧
        row = rowBytes (hasher C) b e (es.map (hasher C).repr) ∧
        cellOf (hasher C) rows g = some (b, es.map (hasher C).repr) ∧ ∀ c ∈ es, (get rows ((hasher C).repr c)).isSome) ∧
      (NoCollision (hasher C) hd.refSize cs hd.refSize cs → ∀ g, (get rows g).isSome ↔ Reach (cellOf (hasher C) rows) root g) :=
  sound (hasher_laws C) hper hb h

/-- C101: two accepted files with the same root (unless they have a collision of hashes) give the same cells: the same hashes, and
under each the same content and children. -/
theorem state_file_unique (C : Crypto) {crc1 crc2 : Bool} {per1 batch1 per2 batch2 : Nat} {exp1 exp2 : Option Nat} {file1 file2 : List Nat} {root : Nat}
    {rows1 rows2 : Table Nat (List Nat)} (hper1 : per1 ≤ 10000) (hper2 : per2 ≤ 10000) (hb1 : IsBytes file1) (hb2 : IsBytes file2)
    (h1 : importState (hasher C) crc1 per1 batch1 exp1 file1 = some (root, rows1))
    (h2 : importState (hasher C) crc2 per2 batch2 exp2 file2 = some (root, rows2)) {hd1 hd2 : Header} {cs1 cs2 : List (List Nat)}
    (hf1 : fileCells (hasher C) file1 = some (hd1, cs1)) (hf2 : fileCells (hasher C) file2 = some (hd2, cs2))
    (hn1 : NoCollision (hasher C) hd1.refSize cs1 hd1.refSize cs1) (hn2 : NoCollision (hasher C) hd2.refSize cs2 hd2.refSize cs2)
    (hn : NoCollision (hasher C) hd1.refSize cs1 hd2.refSize cs2) :
    ∀ g, (cellOf (hasher C) rows1 g).map (fun p => (p.1.clear, p.2)) = (cellOf (hasher C) rows2 g).map (fun p => (p.1.clear, p.2)) := by
  obtain ⟨_, hd1', cs1', e1, r1, _, row1, reach1⟩ := sound (hasher_laws C) hper1 hb1 h1
  obtain ⟨_, hd2', cs2', e2, r2, _, row2, reach2⟩ := sound (hasher_laws C) hper2 hb2 h2
  rw [hf1] at e1; injection e1 with e1; injection e1 with e1 e1'; subst e1; subst e1'
  rw [hf2] at e2; injection e2 with e2; injection e2 with e2 e2'; subst e2; subst e2'
  have reach1 := reach1 hn1
  have reach2 := reach2 hn2
  -- a hash in both tables has the same cell in both
  have both : ∀ g, (get rows1 g).isSome → (get rows2 g).isSome → ∃ b1 b2 hs, cellOf (hasher C) rows1 g = some (b1, hs) ∧
      cellOf (hasher C) rows2 g = some (b2, hs) ∧ b1.clear = b2.clear := by
    intro g g1 g2
    obtain ⟨w1, g1⟩ := Option.isSome_iff_exists.1 g1
    obtain ⟨w2, g2⟩ := Option.isSome_iff_exists.1 g2
    obtain ⟨i, b, es, e, a1, a2, a3, a4, a5⟩ := row1 g w1 g1
    obtain ⟨j, b', es', e', c1, c2, c3, c4, c5⟩ := row2 g w2 g2
    obtain ⟨d1, d2⟩ := hn i b es e j b' es' e' a1 c1 (by rw [a2, c2])
    exact ⟨b, b', es.map (hasher C).repr, a4, by rw [c4, d2], d1⟩
  have sub12 : ∀ g, Reach (cellOf (hasher C) rows1) root g → (get rows2 g).isSome := by
    intro g hr
    induction hr with
    | refl => exact (reach2 root).2 (.refl _)
    | step h4 h5 h6 ih =>
      obtain ⟨b1, b2, hs, k1, k2, _⟩ := both _ ((reach1 _).2 h4) ih
      rw [k1] at h5
      injection h5 with h5
      injection h5 with h5 h7
      subst h7
      exact (reach2 _).2 (.step ((reach2 _).1 ih) k2 h6)
  have sub21 : ∀ g, Reach (cellOf (hasher C) rows2) root g → (get rows1 g).isSome := by
    intro g hr
    induction hr with
    | refl => exact (reach1 root).2 (.refl _)
    | step h4 h5 h6 ih =>
      obtain ⟨b1, b2, hs, k1, k2, _⟩ := both _ ih ((reach2 _).2 h4)
      rw [k2] at h5
      injection h5 with h5
      injection h5 with h5 h7
      subst h7
      exact (reach1 _).2 (.step ((reach1 _).1 ih) k1 h6)
  intro g
  by_cases hg : (get rows1 g).isSome
  · obtain ⟨b1, b2, hs, k1, k2, k3⟩ := both g hg (sub12 g ((reach1 g).1 hg))
    rw [k1, k2]
    simp [k3]
  · have hg2 : ¬ (get rows2 g).isSome := fun hs => hg (sub21 g ((reach2 g).1 hs))
    rw [Option.not_isSome_iff_eq_none] at hg hg2
    unfold cellOf
    rw [hg, hg2]

/-- C99: the number of bits that is stored with a cell: all bits of full bytes; the bits before the last set bit otherwise. -/
theorem state_file_bits (d1 d2 : Nat) (init : List Nat) (x m k : Nat) :
    (d2 % 2 = 0 → bitLen ⟨d1, d2, init⟩ = 8 * byteLen d2) ∧
    (d2 % 2 = 1 → byteLen d2 = init.length + 1 → k < 8 → x < 256 → x = m * 2 ^ (k + 1) + 2 ^ k →
      bitLen ⟨d1, d2, init ++ [x]⟩ = 8 * init.length + (7 - k)) := by
  refine ⟨fun h => by unfold bitLen; rw [if_pos h]; exact Nat.mul_comm _ _, fun h hl hk hx he => ?_⟩
  unfold bitLen
  simp only []
  rw [if_neg (by omega), List.getLast?_concat]
  simp only []
  have hz : trailingZeros x = k := by
    unfold trailingZeros
    have : k = 0 ∨ k = 1 ∨ k = 2 ∨ k = 3 ∨ k = 4 ∨ k = 5 ∨ k = 6 ∨ k = 7 := by omega
    rcases this with rfl | rfl | rfl | rfl | rfl | rfl | rfl | rfl <;> simp only [Nat.reducePow, Nat.reduceAdd] at he <;>
      repeat (first | rw [if_pos (by omega)] | rw [if_neg (by omega)])
  rw [hz, hl]
  omega

/-- C100: a file that says it has a checksum is accepted only with a right one. -/
theorem state_file_checksum (C : Crypto) {crcOk : Bool} {per perBatch : Nat} {expected : Option Nat} {file : List Nat} {p : Nat × Table Nat (List Nat)}
    (h : importState (hasher C) crcOk per perBatch expected file = some p) {hd : Header} {r : List Nat} (hh : readHeader file = some (hd, r))
    (hc : hd.crc = true) : crcOk = true := by
  unfold importState preprocess at h
  rw [hh] at h
  simp only [hc, if_true] at h
  cases crcOk with
  | true => rfl
  | false =>
    split at h
    · cases h
    · next heq =>
      split at heq
      · cases heq
      · simp at heq

/-- C100: hashes that are stored with a cell in the file are skipped: the cell is the same without them. -/
theorem state_file_stored_hashes (C : Crypto) (n d1 d2 : Nat) (hs rest r : List Nat) (h1 : storesHashes d1 = true) (h2 : isAbsent d1 = false)
    (h3 : refCount d1 ≤ 4) (h4 : hs.length = 34 * hashCountOf C d1) (h5 : rest.length = byteLen d2 + refCount d1 * n) :
    readCell (hasher C) n ([d1, d2] ++ (hs ++ (rest ++ r))) = some ([d1, d2] ++ rest, r) := by
  unfold readCell
  rw [Rd.bind_of (rdBytes_append' (by rfl) _)]
  simp only [List.getD_cons_zero, List.getD_cons_succ, h1, h2, Bool.false_eq_true, if_false, if_true]
  rw [if_neg (by omega)]
  rw [Rd.bind_of (a := ()) (r := rest ++ r) (by
    unfold skip
    have : (hasher C).hashCount d1 * 34 = hs.length := by rw [h4, Nat.mul_comm]; rfl
    rw [this, List.drop_left])]
  rw [Rd.bind_of (rdBytes_append' h5 _)]
  rfl

/-- C100: a pruned branch whose data has its hashes is accepted, with a single hash. -/
theorem state_file_pruned (C : Crypto) (b : Body) (hk : kindOf b.d1 = .pruned)
    (hd : hashIndex (b.d1 / 32) 3 = C.level (b.d1 / 32) ∨ 2 + hashIndex (b.d1 / 32) 3 * 32 + 32 ≤ b.data.length) :
    ∃ e, buildEnt C b [] = some e ∧ e.hashes.length = 1 ∧ e.data = b.data := by
  unfold buildEnt
  have hm : maskOf b.d1 [] = b.d1 / 32 := by unfold maskOf; rw [hk]
  rw [hm]
  simp only [ne_eq, not_true, if_false, hk, decide_true, hashLevels, allSome, List.map_nil, depthOf, Bool.true_or, and_true, if_true,
    List.length_append, List.nil_append, List.length_cons, List.length_nil, List.flatMap_nil, List.append_nil, List.flatten_nil, Nat.zero_add]
  unfold hashCountOf
  rw [hk]
  simp only [if_true]
  unfold prunedHash
  rcases hd with h | h
  · simp [h]
  · by_cases h2 : hashIndex (b.d1 / 32) 3 = C.level (b.d1 / 32)
    · simp [h2]
    · simp [h2, show ¬ b.data.length < 2 + hashIndex (b.d1 / 32) 3 * 32 + 32 from by omega]

end Tycho.StateFile
