import Verif.StateFile.Import
/-! What an accepted file stores: the cells of the file, whole trees of them, and nothing else. -/
namespace Tycho.StateFile
open Tycho.Bytes Tycho.Codec Tycho.Table
variable {H : Hasher}

theorem allSome_of {α β : Type} {f : α → Option β} {xs : List α} {ys : List β} (h : List.Forall₂ (fun x y => f x = some y) xs ys) :
    allSome (xs.map f) = some ys := by
  induction h with
  | nil => rfl
  | cons h1 _ ih => simp only [List.map_cons]; unfold allSome; rw [h1, ih]

/-- The state of the import has the cells of the file. -/
theorem entryAt_of {refSize : Nat} {cs : List (List Nat)} {s : FSt H} (hi : FInv refSize cs s) : ∀ (n i : Nat) (b : Body) (es : List H.Entry) (e : H.Entry),
    cs.length - i ≤ n → IsCell refSize cs s i b es e → entryAt H refSize cs n i = some (b, es, e) := by
  intro n
  induction n with
  | zero =>
    intro i b es e hn hc
    have := (hi.cells i e hc.1).2.1
    omega
  | succ n ih =>
    intro i b es e hn hc
    obtain ⟨h1, h2, bytes, refs, h3, h4, h5⟩ := hc
    unfold entryAt
    rw [h3, Option.bind_some, h4]
    simp only []
    have hr := (parseCell_some h4).2
    have h6 : List.Forall₂ (fun r c => (entryAt H refSize cs n r).map (·.2.2) = some c) refs es := by
      clear h2 h4
      induction h5 with
      | nil => exact .nil
      | @cons r c refs es h7 _ ih2 =>
        refine .cons ?_ (ih2 (fun x hx => hr x (List.mem_cons_of_mem _ hx)))
        obtain ⟨_, _, b', es', h8⟩ := hi.cells r c h7
        have := (hr r List.mem_cons_self).1
        rw [ih r b' es' c (by omega) h8]
        rfl
    rw [allSome_of h6]
    simp only [h2, Option.map_some]

theorem cellIn_of {refSize : Nat} {cs : List (List Nat)} {s : FSt H} (hi : FInv refSize cs s) {i : Nat} {b : Body} {es : List H.Entry} {e : H.Entry}
    (h : IsCell refSize cs s i b es e) : CellIn H refSize cs i b es e := entryAt_of hi cs.length i b es e (by omega) h

theorem isBytes_drop {s : List Nat} (h : IsBytes s) (n : Nat) : IsBytes (s.drop n) := fun b hb => h b (List.mem_of_mem_drop hb)

theorem readCell_some {refSize : Nat} {s c r : List Nat} (hs : IsBytes s) (h : readCell H refSize s = some (c, r)) :
    c.length ≤ 130 + 4 * refSize ∧ IsBytes r := by
  unfold readCell at h
  obtain ⟨d, t, h1, h2⟩ := Rd.bind_some.1 h
  obtain ⟨he, hdl⟩ := rdBytes_some h1
  rw [he] at hs
  have hsd := (isBytes_append.1 hs).1
  have hst := (isBytes_append.1 hs).2
  split at h2
  · rw [Rd.fail_run] at h2; cases h2
  · split at h2
    · rw [Rd.fail_run] at h2; cases h2
    · next hfew =>
      obtain ⟨u, t2, h3, h4⟩ := Rd.bind_some.1 h2
      obtain ⟨rest, t3, h5, h6⟩ := Rd.bind_some.1 h4
      rw [Rd.pure_run] at h6
      injection h6 with h6
      injection h6 with h7 h8
      subst h7 h8
      obtain ⟨he2, hl2⟩ := rdBytes_some h5
      have hst2 : IsBytes t2 := by
        unfold skip at h3
        injection h3 with h3
        injection h3 with h9 h10
        rw [← h10]; exact isBytes_drop hst _
      rw [he2] at hst2
      refine ⟨?_, (isBytes_append.1 hst2).2⟩
      rw [List.length_append, hdl, hl2]
      have hd2 : d.getD 1 0 < 256 := by
        rw [List.getD_eq_getElem?_getD]
        cases hg : d[1]? with
        | none => decide
        | some x => exact hsd x (List.mem_of_getElem? hg)
      have h11 : byteLen (d.getD 1 0) ≤ 128 := by unfold byteLen; omega
      have h12 : refCount (d.getD 0 0) * refSize ≤ 4 * refSize := Nat.mul_le_mul_right _ (by omega)
      omega

theorem rdCells_some {refSize : Nat} : ∀ (n : Nat) (s r : List Nat) (cs : List (List Nat)), IsBytes s → rdMany (readCell H refSize) n s = some (cs, r) →
    ∀ c ∈ cs, c.length ≤ 130 + 4 * refSize := by
  intro n
  induction n with
  | zero => intro s r cs _ h; cases h; simp
  | succ n ih =>
    intro s r cs hs h
    unfold rdMany at h
    obtain ⟨c, t, h1, h2⟩ := Rd.bind_some.1 h
    obtain ⟨cs', t2, h3, h4⟩ := Rd.bind_some.1 h2
    cases h4
    obtain ⟨h5, h6⟩ := readCell_some hs h1
    intro x hx
    rcases List.mem_cons.1 hx with hx | hx
    · subst hx; exact h5
    · exact ih _ _ _ h6 h3 x hx

theorem rdBe_bytes {n x : Nat} {s r : List Nat} (hs : IsBytes s) (h : rdBe n s = some (x, r)) : IsBytes r := by
  unfold rdBe at h
  obtain ⟨d, t, h1, h2⟩ := Rd.bind_some.1 h
  rw [Rd.pure_run] at h2
  injection h2 with h2
  injection h2 with h3 h4
  subst h4
  rw [(rdBytes_some h1).1] at hs
  exact (isBytes_append.1 hs).2

theorem readSizes_some {a b c : Bool} {refSize : Nat} {s r : List Nat} {hd : Header} (hs : IsBytes s) (h : readSizes a b c refSize s = some (hd, r)) :
    hd.refSize = refSize ∧ IsBytes r := by
  unfold readSizes at h
  obtain ⟨off, t1, h1, h2⟩ := Rd.bind_some.1 h
  have hs := rdBe_bytes hs h1
  rw [Rd.ite_run] at h2
  split at h2
  · rw [Rd.fail_run] at h2; cases h2
  · obtain ⟨cells, t2, h3, h4⟩ := Rd.bind_some.1 h2
    have hs := rdBe_bytes hs h3
    obtain ⟨roots, t3, h5, h6⟩ := Rd.bind_some.1 h4
    have hs := rdBe_bytes hs h5
    obtain ⟨_, t4, h7, h8⟩ := Rd.bind_some.1 h6
    have hs := rdBe_bytes hs h7
    rw [Rd.ite_run] at h8
    split at h8
    · rw [Rd.fail_run] at h8; cases h8
    · obtain ⟨total, t5, h9, h10⟩ := Rd.bind_some.1 h8
      have hs := rdBe_bytes hs h9
      rw [Rd.ite_run] at h10
      split at h10
      · rw [Rd.fail_run] at h10; cases h10
      · obtain ⟨_, t6, h11, h12⟩ := Rd.bind_some.1 h10
        rw [(rdBytes_some h11).1] at hs
        have hs := (isBytes_append.1 hs).2
        rw [Rd.ite_run] at h12
        split at h12
        · rw [Rd.fail_run] at h12; cases h12
        · obtain ⟨_, t7, h13, h14⟩ := Rd.bind_some.1 h12
          rw [Rd.pure_run] at h14
          injection h14 with h14
          injection h14 with h15 h16
          subst h15 h16
          refine ⟨rfl, ?_⟩
          unfold skip at h13
          injection h13 with h13
          injection h13 with h17 h18
          rw [← h18]; exact isBytes_drop hs _

theorem readHeader_some {s r : List Nat} {hd : Header} (hs : IsBytes s) (h : readHeader s = some (hd, r)) : hd.refSize ≤ 4 ∧ IsBytes r := by
  unfold readHeader at h
  obtain ⟨magic, t1, h1, h2⟩ := Rd.bind_some.1 h
  rw [(rdBytes_some h1).1] at hs
  have hs := (isBytes_append.1 hs).2
  obtain ⟨first, t2, h3, h4⟩ := Rd.bind_some.1 h2
  have hs := rdBe_bytes hs h3
  cases hb : bocFlags magic first with
  | none => rw [hb] at h4; simp only [Rd.fail_run] at h4; cases h4
  | some q =>
    obtain ⟨a, b, c, refSize⟩ := q
    rw [hb] at h4
    simp only [] at h4
    rw [Rd.ite_run] at h4
    split at h4
    · rw [Rd.fail_run] at h4; cases h4
    · obtain ⟨h5, h6⟩ := readSizes_some hs h4
      exact ⟨by omega, h6⟩

/-- What an accepted file gives. -/
theorem import_some {crcOk : Bool} {per perBatch : Nat} {expected : Option Nat} {file : List Nat} {root : Nat} {rows : Table Nat (List Nat)}
    (hper : per ≤ 10000) (hb : IsBytes file) (h : importState H crcOk per perBatch expected file = some (root, rows)) :
    ∃ hd cs, fileCells H file = some (hd, cs) ∧ ∃ s : FSt H, FInv hd.refSize cs s ∧ s.index = 0 ∧ s.rows = rows ∧ (∃ e, s.cur = some e ∧ H.top e = root) ∧
      s.usages.length = 1 ∧ (get s.usages root).isSome ∧ (∀ x, expected = some x → x = root) := by
  unfold importState at h
  cases hp : preprocess H crcOk per file with
  | none => rw [hp] at h; cases h
  | some q =>
    obtain ⟨hd, tmp⟩ := q
    rw [hp] at h
    simp only [] at h
    unfold preprocess at hp
    cases hh : readHeader file with
    | none => rw [hh] at hp; cases hp
    | some q =>
      obtain ⟨hd2, r⟩ := q
      rw [hh] at hp
      simp only [] at hp
      cases hc : preprocessCells H hd2.refSize per (hd2.cellCount + 1) hd2.cellCount r with
      | none => rw [hc] at hp; cases hp
      | some q =>
        obtain ⟨t, r2⟩ := q
        rw [hc] at hp
        simp only [] at hp
        have htmp : hd2 = hd ∧ t = tmp := by
          split at hp
          · split at hp
            · cases hp
            · injection hp with hp; injection hp with h1 h2; exact ⟨h1, h2⟩
          · injection hp with hp; injection hp with h1 h2; exact ⟨h1, h2⟩
        obtain ⟨rfl, rfl⟩ := htmp
        obtain ⟨chunks, h1, h2, h3, h4⟩ := preprocessCells_some _ _ _ _ _ _ _ hc
        obtain ⟨h5, h6⟩ := readHeader_some hb hh
        have hsmall := rdCells_some _ _ _ _ h6 h4
        refine ⟨hd2, chunks.flatten, by unfold fileCells; rw [hh]; simp only [h4, Option.map_some], ?_⟩
        have hlen : chunks.length ≤ (chunks.flatMap chunkBytes).length := by
          clear h1 h2 h3 h4 hsmall
          induction chunks with
          | nil => simp
          | cons c cs ih =>
            simp only [List.flatMap_cons, List.length_append, List.length_cons]
            have : 4 ≤ (chunkBytes c).length := by unfold chunkBytes; simp
            omega
        have hsplit := splitFile_of chunks.reverse ((chunks.flatMap chunkBytes).length + 1) (by simpa using Nat.lt_succ_of_le hlen)
          (fun cs hcs => by
            have hcs' : cs ∈ chunks := by simpa using hcs
            have hbound : (cs.flatMap fun c => c ++ [c.length]).length ≤ cs.length * 147 := by
              have hsm : ∀ c ∈ cs, c.length ≤ 146 := by
                intro c hc2
                have := hsmall c (List.mem_flatten.2 ⟨cs, hcs', hc2⟩)
                omega
              clear hcs hcs'
              induction cs with
              | nil => simp
              | cons c cs ih =>
                have h7 := hsm c List.mem_cons_self
                have h8 := ih (fun x hx => hsm x (List.mem_cons_of_mem _ hx))
                simp only [List.flatMap_cons, List.length_append, List.length_cons, List.length_nil, Nat.succ_mul]
                omega
            have h9 := (h3 cs hcs').2
            have h10 : cs.length * 147 ≤ 10000 * 147 := Nat.mul_le_mul_right _ (by omega)
            have : (10000 * 147 : Nat) < 256 ^ 4 := by decide
            omega)
        rw [List.reverse_reverse] at hsplit
        unfold finalize at h
        rw [h1, hsplit] at h
        simp only [] at h
        rw [← h2] at h
        have hrev : (chunks.flatten.take (⟨[], [], [], none, chunks.flatten.length, 0⟩ : FSt H).index).reverse = (chunks.reverse.map List.reverse).flatten := by
          simp only [List.take_length]
          rw [List.reverse_flatten, List.map_reverse]
        cases h7 : finalizeChunks H perBatch hd2.refSize chunks.flatten.length (chunks.reverse.map List.reverse) ⟨[], [], [], none, chunks.flatten.length, 0⟩ with
        | none => rw [h7] at h; cases h
        | some s =>
          rw [h7] at h
          simp only [] at h
          obtain ⟨h8, h9⟩ := finv_chunks _ _ _ (finv_start hd2.refSize chunks.flatten) hrev h7
          have h10 : FInv hd2.refSize chunks.flatten (if 0 < s.batch then endBatch H s else s) ∧ (if 0 < s.batch then endBatch H s else s).index = 0 := by
            split
            · exact ⟨finv_batch h8, h9⟩
            · exact ⟨h8, h9⟩
          generalize (if 0 < s.batch then endBatch H s else s) = s2 at h h10
          cases h11 : s2.cur with
          | none => rw [h11] at h; cases h
          | some e =>
            rw [h11] at h
            simp only [] at h
            split at h
            · cases h
            · next hexp =>
              split at h
              · next hck =>
                injection h with h
                injection h with h12 h13
                unfold finalCheck at hck
                simp only [Bool.and_eq_true, decide_eq_true_eq] at hck
                refine ⟨s2, h10.1, h10.2, h13, ⟨e, h11, h12⟩, hck.1, by rw [← h12]; exact hck.2, ?_⟩
                intro x hx
                by_contra hne
                apply hexp
                refine ⟨by rw [hx]; simp, ?_⟩
                rw [hx, h12]
                intro he
                injection he with he
                exact hne he
              · cases h

theorem sole_key {u : Table Nat Int} {a b : Nat} {v : Int} (h : u.length = 1) (h1 : get u a = some v) (h2 : (get u b).isSome) : a = b := by
  match u, h with
  | [(k, w)], _ =>
    simp only [Table.get] at h1 h2
    split at h1
    · next ha =>
      split at h2
      · next hb => rw [← ha, ← hb]
      · cases h2
    · cases h1

/-- The cells of an accepted file. -/
theorem sound (hl : Laws H) {crcOk : Bool} {per perBatch : Nat} {expected : Option Nat} {file : List Nat} {root : Nat} {rows : Table Nat (List Nat)}
    (hper : per ≤ 10000) (hb : IsBytes file) (h : importState H crcOk per perBatch expected file = some (root, rows)) :
    (∀ x, expected = some x → x = root) ∧ ∃ hd cs, fileCells H file = some (hd, cs) ∧
      (∃ b es e, CellIn H hd.refSize cs 0 b es e ∧ H.repr e = root) ∧
      (∀ i, i < cs.length → ∃ b es e, CellIn H hd.refSize cs i b es e ∧ (get rows (H.repr e)).isSome) ∧
      (∀ g row, get rows g = some row → ∃ i b es e, CellIn H hd.refSize cs i b es e ∧ H.repr e = g ∧ row = rowBytes H b e (es.map H.repr) ∧
        cellOf H rows g = some (b, es.map H.repr) ∧ ∀ c ∈ es, (get rows (H.repr c)).isSome) ∧
      (NoCollision H hd.refSize cs hd.refSize cs → ∀ g, (get rows g).isSome ↔ Reach (cellOf H rows) root g) := by
  obtain ⟨hd, cs, hfile, s, hi, hidx, hrows, ⟨e0, hcur, htop⟩, hlen, hkey, hexp⟩ := import_some hper hb h
  subst hrows
  have hrow : ∀ g row, get s.rows g = some row → ∃ i b es e, IsCell hd.refSize cs s i b es e ∧ H.repr e = g ∧ row = rowBytes H b e (es.map H.repr) ∧
        cellOf H s.rows g = some (b, es.map H.repr) ∧ ∀ c ∈ es, (get s.rows (H.repr c)).isSome := by
    intro g row hg
    obtain ⟨i, b, es, e, h1, h2, h3⟩ := hi.rows g row hg
    refine ⟨i, b, es, e, h1, h2, h3, ?_, ?_⟩
    · unfold cellOf
      rw [hg, Option.bind_some, h3]
      apply loadTemp_row hl h1.2.1 (by simpa using h1.fits)
      intro x hx
      obtain ⟨c, hc, rfl⟩ := List.mem_map.1 hx
      obtain ⟨j, _, hj⟩ := h1.child c hc
      obtain ⟨_, _, b', es', h5⟩ := hi.cells j c hj
      exact hl.repr _ _ _ h5.2.1
    · intro c hc
      obtain ⟨j, _, hj⟩ := h1.child c hc
      exact hi.row j c hj
  have hcur0 : get s.entries s.index = some e0 := by rw [← hi.cur, hcur]
  have hroot : H.repr e0 = root := by
    rcases hi.use s.index e0 hcur0 with ⟨v, _, hv⟩ | ⟨j, b, es, e, h1, _, h3⟩
    · exact sole_key hlen hv hkey
    · have h4 := h3 s.index e0 hcur0 rfl
      have h5 := (hi.cells j e h1.1).1
      omega
  refine ⟨hexp, hd, cs, hfile, ?_, ?_, ?_, ?_⟩
  · obtain ⟨_, _, b, es, h1⟩ := hi.cells s.index e0 hcur0
    rw [hidx] at h1
    exact ⟨b, es, e0, cellIn_of hi h1, hroot⟩
  · intro i hlt
    obtain ⟨e, he⟩ := Option.isSome_iff_exists.1 (hi.all i (by omega) hlt)
    obtain ⟨_, _, b, es, h1⟩ := hi.cells i e he
    exact ⟨b, es, e, cellIn_of hi h1, hi.row i e he⟩
  · intro g row hg
    obtain ⟨i, b, es, e, h1, h2⟩ := hrow g row hg
    exact ⟨i, b, es, e, cellIn_of hi h1, h2⟩
  · intro hnc g
    constructor
    · have key : ∀ n i e, i ≤ n → get s.entries i = some e → Reach (cellOf H s.rows) root (H.repr e) := by
        intro n
        induction n with
        | zero =>
          intro i e hn hg
          rcases hi.use i e hg with ⟨v, _, hv⟩ | ⟨j, b, es, ej, h1, _, h3⟩
          · rw [sole_key hlen hv hkey]; exact .refl _
          · have := h3 i e hg rfl; omega
        | succ n ih =>
          intro i e hn hg
          rcases hi.use i e hg with ⟨v, _, hv⟩ | ⟨j, b, es, ej, h1, h2, h3⟩
          · rw [sole_key hlen hv hkey]; exact .refl _
          · have hj := h3 i e hg rfl
            have hr := ih j ej (by omega) h1.1
            obtain ⟨row, hrw⟩ := Option.isSome_iff_exists.1 (hi.row j ej h1.1)
            obtain ⟨i', b', es', e', h4, h5, _, h7, _⟩ := hrow _ row hrw
            have h8 := hnc _ _ _ _ _ _ _ _ (cellIn_of hi h1) (cellIn_of hi h4) h5.symm
            refine .step hr h7 ?_
            rw [← h8.2]
            exact h2
      intro hg
      obtain ⟨row, hrw⟩ := Option.isSome_iff_exists.1 hg
      obtain ⟨i, b, es, e, h1, h2, _⟩ := hi.rows g row hrw
      rw [← h2]
      exact key i i e (Nat.le_refl _) h1.1
    · intro hr
      induction hr with
      | refl =>
        rw [← hroot]
        exact hi.row s.index e0 hcur0
      | step h4 h5 h6 ih =>
        obtain ⟨row, hrw⟩ := Option.isSome_iff_exists.1 ih
        obtain ⟨_, b, es, e, _, _, _, h7, h8⟩ := hrow _ row hrw
        rw [h7] at h5
        injection h5 with h5
        injection h5 with h5 h9
        subst h9
        obtain ⟨c, hc, rfl⟩ := List.mem_map.1 h6
        exact h8 c hc

end Tycho.StateFile
