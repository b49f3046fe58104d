import Verif.StateFile.Sound
/-! A state that is written to a file and imported again. -/
namespace Tycho.StateFile
open Tycho.Bytes Tycho.Codec Tycho.Table
variable {H : Hasher}

/-- The content of one stored cell: the row is the one `finalize_cell` makes for content with this hash. -/
structure Stored (H : Hasher) (db : Nat → Option (List Nat)) (ent : Nat → H.Entry) (h : Nat) (b : Body) (refs : List Nat) : Prop where
  row : db h = some (rowBytes H b (ent h) refs)
  built : H.build b (refs.map ent) = some (ent h)
  hash : H.repr (ent h) = h
  fits : Fits b refs.length
  normal : Normal b
  byte : b.d2 < 256
  few : refs.length ≤ 4

/-- The tree of `root` is stored. -/
structure Content (H : Hasher) (db : Nat → Option (List Nat)) (ent : Nat → H.Entry) (root : Nat) : Prop where
  cells : ∀ h, Reach (dbCell H db) root h → ∃ b refs, Stored H db ent h b refs ∧ ∀ c ∈ refs, c < 256 ^ 32
  top : H.top (ent root) = root

theorem Stored.cell (hl : Laws H) {db : Nat → Option (List Nat)} {ent : Nat → H.Entry} {h : Nat} {b : Body} {refs : List Nat}
    (hs : Stored H db ent h b refs) (hr : ∀ c ∈ refs, c < 256 ^ 32) : dbCell H db h = some (b.clear, refs) := by
  unfold dbCell
  rw [hs.row, Option.bind_some]
  exact deserialize_row hl hs.built hs.fits hs.normal hr

/-- A cell as it is in the file. -/
def fileCell (cell : Nat → Option (Body × List Nat)) (order : List Nat) (h : Nat) : List Nat := match cell h with
  | some (b, refs) => cellBytes b (refs.map (fun c => order.length - order.idxOf c - 1))
  | none => []

/-- The row of a cell after the import. -/
def rowOf (H : Hasher) (cell : Nat → Option (Body × List Nat)) (ent : Nat → H.Entry) (h : Nat) : List Nat := match cell h with
  | some (b, refs) => rowBytes H b (ent h) refs
  | none => []

/-- What is known of the list of cells that the writer made. -/
structure Listed (H : Hasher) (cell : Nat → Option (Body × List Nat)) (ent : Nat → H.Entry) (order : List Nat) : Prop where
  nodup : order.Nodup
  closed : ∀ j h, order[j]? = some h → ∃ b refs, cell h = some (b, refs) ∧ (∀ c ∈ refs, c ∈ order.take j) ∧ H.build b (refs.map ent) = some (ent h) ∧
    H.repr (ent h) = h ∧ Good b (refs.map (fun c => order.length - order.idxOf c - 1)) ∧ b.d2 < 256

theorem idxOf_take {order : List Nat} (hn : order.Nodup) {j c : Nat} (h : c ∈ order.take j) : order.idxOf c < j ∧ order[order.idxOf c]? = some c := by
  obtain ⟨k, hk, hke⟩ := List.getElem_of_mem h
  have hk2 : k < order.length := by rw [List.length_take] at hk; omega
  have hk3 : order[k] = c := by rw [List.getElem_take] at hke; exact hke
  have h1 : order.idxOf c = k := by rw [← hk3]; exact List.Nodup.idxOf_getElem hn k hk2
  rw [h1]
  refine ⟨by rw [List.length_take] at hk; omega, by rw [List.getElem?_eq_getElem hk2, hk3]⟩

theorem parseCell_of {count index : Nat} {b : Body} {refs : List Nat} (hg : Good b refs) (hr : ∀ r ∈ refs, index < r ∧ r < count) :
    parseCell 4 count index (cellBytes b refs) = some (b, refs) := by
  unfold parseCell cellBytes
  simp only []
  rw [Rd.bind_of (rdBytes_append' (by rfl) _)]
  simp only [List.getD_cons_zero, List.getD_cons_succ]
  rw [Rd.ite_run, if_neg (by rw [hg.absent]; have := hg.few; simp; omega)]
  rw [Rd.bind_of (rdBytes_append' hg.fits.data _), ← hg.fits.refs]
  have h1 := rdMany_be hg.small []
  rw [List.append_nil] at h1
  have h2 : checkRefs count index refs = true := by
    unfold checkRefs
    rw [List.all_eq_true]
    intro r hrr
    simp [hr r hrr]
  rw [Rd.bind_of h1, h2, if_pos rfl, Rd.pure_run]
  rfl

theorem addUse_ge (hs : List Nat) : ∀ (u : Table Nat Int), (∀ h v, get u h = some v → -1 ≤ v) →
    (∀ h v, get (hs.foldl addUse u) h = some v → -1 ≤ v) ∧ ∀ h v, h ∈ hs → get (hs.foldl addUse u) h = some v → 0 ≤ v := by
  -- a value never goes down
  have mono : ∀ (l : List Nat) (u : Table Nat Int) (h : Nat) (w : Int), (∀ v, get u h = some v → w ≤ v) → w ≤ 1 → (h ∉ l ∨ w ≤ 0) → (∀ g v, get u g = some v → -1 ≤ v) →
      ∀ v, get (l.foldl addUse u) h = some v → w ≤ v := by
    intro l
    induction l with
    | nil => intro u h w h1 _ _ _ v hv; exact h1 v hv
    | cons x l ih =>
      intro u h w h1 h2 h3 h4 v hv
      rw [List.foldl_cons] at hv
      refine ih (addUse u x) h w ?_ h2 ?_ ?_ v hv
      · intro v' hv'
        unfold addUse at hv'
        rw [get_put] at hv'
        split at hv'
        · next he =>
          subst he
          injection hv' with hv'
          cases hg : get u h with
          | none =>
            rw [hg] at hv'
            simp only [Option.getD_none] at hv'
            omega
          | some q =>
            rw [hg] at hv'
            simp only [Option.getD_some] at hv'
            have := h1 q hg
            omega
        · exact h1 v' hv'
      · rcases h3 with h3 | h3
        · exact Or.inl (fun hm => h3 (List.mem_cons_of_mem _ hm))
        · exact Or.inr h3
      · intro g v' hv'
        unfold addUse at hv'
        rw [get_put] at hv'
        split at hv'
        · next he =>
          subst he
          injection hv' with hv'
          cases hg : get u g with
          | none => rw [hg] at hv'; simp only [Option.getD_none] at hv'; omega
          | some q => rw [hg] at hv'; simp only [Option.getD_some] at hv'; have := h4 g q hg; omega
        · exact h4 g v' hv'
  intro u hu
  refine ⟨fun h v hv => mono hs u h (-1) (hu h) (by decide) (Or.inr (by decide)) hu v hv, ?_⟩
  induction hs generalizing u with
  | nil => intro h v hm; cases hm
  | cons x hs ih =>
    intro h v hm hv
    rw [List.foldl_cons] at hv
    have hu' : ∀ g v, get (addUse u x) g = some v → -1 ≤ v := by
      intro g v' hv'
      exact mono [x] u g (-1) (hu g) (by decide) (Or.inr (by decide)) hu v' hv'
    rcases List.mem_cons.1 hm with hm | hm
    · subst hm
      refine mono hs (addUse u h) h 0 ?_ (by decide) (Or.inr (by decide)) hu' v hv
      intro v' hv'
      unfold addUse at hv'
      rw [get_put, if_pos rfl] at hv'
      injection hv' with hv'
      cases hg : get u h with
      | none => rw [hg] at hv'; simp only [Option.getD_none] at hv'; omega
      | some q => rw [hg] at hv'; simp only [Option.getD_some] at hv'; have := hu h q hg; omega
    · exact ih (addUse u x) hu' h v hm hv

section
variable {cell : Nat → Option (Body × List Nat)} {ent : Nat → H.Entry} {order : List Nat}

/-- The import after the first `k` cells of the list. -/
structure PInv (cell : Nat → Option (Body × List Nat)) (ent : Nat → H.Entry) (order : List Nat) (k : Nat) (s : FSt H) : Prop where
  le : k ≤ order.length
  idx : s.index = order.length - k
  ents : ∀ m h, m < k → order[m]? = some h → get s.entries (order.length - m - 1) = some (ent h)
  rows : ∀ h, get s.rows h = if h ∈ order.take k then some (rowOf H cell ent h) else none
  use : ∀ h v, get s.usages h = some v → v < 0 → h ∈ order.take k ∧ ∀ p ∈ order.take k, ∀ b refs, cell p = some (b, refs) → h ∉ refs
  ge : ∀ h v, get s.usages h = some v → -1 ≤ v
  last : ∀ h, 0 < k → order[k - 1]? = some h → get s.usages h = some (-1)
  uniq : Uniq s.usages
  cur : ∀ h, 0 < k → order[k - 1]? = some h → s.cur = some (ent h)
  clean : s.batch = 0 → ∀ h v, get s.usages h = some v → v < 0

theorem pinv_step (ho : Listed H cell ent order) {k : Nat} {s : FSt H} (hi : PInv cell ent order k s) {h : Nat} (hk : order[k]? = some h) :
    ∃ s', finalizeCell H 4 order.length s (fileCell cell order h) = some s' ∧ PInv cell ent order (k + 1) s' ∧ 0 < s'.batch := by
  obtain ⟨b, refs, hc, hin, hb, hrep, hgood, _⟩ := ho.closed k h hk
  have hklt : k < order.length := by
    rcases Nat.lt_or_ge k order.length with h1 | h1
    · exact h1
    · rw [List.getElem?_eq_none h1] at hk; cases hk
  have htake : order.take (k + 1) = order.take k ++ [h] := by
    rw [List.take_add_one, hk]; rfl
  have hnot : h ∉ order.take k := by
    intro hm
    obtain ⟨h1, h2⟩ := idxOf_take ho.nodup hm
    have h3 : order.idxOf h = k := by
      have h4 := List.getElem?_eq_getElem hklt
      rw [hk] at h4
      injection h4 with h4
      rw [h4]; exact List.Nodup.idxOf_getElem ho.nodup k hklt
    omega
  unfold finalizeCell
  rw [if_neg (by rw [hi.idx]; omega)]
  have hfc : fileCell cell order h = cellBytes b (refs.map (fun c => order.length - order.idxOf c - 1)) := by unfold fileCell; rw [hc]
  have hpos : ∀ c ∈ refs, order.idxOf c < k ∧ order[order.idxOf c]? = some c := fun c hcc => idxOf_take ho.nodup (hin c hcc)
  rw [hfc, parseCell_of hgood (by
    intro r hr
    obtain ⟨c, hcc, rfl⟩ := List.mem_map.1 hr
    have := (hpos c hcc).1
    rw [hi.idx]; omega)]
  simp only []
  have hch : childEntries s.entries (refs.map (fun c => order.length - order.idxOf c - 1)) = some (refs.map ent) := by
    apply childEntries_of
    clear hc hb hgood hfc hin
    induction refs with
    | nil => exact .nil
    | cons c refs ih =>
      refine .cons ?_ (ih (fun x hx => hpos x (List.mem_cons_of_mem _ hx)))
      obtain ⟨h1, h2⟩ := hpos c List.mem_cons_self
      exact hi.ents _ c h1 h2
  rw [hch]
  simp only [hb]
  have hreps : (refs.map ent).map H.repr = refs := by
    rw [List.map_map]
    have : ∀ c ∈ refs, (H.repr ∘ ent) c = id c := by
      intro c hcc
      obtain ⟨_, _, _, _, _, h5, _⟩ := ho.closed _ c (hpos c hcc).2
      exact h5
    rw [List.map_congr_left this, List.map_id]
  obtain ⟨hge, hge0⟩ := addUse_ge refs s.usages hi.ge
  refine ⟨_, rfl, ⟨by omega, ?_, ?_, ?_, ?_, ?_, ?_, ?_, ?_, fun h => absurd h (Nat.succ_ne_zero _)⟩, Nat.succ_pos _⟩
  · simp only [hi.idx]; omega
  · intro m g hm hg
    simp only [get_put]
    rcases Nat.lt_or_ge m k with h1 | h1
    · rw [if_neg (by rw [hi.idx]; omega)]; exact hi.ents m g h1 hg
    · have : m = k := by omega
      subst this
      rw [hk] at hg
      injection hg with hg
      rw [if_pos (by rw [hi.idx]), hg]
  · intro g
    simp only [get_put, hrep, hreps, htake]
    split
    · next h1 =>
      subst h1
      rw [if_pos (by simp)]
      unfold rowOf
      rw [hc]
    · next h1 =>
      rw [hi.rows g]
      simp [h1]
  · intro g v hg hv
    simp only [get_put, hrep, hreps] at hg
    split at hg
    · next h1 =>
      subst h1
      refine ⟨by rw [htake]; simp, ?_⟩
      intro p hp b' refs' hpc hm
      obtain ⟨h2, h3⟩ := idxOf_take ho.nodup hp
      obtain ⟨b2, r2, h4, h5, _⟩ := ho.closed _ p h3
      rw [hpc] at h4
      injection h4 with h4
      injection h4 with h4 h6
      subst h6
      have h7 := idxOf_take ho.nodup (h5 g hm)
      have h8 : order.idxOf g = k := by
        have h9 := List.getElem?_eq_getElem hklt
        rw [hk] at h9
        injection h9 with h9
        rw [h9]; exact List.Nodup.idxOf_getElem ho.nodup k hklt
      omega
    · next h1 =>
      by_cases hm : g ∈ refs
      · have := hge0 g v hm hg
        omega
      · rw [get_addUse_foldl _ _ _ hm] at hg
        obtain ⟨h2, h3⟩ := hi.use g v hg hv
        refine ⟨by rw [htake]; exact List.mem_append.2 (Or.inl h2), ?_⟩
        intro p hp b' refs' hpc
        rw [htake] at hp
        rcases List.mem_append.1 hp with hp | hp
        · exact h3 p hp b' refs' hpc
        · obtain rfl := List.mem_singleton.1 hp
          rw [hc] at hpc
          injection hpc with hpc
          injection hpc with h4 h5
          rw [← h5]; exact hm
  · intro g v hg
    simp only [get_put, hreps] at hg
    split at hg
    · injection hg with hg; omega
    · exact hge g v hg
  · intro g _ hg
    simp only [Nat.add_sub_cancel] at hg
    rw [hk] at hg
    injection hg with hg
    simp only [get_put, hrep]
    rw [if_pos hg.symm]
  · exact uniq_put _ _ _ (uniq_addUse_foldl _ _ hi.uniq)
  · intro g _ hg
    simp only [Nat.add_sub_cancel] at hg
    rw [hk] at hg
    injection hg with hg
    simp only [hg]

theorem pinv_batch {k : Nat} {s : FSt H} (hi : PInv cell ent order k s) : PInv cell ent order k (endBatch H s) := by
  refine ⟨hi.le, hi.idx, hi.ents, hi.rows, ?_, ?_, ?_, uniq_retain _ hi.uniq, hi.cur, fun _ h v hg => ((get_retain _ hi.uniq _ _).1 hg).2⟩
  · intro h v hg hv
    exact hi.use h v ((get_retain _ hi.uniq _ _).1 hg).1 hv
  · intro h v hg
    exact hi.ge h v ((get_retain _ hi.uniq _ _).1 hg).1
  · intro h hk hh
    exact (get_retain _ hi.uniq _ _).2 ⟨hi.last h hk hh, by decide⟩

theorem pinv_cells (ho : Listed H cell ent order) : ∀ (l : List Nat) (k : Nat) (s : FSt H) (rest : List Nat), PInv cell ent order k s → order.drop k = l ++ rest →
    ∃ s', finalizeCells H 4 order.length (l.map (fileCell cell order)) s = some s' ∧ PInv cell ent order (k + l.length) s' := by
  intro l
  induction l with
  | nil => intro k s rest hi _; exact ⟨s, rfl, hi⟩
  | cons h l ih =>
    intro k s rest hi hd
    have hk : order[k]? = some h := by
      have := congrArg List.head? hd
      simpa [List.head?_drop] using this
    obtain ⟨s1, h1, h2, _⟩ := pinv_step ho hi hk
    obtain ⟨s2, h3, h4⟩ := ih (k + 1) s1 rest h2 (by
      rw [← List.drop_drop, hd]; rfl)
    refine ⟨s2, ?_, by rw [List.length_cons, show k + (l.length + 1) = k + 1 + l.length from by omega]; exact h4⟩
    rw [List.map_cons, finalizeCells, h1]
    exact h3

theorem pinv_chunks (ho : Listed H cell ent order) (per : Nat) : ∀ (chs : List (List (List Nat))) (k : Nat) (s : FSt H), PInv cell ent order k s →
    chs.flatten = (order.drop k).map (fileCell cell order) →
    ∃ s', finalizeChunks H per 4 order.length chs s = some s' ∧ PInv cell ent order order.length s' := by
  intro chs
  induction chs with
  | nil =>
    intro k s hi hf
    have : order.drop k = [] := by simpa using hf.symm
    have h1 : k = order.length := by
      have := List.drop_eq_nil_iff.1 this
      have := hi.le
      omega
    subst h1
    exact ⟨s, rfl, hi⟩
  | cons ch chs ih =>
    intro k s hi hf
    rw [List.flatten_cons] at hf
    obtain ⟨l1, l2, h1, h2, h3⟩ := List.map_eq_append_iff.1 hf.symm
    obtain ⟨s1, h4, h5⟩ := pinv_cells ho l1 k s l2 hi h1
    have h6 : PInv cell ent order (k + l1.length) (if per < s1.batch then endBatch H s1 else s1) := by
      split
      · exact pinv_batch h5
      · exact h5
    obtain ⟨s2, h7, h8⟩ := ih (k + l1.length) _ h6 (by
      rw [← List.drop_drop, h1, List.drop_left, ← h3])
    refine ⟨s2, ?_, h8⟩
    rw [finalizeChunks, ← h2, h4]
    exact h7

theorem pinv_start : PInv cell ent order 0 (⟨[], [], [], none, order.length, 0⟩ : FSt H) := by
  refine ⟨Nat.zero_le _, rfl, ?_, ?_, ?_, ?_, ?_, uniq_nil, ?_, fun _ h v hg => by cases hg⟩
  · intro m h hm; omega
  · intro h; simp [Table.get]
  · intro h v hg; cases hg
  · intro h v hg; cases hg
  · intro h h0; omega
  · intro h h0; omega

theorem length_one {u : Table Nat Int} {r : Nat} (hu : Uniq u) (h1 : (get u r).isSome) (h2 : ∀ h v, get u h = some v → h = r) : u.length = 1 := by
  match u with
  | [] => cases h1
  | [_] => rfl
  | (a, v) :: (b, w) :: l =>
    exfalso
    have ha := h2 a v ((mem_iff_get _ hu a v).1 (by simp))
    have hb := h2 b w ((mem_iff_get _ hu b w).1 (by simp))
    unfold Uniq at hu
    simp only [List.map_cons, List.nodup_cons, List.mem_cons] at hu
    exact hu.1 (Or.inl (by rw [ha, hb]))

/-- The import of the listed cells. -/
theorem finalize_ok (ho : Listed H cell ent order) {root : Nat} (hroot : order.getLast? = some root) (htop : H.top (ent root) = root)
    (hpar : ∀ h ∈ order, h = root ∨ ∃ p ∈ order, ∃ b refs, cell p = some (b, refs) ∧ h ∈ refs) (chunks : List (List (List Nat)))
    (hfl : chunks.flatten = (order.map (fileCell cell order)).reverse) (hsz : ∀ cs ∈ chunks, (cs.flatMap fun c => c ++ [c.length]).length < 256 ^ 4)
    (perBatch : Nat) (expected : Option Nat) (he : expected = none ∨ expected = some root) :
    ∃ rows, finalize H perBatch expected ⟨false, 4, order.length⟩ (chunks.flatMap chunkBytes) = some (root, rows) ∧
      ∀ h, get rows h = if h ∈ order then some (rowOf H cell ent h) else none := by
  have hlen : chunks.length ≤ (chunks.flatMap chunkBytes).length := by
    clear hfl hsz
    induction chunks with
    | nil => simp
    | cons c cs ih =>
      simp only [List.flatMap_cons, List.length_append, List.length_cons]
      have : 4 ≤ (chunkBytes c).length := by unfold chunkBytes; simp
      omega
  have hsplit := splitFile_of chunks.reverse ((chunks.flatMap chunkBytes).length + 1) (by simpa using Nat.lt_succ_of_le hlen)
    (fun cs hcs => hsz cs (by simpa using hcs))
  rw [List.reverse_reverse] at hsplit
  unfold finalize
  rw [hsplit]
  simp only []
  obtain ⟨s, h1, hi⟩ := pinv_chunks ho perBatch (chunks.reverse.map List.reverse) 0 _ pinv_start (by
    rw [List.drop_zero]
    have : (chunks.reverse.map List.reverse).flatten = chunks.flatten.reverse := by
      rw [List.reverse_flatten, List.map_reverse]
    rw [this, hfl, List.reverse_reverse])
  rw [h1]
  simp only []
  have hlast : order[order.length - 1]? = some root := by rw [← List.getLast?_eq_getElem?]; exact hroot
  have hpos : 0 < order.length := by
    cases ho2 : order with
    | nil => rw [ho2] at hroot; cases hroot
    | cons a l => simp
  have h4 : PInv cell ent order order.length (if 0 < s.batch then endBatch H s else s) ∧
      ∀ h v, get (if 0 < s.batch then endBatch H s else s).usages h = some v → v < 0 := by
    split
    · exact ⟨pinv_batch hi, fun h v hg => ((get_retain _ hi.uniq _ _).1 hg).2⟩
    · next hb => exact ⟨hi, hi.clean (by omega)⟩
  generalize (if 0 < s.batch then endBatch H s else s) = s2 at h4
  obtain ⟨hi2, hneg⟩ := h4
  rw [hi2.cur root hpos hlast]
  simp only [htop]
  rw [if_neg (by
    rintro ⟨h5, h6⟩
    rcases he with he | he
    · exact h5 he
    · exact h6 he)]
  have hkey : (get s2.usages root).isSome := by rw [hi2.last root hpos hlast]; rfl
  have hone : s2.usages.length = 1 := by
    apply length_one hi2.uniq hkey
    intro h v hg
    obtain ⟨h5, h6⟩ := hi2.use h v hg (hneg h v hg)
    rw [List.take_length] at h5 h6
    rcases hpar h h5 with h7 | ⟨p, hp, b, refs, h8, h9⟩
    · exact h7
    · exact absurd h9 (h6 p hp b refs h8)
  have hck : finalCheck s2.usages root = true := by unfold finalCheck; simp [hone, hkey]
  rw [hck, if_pos rfl]
  refine ⟨s2.rows, rfl, fun h => ?_⟩
  rw [hi2.rows h, List.take_length]

end

/-- The size of the cells in the file. -/
def cellsSize (cell : Nat → Option (Body × List Nat)) (order : List Nat) : Nat :=
  (order.map (fun h => match cell h with
    | some (b, refs) => 2 + b.data.length + 4 * refs.length
    | none => 0)).sum

theorem mem_chunksOf {per : Nat} : ∀ (fuel : Nat) (l : List (List Nat)) (cs : List (List Nat)), cs ∈ chunksOf per fuel l →
    cs.length ≤ per ∧ ∀ c ∈ cs, c ∈ l := by
  intro fuel
  induction fuel with
  | zero => intro l cs h; cases h
  | succ fuel ih =>
    intro l cs h
    unfold chunksOf at h
    split at h
    · cases h
    · rcases List.mem_cons.1 h with h | h
      · subst h
        exact ⟨by simp [Nat.min_le_left], fun c hc => List.mem_of_mem_take hc⟩
      · obtain ⟨h1, h2⟩ := ih _ _ h
        exact ⟨h1, fun c hc => List.mem_of_mem_drop (h2 c hc)⟩

theorem flatMap_size_bound (cs : List (List Nat)) (m : Nat) (h : ∀ c ∈ cs, c.length ≤ m) :
    (cs.flatMap fun c => c ++ [c.length]).length ≤ cs.length * (m + 1) := by
  induction cs with
  | nil => simp
  | cons c cs ih =>
    have h1 := h c List.mem_cons_self
    have h2 := ih (fun x hx => h x (List.mem_cons_of_mem _ hx))
    simp only [List.flatMap_cons, List.length_append, List.length_cons, List.length_nil, Nat.succ_mul]
    omega

/-- A stored state is written to a file; the file is accepted and gives the same cells. -/
theorem trip (hl : Laws H) {db : Nat → Option (List Nat)} {ent : Nat → H.Entry} {rank : Nat → Nat} {root : Nat}
    (hc : Content H db ent root) (hrank : ∀ h b refs c, Reach (dbCell H db) root h → dbCell H db h = some (b, refs) → c ∈ refs → rank c < rank h) :
    ∃ file order, (∀ fuel, 2 + 2 * edges (dbCell H db) order ≤ fuel → writeState H db root fuel = some file) ∧ order.Nodup ∧
      (∀ h, h ∈ order ↔ Reach (dbCell H db) root h) ∧
      (order.length < 2 ^ 31 → cellsSize (dbCell H db) order ≤ 100 * 2 ^ 30 →
        order.getLast? = some root ∧ Listed H (dbCell H db) ent order ∧
        fileCells H file = some (⟨false, 4, order.length⟩, (order.map (fileCell (dbCell H db) order)).reverse) ∧
        ∀ crcOk per perBatch expected, 0 < per → per ≤ 10000 →
        (expected = none ∨ expected = some root) →
        ∃ rows, importState H crcOk per perBatch expected file = some (root, rows) ∧
          ∀ h, get rows h = if h ∈ order then some (rowOf H (dbCell H db) ent h) else none) := by
  have hcell : ∀ h, Reach (dbCell H db) root h → ∃ b refs, Stored H db ent h b refs ∧ dbCell H db h = some (b.clear, refs) := by
    intro h hr
    obtain ⟨b, refs, h1, h2⟩ := hc.cells h hr
    exact ⟨b, refs, h1, h1.cell hl h2⟩
  have hd : Dag (dbCell H db) rank root := ⟨fun h hr => by
    obtain ⟨b, refs, _, h2⟩ := hcell h hr
    rw [h2]; rfl, hrank⟩
  obtain ⟨k, s, order, h1, h2, h3, h4, h5, h6, h7, h8⟩ := walk_end (H := H) (db := db) hd (fun _ => rfl)
  refine ⟨fileBytes s.out, order, ?_, h4, h5, ?_⟩
  · intro fuel hf
    have hrun : wrun H db fuel (wstart root) = some s := by
      rw [show fuel = k + (fuel - k) from by omega, wrun_add, h1, Option.bind_some, wrun_done _ _ h2]
    unfold writeState
    rw [hrun]
    simp [h2]
  · intro hcount hsize
    have hpos : 0 < order.length := by
      cases ho2 : order with
      | nil => rw [ho2] at h6; cases h6
      | cons a l => simp
    -- the cells of the list
    have hlisted : Listed H (dbCell H db) ent order := by
      refine ⟨h4, fun j h hj => ?_⟩
      obtain ⟨b, refs, h9, h10⟩ := hcell h ((h5 h).1 (List.mem_of_getElem? hj))
      obtain ⟨b', refs', h11, h12⟩ := h7 j h hj
      rw [h10] at h11
      injection h11 with h11
      injection h11 with h13 h14
      subst h14
      refine ⟨b.clear, refs, h10, h12, by rw [hl.clear]; exact h9.built, h9.hash, ⟨⟨h9.fits.data, ?_⟩, notStored_clear _, ?_, ?_, ?_⟩, h9.byte⟩
      · rw [List.length_map]
        change refs.length = refCount (clearStored b.d1)
        rw [refCount_clear]; exact h9.fits.refs
      · have h15 := h9.few
        rw [h9.fits.refs] at h15
        change isAbsent (clearStored b.d1) = false
        rw [← refCount_clear] at h15
        unfold isAbsent
        rw [beq_eq_false_iff_ne]
        intro he
        rw [he] at h15
        revert h15; decide
      · change refCount (clearStored b.d1) ≤ 4
        rw [refCount_clear, ← h9.fits.refs]; exact h9.few
      · intro x hx
        obtain ⟨c, _, rfl⟩ := List.mem_map.1 hx
        have : (2 : Nat) ^ 31 < 256 ^ 4 := by decide
        omega
    have hcellOf : ∀ h ∈ order, ∃ b refs, dbCell H db h = some (b, refs) ∧ Fits b refs.length ∧ b.d2 < 256 ∧ refs.length ≤ 4 ∧
        Good b (refs.map (fun c => order.length - order.idxOf c - 1)) ∧ ∀ c ∈ refs, order.idxOf c < order.length := by
      intro h hm
      obtain ⟨j, hj⟩ := List.getElem?_of_mem hm
      obtain ⟨b, refs, h9, h10, _, _, h11, h12⟩ := hlisted.closed j h hj
      have h13 := h11.fits
      rw [List.length_map] at h13
      refine ⟨b, refs, h9, h13, h12, by rw [h13.refs]; exact h11.few, h11, fun c hcc => ?_⟩
      exact List.idxOf_lt_length_of_mem (List.mem_of_mem_take (h10 c hcc))
    have hout : s.out.reverse.map (remapCell s.out.length) = (order.map (fileCell (dbCell H db) order)).reverse := by
      rw [h3, ← List.map_reverse]
      have hlen : (outOf (dbCell H db) order).length = order.length := by simp [outOf]
      rw [hlen]
      unfold outOf
      rw [List.map_reverse, List.map_reverse, List.map_map]
      congr 1
      apply List.map_congr_left
      intro h hm
      obtain ⟨b, refs, h9, h10, _, _, _, h11⟩ := hcellOf h hm
      simp only [Function.comp, fileCell, h9]
      rw [remapCell_of _ (by simpa using h10) (by
        intro x hx
        obtain ⟨c, hcc, rfl⟩ := List.mem_map.1 hx
        have := h11 c hcc
        have : (2 : Nat) ^ 31 < 256 ^ 4 := by decide
        omega), List.map_map]
      rfl
    have hlen : s.out.length = order.length := by rw [h3]; simp [outOf]
    have hsum : (s.out.map List.length).sum = cellsSize (dbCell H db) order := by
      rw [h3]
      unfold outOf cellsSize
      rw [List.map_map]
      congr 1
      apply List.map_congr_left
      intro h hm
      obtain ⟨b, refs, h9, _⟩ := hcellOf h hm
      simp only [Function.comp, h9]
      rw [cellBytes_length, List.length_map]
    have hsizes : Sizes s.out := by
      have hsp : 0 < cellsSize (dbCell H db) order := by
        cases ho2 : order with
        | nil => rw [ho2] at hpos; cases hpos
        | cons a l =>
          obtain ⟨b, refs, h9, _⟩ := hcellOf a (by rw [ho2]; exact List.mem_cons_self)
          unfold cellsSize
          rw [List.map_cons, List.sum_cons, h9]
          simp only []
          omega
      refine ⟨by omega, by omega, by omega, by omega, ?_⟩
      rw [hlen, hsum]
      have h9 : bytesToFit (cellsSize (dbCell H db) order) ≤ 5 := by
        unfold bytesToFit
        rw [if_neg (by omega)]
        have : (cellsSize (dbCell H db) order).log2 < 37 := by
          rw [Nat.log2_lt (by omega)]
          exact Nat.lt_of_le_of_lt hsize (by decide)
        omega
      have := Nat.mul_le_mul_left order.length h9
      omega
    have hgoodcells : ∀ c ∈ (order.map (fileCell (dbCell H db) order)).reverse, (∀ r, readCell H 4 (c ++ r) = some (c, r)) ∧ c.length ≤ 146 := by
      intro c hcm
      rw [List.mem_reverse] at hcm
      obtain ⟨h, hm, rfl⟩ := List.mem_map.1 hcm
      obtain ⟨b, refs, h9, h10, h11, h12, h13, _⟩ := hcellOf h hm
      have he : fileCell (dbCell H db) order h = cellBytes b (refs.map (fun c => order.length - order.idxOf c - 1)) := by unfold fileCell; rw [h9]
      rw [he]
      refine ⟨fun r => readCell_of h13 r, ?_⟩
      rw [cellBytes_length, h10.data, List.length_map]
      unfold byteLen
      omega
    refine ⟨h6, hlisted, ?_, ?_⟩
    · unfold fileCells
      rw [readHeader_file hsizes, hout, hlen]
      simp only []
      have hm : ∀ l : List (List Nat), (∀ c ∈ l, ∀ r, readCell H 4 (c ++ r) = some (c, r)) → rdMany (readCell H 4) l.length l.flatten = some (l, []) := by
        intro l hall
        have h20 := rdMany_append (enc := fun c : List Nat => c) (dec := readCell H 4) (P := fun c => ∀ r, readCell H 4 (c ++ r) = some (c, r))
          (fun c hP r => hP r) l hall []
        simpa using h20
      have h21 := hm _ (fun c hcm => (hgoodcells c hcm).1)
      rw [show ((order.map (fileCell (dbCell H db) order)).reverse).length = order.length from by simp] at h21
      rw [h21]
      rfl
    intro crcOk per perBatch expected hper hper2 hexp
    unfold importState preprocess
    rw [readHeader_file hsizes, hout, hlen]
    simp only []
    have hpre := preprocessCells_of (H := H) 4 per hper (P := fun c => ∀ r, readCell H 4 (c ++ r) = some (c, r)) (fun c hP r => hP r)
      order.length ((order.map (fileCell (dbCell H db) order)).reverse) [] (by simp) (fun c hcm => (hgoodcells c hcm).1)
    rw [List.append_nil, show ((order.map (fileCell (dbCell H db) order)).reverse).length = order.length from by simp] at hpre
    rw [hpre]
    simp only [Bool.false_eq_true, if_false]
    apply finalize_ok hlisted h6 hc.top
    · intro h hm
      have hr := (h5 h).1 hm
      cases hr with
      | refl => exact Or.inl rfl
      | @step p _ b refs h9 h10 h11 => exact Or.inr ⟨p, (h5 p).2 h9, b, refs, h10, h11⟩
    · exact chunksOf_flatten per hper _ _ (by simp)
    · intro cs hcs
      obtain ⟨h9, h10⟩ := mem_chunksOf _ _ _ hcs
      have h11 := flatMap_size_bound cs 146 (fun c hcm => (hgoodcells c (h10 c hcm)).2)
      have h12 : cs.length * (146 + 1) ≤ 10000 * 147 := Nat.mul_le_mul_right _ (by omega)
      have : (10000 * 147 : Nat) < 256 ^ 4 := by decide
      omega
    · exact hexp

end Tycho.StateFile
