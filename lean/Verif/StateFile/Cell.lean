import Verif.StateFile.Bytes
/-!
The hashes of a cell: `finalize_cell` (store_state_raw.rs:278-445) and the entries of the hashes file (entries_buffer.rs).

SHA-256 is a parameter. So is `LevelMask::level` of the crate `tycho_types` (a mask has three bits); its other functions are
written out: `contains`, `hash_index` (the number of bits below), `virtualize` (shift), `from_level`.
-/
namespace Tycho.StateFile
open Tycho.Bytes Tycho.Codec Tycho.Table

structure Crypto where
  sha : List Nat → List Nat
  level : Nat → Nat
  sha_length : ∀ x, (sha x).length = 32

/-- A hash as a number. -/
def hashNat (bs : List Nat) : Nat := ofBe (bs.map (· % 256))

/-- `CellType` -/
inductive CellKind
  | ordinary | pruned | library | merkleProof | merkleUpdate
  deriving DecidableEq, Repr

/-- `CellDescriptor::cell_type` -/
def kindOf (d1 : Nat) : CellKind :=
  if d1 / 8 % 2 = 0 then .ordinary
  else if refCount d1 = 0 then (if d1 / 32 = 0 then .library else .pruned)
  else if refCount d1 = 1 then .merkleProof
  else .merkleUpdate

/-- `LevelMask::contains`, level 1..3 -/
def maskHas (m l : Nat) : Bool := m / 2 ^ (l - 1) % 2 == 1
/-- `LevelMask::hash_index`: the number of bits among the first `n`. -/
def hashIndex (m n : Nat) : Nat := ((List.range n).filter (fun i => m / 2 ^ i % 2 == 1)).length

/-- entries_buffer.rs:107-175 an entry of the hashes file; `data` is what `pruned_branches` has for it; `repr` is the
representation hash that `finalize_cell` computes at the end. -/
structure Ent where
  mask : Nat
  kind : CellKind
  hashes : List (List Nat)
  depths : List Nat
  data : List Nat
  repr : Nat
  deriving DecidableEq, Repr

/-- The slots of an entry are zero until they are set (entries_buffer.rs:63-67). -/
def zeroHash : List Nat := List.replicate 32 0

/-- entries_buffer.rs:142-158 `pruned_branch_hash` -/
def prunedHash (C : Crypto) (mask : Nat) (hashes : List (List Nat)) (data : List Nat) (n : Nat) : Option (List Nat) :=
  if hashIndex mask n = C.level mask then some (hashes.getD 0 zeroHash)
  else if data.length < 2 + hashIndex mask n * 32 + 32 then none
  else some ((data.drop (2 + hashIndex mask n * 32)).take 32)

/-- entries_buffer.rs:160-174 `pruned_branch_depth` -/
def prunedDepth (C : Crypto) (mask : Nat) (depths : List Nat) (data : List Nat) (n : Nat) : Option Nat :=
  if hashIndex mask n = C.level mask then some (depths.getD 0 0)
  else if data.length < 2 + C.level mask * 32 + hashIndex mask n * 2 + 2 then none
  else some (ofBe ((data.drop (2 + C.level mask * 32 + hashIndex mask n * 2)).take 2))

/-- The hash of a child at a level (store_state_raw.rs:375-388). -/
def childHash (C : Crypto) (c : Ent) (n : Nat) : Option (List Nat) :=
  if c.kind = .pruned then prunedHash C c.mask c.hashes c.data n else some (c.hashes.getD (hashIndex c.mask n) zeroHash)

/-- The depth of a child at a level (store_state_raw.rs:348-360). -/
def childDepth (C : Crypto) (c : Ent) (n : Nat) : Option Nat :=
  if c.kind = .pruned then prunedDepth C c.mask c.depths c.data n else some (c.depths.getD (hashIndex c.mask n) 0)

/-- store_state_raw.rs:363-369 the depth of a cell from those of its children; at most `MAX_DEPTH` (65534). -/
def depthOf : List Nat → Option Nat
  | [] => some 0
  | d :: ds => if 65534 < d + 1 then none else (depthOf ds).map (max (d + 1))

/-- store_state_raw.rs:321-391 the hashes and depths for a list of levels, after `hs` and `ds`. -/
def hashLevels (C : Crypto) (b : Body) (mask : Nat) (pruned merkle : Bool) (es : List Ent) :
    List Nat → List (List Nat) → List Nat → Option (List (List Nat) × List Nat)
  | [], hs, ds => some (hs, ds)
  | l :: ls, hs, ds =>
    if l ≠ 0 ∧ (pruned ∨ !maskHas mask l) then hashLevels C b mask pruned merkle es ls hs ds
    else
      let lm := if pruned then mask else 2 ^ l - 1
      let at_ := hs.length + (if merkle then 1 else 0)
      match allSome (es.map (fun c => childDepth C c at_)), allSome (es.map (fun c => childHash C c at_)) with
      | some cds, some chs => match depthOf cds with
        | some d =>
          hashLevels C b mask pruned merkle es ls
            (hs ++ [C.sha ([b.d1 % 16 + 32 * lm, b.d2] ++ (if l = 0 then b.data else hs.getLastD zeroHash) ++ cds.flatMap (beBytes 2) ++ chs.flatten)])
            (ds ++ [d])
        | none => none
      | _, _ => none

/-- store_state_raw.rs:288-305 the level mask of a cell. -/
def maskOf (d1 : Nat) (es : List Ent) : Nat :=
  let children := es.foldl (fun m c => m ||| c.mask) 0
  match kindOf d1 with
  | .ordinary => children
  | .pruned => d1 / 32
  | .library => 0
  | .merkleProof | .merkleUpdate => children / 2

/-- `CellDescriptor::hash_count` -/
def hashCountOf (C : Crypto) (d1 : Nat) : Nat := if kindOf d1 = .pruned then 1 else C.level (d1 / 32) + 1

/-- store_state_raw.rs:278-445 `finalize_cell`, the entry. -/
def buildEnt (C : Crypto) (b : Body) (es : List Ent) : Option Ent :=
  if b.d1 / 32 ≠ maskOf b.d1 es then none
  else match hashLevels C b (b.d1 / 32) (kindOf b.d1 = .pruned) (kindOf b.d1 = .merkleProof || kindOf b.d1 = .merkleUpdate) es [0, 1, 2, 3] [] [] with
    | none => none
    | some (hs, ds) =>
      if hs.length ≠ hashCountOf C b.d1 then none
      else match (if kindOf b.d1 = .pruned then prunedHash C (b.d1 / 32) hs b.data 3 else some (hs.getD (hashIndex (b.d1 / 32) 3) zeroHash)) with
        | none => none
        | some r => some ⟨b.d1 / 32, kindOf b.d1, hs, ds, if kindOf b.d1 = .pruned then b.data else [], hashNat r⟩

/-- The bytes of the lower levels (store_state_raw.rs:407-410). -/
def extraOf (hs : List (List Nat)) (ds : List Nat) : List Nat :=
  ((hs.zip ds).dropLast).flatMap (fun p => p.1 ++ leBytes 2 p.2)

/-- The computation of the code. -/
def hasher (C : Crypto) : Hasher where
  Entry := Ent
  build := buildEnt C
  repr := Ent.repr
  top e := hashNat (e.hashes.getD (hashIndex e.mask 3) zeroHash)
  depth e := leBytes 2 (e.depths.getLastD 0)
  extra e := extraOf e.hashes e.depths
  hashCount := hashCountOf C

theorem hashLevels_length (C : Crypto) (b : Body) (mask : Nat) (pruned merkle : Bool) (es : List Ent) :
    ∀ (ls : List Nat) (hs : List (List Nat)) (ds : List Nat) (hs' : List (List Nat)) (ds' : List Nat),
      hashLevels C b mask pruned merkle es ls hs ds = some (hs', ds') → (∀ h ∈ hs, h.length = 32) → hs.length = ds.length →
      (∀ h ∈ hs', h.length = 32) ∧ hs'.length = ds'.length := by
  intro ls
  induction ls with
  | nil =>
    intro hs ds hs' ds' h h1 h2
    simp only [hashLevels, Option.some.injEq, Prod.mk.injEq] at h
    obtain ⟨rfl, rfl⟩ := h
    exact ⟨h1, h2⟩
  | cons l ls ih =>
    intro hs ds hs' ds' h h1 h2
    unfold hashLevels at h
    split at h
    · exact ih hs ds hs' ds' h h1 h2
    · simp only [] at h
      split at h
      · split at h
        · refine ih _ _ hs' ds' h ?_ (by simp [h2])
          intro x hx
          rcases List.mem_append.1 hx with hx | hx
          · exact h1 x hx
          · obtain rfl := List.mem_singleton.1 hx
            exact C.sha_length _
        · cases h
      · cases h

theorem kindOf_clear (d : Nat) : kindOf (clearStored d) = kindOf d := by
  have h1 : clearStored d / 8 % 2 = d / 8 % 2 := by
    unfold clearStored storesHashes
    split
    · next h => simp only [beq_iff_eq] at h; omega
    · rfl
  have h2 : clearStored d / 32 = d / 32 := by
    unfold clearStored storesHashes
    split
    · next h => simp only [beq_iff_eq] at h; omega
    · rfl
  unfold kindOf
  rw [h1, h2, refCount_clear]

theorem div32_clear (d : Nat) : clearStored d / 32 = d / 32 := by
  unfold clearStored storesHashes
  split
  · next h => simp only [beq_iff_eq] at h; omega
  · rfl

theorem mod16_clear (d : Nat) : clearStored d % 16 = d % 16 := by
  unfold clearStored storesHashes
  split
  · next h => simp only [beq_iff_eq] at h; omega
  · rfl

theorem hashLevels_clear (C : Crypto) (b : Body) (mask : Nat) (pruned merkle : Bool) (es : List Ent) :
    ∀ (ls : List Nat) (hs : List (List Nat)) (ds : List Nat),
      hashLevels C b.clear mask pruned merkle es ls hs ds = hashLevels C b mask pruned merkle es ls hs ds := by
  intro ls
  induction ls with
  | nil => intro hs ds; rfl
  | cons l ls ih =>
    intro hs ds
    have h1 : b.clear.d1 % 16 = b.d1 % 16 := mod16_clear b.d1
    have h2 : b.clear.d2 = b.d2 := rfl
    have h3 : b.clear.data = b.data := rfl
    unfold hashLevels
    simp only [ih, h1, h2, h3]

theorem hashNat_lt (bs : List Nat) (h : bs.length = 32) : hashNat bs < 256 ^ 32 := by
  have := ofBe_lt (bs.map (· % 256)) (by
    intro x hx
    obtain ⟨y, _, rfl⟩ := List.mem_map.1 hx
    exact Nat.mod_lt _ (by decide))
  rw [List.length_map, h] at this
  exact this

theorem getD_length {hs : List (List Nat)} (h : ∀ x ∈ hs, x.length = 32) (i : Nat) : (hs.getD i zeroHash).length = 32 := by
  rw [List.getD_eq_getElem?_getD]
  cases hg : hs[i]? with
  | none => simp [zeroHash]
  | some x => exact h x (List.mem_of_getElem? hg)

theorem prunedHash_length {C : Crypto} {mask n : Nat} {hs : List (List Nat)} {data r : List Nat} (h : ∀ x ∈ hs, x.length = 32)
    (hr : prunedHash C mask hs data n = some r) : r.length = 32 := by
  unfold prunedHash at hr
  split at hr
  · injection hr with hr; subst hr; exact getD_length h 0
  · split at hr
    · cases hr
    · next h1 =>
      injection hr with hr
      subst hr
      rw [List.length_take, List.length_drop]
      omega

theorem extraOf_length (hs : List (List Nat)) (ds : List Nat) (h : ∀ x ∈ hs, x.length = 32) (hl : hs.length = ds.length) :
    (extraOf hs ds).length = 34 * (hs.length - 1) := by
  unfold extraOf
  have key : ∀ l : List (List Nat × Nat), (∀ p ∈ l, p.1.length = 32) → (l.flatMap (fun p => p.1 ++ leBytes 2 p.2)).length = 34 * l.length := by
    intro l
    induction l with
    | nil => intro _; rfl
    | cons p l ih =>
      intro hp
      rw [List.flatMap_cons, List.length_append, ih (fun q hq => hp q (List.mem_cons_of_mem _ hq)), List.length_append, hp p List.mem_cons_self,
        leBytes_length, List.length_cons]
      omega
  rw [key]
  · rw [List.length_dropLast, List.length_zip, ← hl, Nat.min_self]
  · intro p hp
    exact h p.1 (List.of_mem_zip (List.dropLast_subset _ hp)).1

/-- The computation of the code has the assumed properties. -/
theorem hasher_laws (C : Crypto) : Laws (hasher C) := by
  have hb : ∀ (b : Body) (es : List Ent) (e : Ent), buildEnt C b es = some e → (∀ x ∈ e.hashes, x.length = 32) ∧ e.hashes.length = e.depths.length ∧
      e.hashes.length = hashCountOf C b.d1 ∧ e.repr < 256 ^ 32 := by
    intro b es e h
    unfold buildEnt at h
    split at h
    · cases h
    · split at h
      · cases h
      · next hs ds hh =>
        obtain ⟨h1, h2⟩ := hashLevels_length C b _ _ _ es _ _ _ _ _ hh (by simp) rfl
        split at h
        · cases h
        · next hc =>
          split at h
          · cases h
          · next r hr =>
            injection h with h
            subst h
            refine ⟨h1, h2, by simpa using hc, hashNat_lt r ?_⟩
            split at hr
            · exact prunedHash_length h1 hr
            · injection hr with hr; subst hr; exact getD_length h1 _
  refine ⟨?_, ?_, ?_, ?_, ?_⟩
  · intro b es e _; exact leBytes_length 2 _
  · intro b es e h
    obtain ⟨h1, h2, h3, _⟩ := hb b es e h
    change (extraOf e.hashes e.depths).length = 34 * (hashCountOf C b.d1 - 1)
    rw [extraOf_length _ _ h1 h2, h3]
  · intro b es e h; exact (hb b es e h).2.2.2
  · intro d
    change hashCountOf C (clearStored d) = hashCountOf C d
    unfold hashCountOf
    rw [kindOf_clear, div32_clear]
  · change ∀ (b : Body) (es : List Ent), buildEnt C b.clear es = buildEnt C b es
    intro b es
    have h1 : b.clear.d1 = clearStored b.d1 := rfl
    have h2 : b.clear.data = b.data := rfl
    unfold buildEnt
    have h3 : maskOf (clearStored b.d1) es = maskOf b.d1 es := by unfold maskOf; rw [kindOf_clear, div32_clear]
    have h4 : hashCountOf C (clearStored b.d1) = hashCountOf C b.d1 := by unfold hashCountOf; rw [kindOf_clear, div32_clear]
    simp only [hashLevels_clear, h1, h2, kindOf_clear, div32_clear, h3, h4]

end Tycho.StateFile
