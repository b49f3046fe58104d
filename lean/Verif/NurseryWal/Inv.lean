import Verif.NurseryWal.Nur

namespace Tycho.NurseryWal
open Tycho.Table

variable {H : List Nat → List Nat}

/-- The records of the commits `a + 1, a + 2, …`. -/
def recs (H : List Nat → List Nat) : Nat → List Delta → List Nat
  | _, [] => []
  | a, d :: ds => encRecord H (a + 1) d ++ recs H (a + 1) ds

theorem recs_append (a : Nat) (ds : List Delta) (d : Delta) :
    recs H a (ds ++ [d]) = recs H a ds ++ encRecord H (a + ds.length + 1) d := by
  induction ds generalizing a with
  | nil => simp [recs]
  | cons x ds ih => simp [recs, ih, Nat.add_assoc, Nat.add_comm 1]

/-- A checkpoint of the first `c` commits is in place. -/
def CkptOk (H : List Nat → List Nat) (disk : Disk) (hist : List Delta) (c : Nat) (hash : Option (List Nat)) : Prop :=
  ∃ snap n, hash = some (H (encHashed c ⟨snap, []⟩)) ∧ get disk.ckpt c = some (encRecord H c ⟨snap, []⟩) ∧ Fits ⟨snap, []⟩ ∧
    applyCommit Nursery.empty ⟨snap, []⟩ = some n ∧ NurOk n (hist.take c) ∧ Indexed n

/-- What is on the disk: the log begins after commit `a`, the checkpoint holds the first `c` commits, `tail` is behind the
records of the history. -/
structure DiskOk (H : List Nat → List Nat) (disk : Disk) (hist : List Delta) (a c : Nat) (tail : List Nat) : Prop where
  state : ∃ hash, loadState disk.db = some (hist.length, c, hash) ∧ (0 < c → CkptOk H disk hist c hash)
  ac : a ≤ c
  cn : c ≤ hist.length
  wal : disk.wal.getD [] = recs H a (hist.drop a) ++ tail
  missing : disk.wal = none → hist = []
  fits : ∀ d ∈ hist, Fits d
  len : hist.length < 2 ^ 64
  rep : (replay hist).isSome

theorem loadState_hash {db : Db} {n c : Nat} {h : Option (List Nat)} (hl : loadState db = some (n, c, h)) :
    db.committed.getD 0 = n ∧ db.ckptId.getD 0 = c ∧ db.ckptHash = h ∧ c ≤ n ∧ decide (0 < c) = h.isSome := by
  unfold loadState at hl
  simp only at hl
  split at hl
  · cases hl
  rename_i hlt
  split at hl
  · split at hl
    · rename_i hc
      simp only [Option.some.injEq, Prod.mk.injEq] at hl
      obtain ⟨h1, h2, h3⟩ := hl
      refine ⟨h1, h2, h3, by omega, ?_⟩
      rw [← h2, ← h3, hc.2.1, hc.2.2]; rfl
    · cases hl
  · split at hl
    · rename_i hc
      simp only [Option.some.injEq, Prod.mk.injEq] at hl
      obtain ⟨h1, h2, h3⟩ := hl
      refine ⟨h1, h2, h3, by omega, ?_⟩
      rw [← h2, ← h3]; exact hc.2
    · cases hl

theorem loadState_commit {db : Db} {n c : Nat} {h : Option (List Nat)} (hl : loadState db = some (n, c, h)) :
    loadState (dbCommit db (n + 1)) = some (n + 1, c, h) := by
  obtain ⟨h1, h2, h3, h4, h5⟩ := loadState_hash hl
  unfold loadState dbCommit
  simp only [Option.getD_some, h2, h3]
  rw [if_neg (by omega), if_pos ⟨trivial, h5⟩]

theorem loadState_checkpoint {db : Db} {n c : Nat} {h : Option (List Nat)} (hl : loadState db = some (n, c, h)) (hn : 0 < n)
    (record : List Nat) : loadState (dbCheckpoint db n record) = some (n, n, some (record.take 32)) := by
  obtain ⟨h1, h2, h3, h4, h5⟩ := loadState_hash hl
  unfold loadState dbCheckpoint
  simp only [Option.getD_some, h1]
  rw [if_neg (by omega), if_pos ⟨trivial, by simp [hn]⟩]

section
variable (hH : ∀ x, (H x).length = 32)
include hH

theorem recs_length (a : Nat) (ds : List Delta) (hf : ∀ d ∈ ds, Fits d) : ds.length ≤ (recs H a ds).length := by
  induction ds generalizing a with
  | nil => simp
  | cons d ds ih =>
    have h1 := ih (a + 1) (fun x hx => hf x (by simp [hx]))
    have h2 := encRecord_length hH (id := a + 1) (hf d (by simp))
    simp only [recs, List.length_cons, List.length_append, h2]
    omega

/-- The loop over a log of the commits after `j`. -/
theorem replayLoop_ok {hist : List Delta} {c : Nat} (hc : c < hist.length) (hf : ∀ d ∈ hist, Fits d)
    (hl : hist.length < 2 ^ 64) (hr : (replay hist).isSome) (tail : List Nat) (k : Nat) :
    ∀ (j fuel : Nat) (n : Nursery), j + k = hist.length → k ≤ fuel → NurOk n (hist.take (max j c)) → Indexed n →
      ∃ n', replayLoop H hist.length c fuel (max j c + 1) (recs H j (hist.drop j) ++ tail) n =
        some (hist.length + 1, tail, n') ∧ NurOk n' hist ∧ Indexed n' := by
  induction k with
  | zero =>
    intro j fuel n hj _ hn hi
    have hj : j = hist.length := by omega
    subst hj
    have hm : max hist.length c = hist.length := by omega
    rw [hm, List.take_length] at hn
    refine ⟨n, ?_, hn, hi⟩
    rw [hm, List.drop_length]
    cases fuel with
    | zero => rfl
    | succ f => rw [replayLoop, if_pos (by omega)]; rfl
  | succ k ih =>
    intro j fuel n hj hfu hn hi
    obtain ⟨f, rfl⟩ : ∃ f, fuel = f + 1 := ⟨fuel - 1, by omega⟩
    have hjl : j < hist.length := by omega
    have hd : hist.drop j = hist[j] :: hist.drop (j + 1) := List.drop_eq_getElem_cons hjl
    have hm : hist[j] ∈ hist := List.getElem_mem hjl
    rw [hd, recs, List.append_assoc, replayLoop, if_neg (by omega), rdRecord_enc hH (hf _ hm) (by omega)]
    simp only
    rw [if_neg (by omega)]
    by_cases hjc : j + 1 ≤ c
    · rw [if_pos hjc]
      have e : max j c = max (j + 1) c := by omega
      rw [e] at hn ⊢
      exact ih (j + 1) f n (by omega) (by omega) hn hi
    · rw [if_neg hjc]
      have e : max j c = j := by omega
      have e' : max (j + 1) c = j + 1 := by omega
      rw [e] at hn ⊢
      rw [if_neg (by simp)]
      have ht : hist.take (j + 1) = hist.take j ++ [hist[j]] := (List.take_append_getElem hjl).symm
      obtain ⟨n', h1, h2, h3⟩ := hn.commit (d := hist[j]) (by rw [← ht]; exact replay_take hr _)
      rw [h1]
      simp only
      have := ih (j + 1) f n' (by omega) (by omega) (by rw [e', ht]; exact h2) (h3 hi)
      rw [e'] at this
      exact this

/-- `open` on such a disk. -/
theorem DiskOk.open {disk : Disk} {hist : List Delta} {a c : Nat} {tail : List Nat} (h : DiskOk H disk hist a c tail) :
    ∃ wal m, openNursery H disk = some ({ disk with wal := some wal }, m) ∧ NurOk m.nursery hist ∧ Indexed m.nursery ∧
      m.committed = hist.length ∧ m.checkpoint = c ∧ m.walSize = wal.length ∧
      ∃ a', DiskOk H { disk with wal := some wal } hist a' c [] := by
  obtain ⟨hash, hst, hck⟩ := h.state
  have hcn := h.cn
  have hac := h.ac
  -- the checkpoint
  have hckpt : ∃ n, openCheckpoint H disk c hash = some n ∧ NurOk n (hist.take c) ∧ Indexed n := by
    unfold openCheckpoint
    by_cases h0 : 0 < c
    · obtain ⟨snap, n, rfl, hg, hfit, ha, hn, hi⟩ := hck h0
      refine ⟨n, ?_, hn, hi⟩
      rw [if_pos h0]
      simp only [loadCheckpoint, hg]
      have := rdRecord_enc hH hfit (id := c) (by have := h.len; omega) []
      rw [List.append_nil] at this
      rw [this]
      simp only [and_self, if_true, ha]
    · rw [if_neg h0]
      have : c = 0 := by omega
      subst this
      exact ⟨_, rfl, by simpa using NurOk.nil, fun x e hx => by cases hx⟩
  obtain ⟨n, hn1, hn2, hn3⟩ := hckpt
  have hmiss : walMissing disk hist.length c = false := by
    unfold walMissing
    cases hw : disk.wal with
    | some _ => rfl
    | none =>
      have := h.missing hw
      subst this
      simp only [List.length_nil] at hcn ⊢
      have : c = 0 := by omega
      simp [this]
  have hstep : openNursery H disk = match replayWal H hist.length c (disk.wal.getD []) n with
      | none => none
      | some (wal, n') => some ({ disk with wal := some wal },
          { nursery := n', committed := hist.length, checkpoint := c, walSize := wal.length }) := by
    unfold openNursery
    rw [hst]
    simp only [hn1, hmiss]
    rfl
  rw [hstep]
  by_cases hcl : hist.length = c
  · have : replayWal H hist.length c (disk.wal.getD []) n = some ([], n) := by
      unfold replayWal; rw [if_pos hcl]
    rw [this]
    have hte : hist.take c = hist := by rw [← hcl, List.take_length]
    refine ⟨[], _, rfl, hte ▸ hn2, hn3, rfl, rfl, rfl, c, ?_⟩
    exact { state := ⟨hash, hst, hck⟩
            ac := Nat.le_refl _
            cn := hcn
            wal := by rw [← hcl, List.drop_length]; rfl
            missing := by simp
            fits := h.fits
            len := h.len
            rep := h.rep }
  · have hlt : c < hist.length := by omega
    have hwl := recs_length hH a (hist.drop a) (fun d hd => h.fits d (List.mem_of_mem_drop hd))
    rw [List.length_drop] at hwl
    have hm : max a c = c := by omega
    obtain ⟨n', h1, h2, h3⟩ := replayLoop_ok hH hlt h.fits h.len h.rep tail (hist.length - a) a
      ((disk.wal.getD []).length + 1) n (by omega) (by rw [h.wal, List.length_append]; omega) (by rw [hm]; exact hn2) hn3
    rw [hm, ← h.wal] at h1
    have : replayWal H hist.length c (disk.wal.getD []) n = some (recs H a (hist.drop a), n') := by
      unfold replayWal
      rw [if_neg hcl, h1]
      simp only [if_true]
      rw [h.wal]
      simp
    rw [this]
    refine ⟨_, _, rfl, h2, h3, rfl, rfl, rfl, a, ?_⟩
    exact { state := ⟨hash, hst, hck⟩
            ac := hac
            cn := hcn
            wal := by simp
            missing := by simp
            fits := h.fits
            len := h.len
            rep := h.rep }
end

/-- The memory between operations. -/
structure MemOk (m : Mem) (hist : List Delta) (c : Nat) (wal : List Nat) : Prop where
  nur : NurOk m.nursery hist
  idx : Indexed m.nursery
  com : m.committed = hist.length
  ck : m.checkpoint = c
  size : m.walSize = wal.length

/-- What holds in each phase. -/
def PhaseOk (H : List Nat → List Nat) (disk : Disk) (hist : List Delta) (c : Nat) (tail : List Nat) (m : Mem) : Phase → Prop
  | .idle => tail = [] ∧ MemOk m hist c (disk.wal.getD [])
  | .appending d rest => (∃ w, disk.wal.getD [] = w ++ tail ∧ MemOk m hist c w) ∧ Fits d ∧ hist.length + 1 < 2 ^ 64 ∧
      (applyCommit m.nursery d).isSome ∧ tail ++ rest = encRecord H (hist.length + 1) d
  | .staged d => Fits d ∧ hist.length + 1 < 2 ^ 64 ∧ (replay (hist ++ [d])).isSome ∧ tail = encRecord H (hist.length + 1) d ∧
      MemOk m (hist ++ [d]) c (disk.wal.getD [])
  | .ckFile record rest => tail = [] ∧ MemOk m hist c (disk.wal.getD []) ∧ c < hist.length ∧
      ∃ snap : List Rec, Fits ⟨snap, []⟩ ∧ snap.Perm m.nursery.entries ∧ record = encRecord H hist.length ⟨snap, []⟩ ∧
        (get disk.tmp hist.length).getD [] ++ rest = record
  | .ckNamed record => tail = [] ∧ MemOk m hist c (disk.wal.getD []) ∧ c < hist.length ∧
      ∃ snap : List Rec, Fits ⟨snap, []⟩ ∧ snap.Perm m.nursery.entries ∧ record = encRecord H hist.length ⟨snap, []⟩ ∧
        get disk.ckpt hist.length = some record
  | .ckStated => tail = [] ∧ MemOk m hist c (disk.wal.getD []) ∧ c = hist.length
  | .cleaning => tail = [] ∧ MemOk m hist c (disk.wal.getD []) ∧ c = hist.length

/-- The invariant. -/
def Inv (H : List Nat → List Nat) (s : Sys) : Prop :=
  ∃ a c tail, DiskOk H s.disk s.hist a c tail ∧
    match s.proc with
    | none => True
    | some (m, p) => s.disk.wal.isSome ∧ PhaseOk H s.disk s.hist c tail m p

end Tycho.NurseryWal
