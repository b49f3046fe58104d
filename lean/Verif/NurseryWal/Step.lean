import Verif.NurseryWal.Inv

namespace Tycho.NurseryWal
open Tycho.Table

variable {H : List Nat → List Nat}

/-- Files that do not matter. -/
theorem DiskOk.files {disk disk' : Disk} {hist : List Delta} {a c : Nat} {tail tail' : List Nat}
    (h : DiskOk H disk hist a c tail) (hdb : disk'.db = disk.db) (hck : get disk'.ckpt c = get disk.ckpt c)
    (hw : disk'.wal.getD [] = recs H a (hist.drop a) ++ tail') (hs : disk'.wal.isSome) : DiskOk H disk' hist a c tail' := by
  obtain ⟨hash, h1, h2⟩ := h.state
  refine { state := ⟨hash, by rw [hdb]; exact h1, ?_⟩, ac := h.ac, cn := h.cn, wal := hw, missing := ?_, fits := h.fits,
           len := h.len, rep := h.rep }
  · intro h0
    obtain ⟨snap, n, e1, e2, e3⟩ := h2 h0
    exact ⟨snap, n, e1, by rw [hck]; exact e2, e3⟩
  · intro hn; rw [hn] at hs; cases hs

theorem Inv.init : Inv H Sys.init := by
  refine ⟨0, 0, [], ?_, trivial⟩
  exact { state := ⟨none, rfl, by omega⟩
          ac := Nat.le_refl _
          cn := Nat.le_refl _
          wal := rfl
          missing := fun _ => rfl
          fits := by simp [Sys.init]
          len := by simp [Sys.init]
          rep := rfl }

/-- The memory does not change when the log does not. -/
theorem MemOk.same {m : Mem} {hist : List Delta} {c : Nat} {w w' : List Nat} (h : MemOk m hist c w) (e : w' = w) :
    MemOk m hist c w' := e ▸ h

section
variable (hH : ∀ x, (H x).length = 32)
include hH

theorem Inv.step {t : Nat} {s s' : Sys} (hi : Inv H s) {x : Action} (hg : Guard s x) (ha : act H t s x = some s') :
    Inv H s' := by
  obtain ⟨a, c, tail, hd, hp⟩ := hi
  obtain ⟨disk, proc, hist⟩ := s
  cases x with
  | commit d =>
    simp only [act] at ha
    split at ha
    · rename_i m
      split at ha
      · cases ha
      · obtain rfl := Option.some.inj ha
        obtain ⟨hs, rfl, hm⟩ := hp
        obtain ⟨g1, g2, g3⟩ := hg
        refine ⟨a, c, [], hd, hs, ⟨_, (List.append_nil _).symm, hm⟩, g1, g2, g3 _ _ rfl, ?_⟩
        rw [List.nil_append, hm.com]
    · cases ha
  | append k =>
    simp only [act] at ha
    split at ha
    · rename_i m d rest
      obtain rfl := Option.some.inj ha
      obtain ⟨hs, ⟨w, hw, hm⟩, g1, g2, g3, g4⟩ := hp
      refine ⟨a, c, tail ++ rest.take k, ?_, rfl, ⟨w, ?_, hm⟩, g1, g2, g3, ?_⟩
      · refine hd.files rfl rfl ?_ rfl
        show _ = _
        simp only [Option.getD_some, hd.wal, List.append_assoc]
      · simp only [Option.getD_some]
        rw [show disk.wal.getD [] = _ from hw, List.append_assoc]
      · rw [List.append_assoc, List.take_append_drop]; exact g4
    · cases ha
  | stage =>
    simp only [act] at ha
    split at ha
    · rename_i m d
      split at ha
      · cases ha
      · rename_i n hn
        obtain rfl := Option.some.inj ha
        obtain ⟨hs, ⟨w, hw, hm⟩, g1, g2, g3, g4⟩ := hp
        have hr := hm.nur.isSome g3
        obtain ⟨n', h1, h2, h3⟩ := hm.nur.commit hr
        rw [hn] at h1
        obtain rfl := Option.some.inj h1
        rw [List.append_nil] at g4
        refine ⟨a, c, tail, hd, hs, g1, g2, hr, g4, ?_⟩
        refine { nur := h2, idx := h3 hm.idx, com := ?_, ck := hm.ck, size := ?_ }
        · simp [appended, hm.com]
        · simp only [appended, hm.size, hm.com]
          rw [show disk.wal.getD [] = _ from hw, List.length_append]
          rw [show tail = _ from g4]
    · cases ha
  | write =>
    simp only [act] at ha
    split at ha
    · rename_i m d
      obtain rfl := Option.some.inj ha
      obtain ⟨hs, g1, g2, g3, g4, hm⟩ := hp
      obtain ⟨hash, e1, e2⟩ := hd.state
      have hcn : c ≤ hist.length := hd.cn
      have hac := hd.ac
      have hcom : m.committed = hist.length + 1 := by rw [hm.com]; simp
      refine ⟨a, c, [], ?_, hs, rfl, hm⟩
      refine { state := ⟨hash, ?_, ?_⟩, ac := hd.ac, cn := ?_, wal := ?_, missing := ?_, fits := ?_, len := ?_, rep := g3 }
      · simp only [hcom, List.length_append, List.length_singleton]
        exact loadState_commit e1
      · intro h0
        obtain ⟨snap, n, f1, f2, f3, f4, f5, f6⟩ := e2 h0
        refine ⟨snap, n, f1, f2, f3, f4, ?_, f6⟩
        rw [List.take_append_of_le_length hcn]; exact f5
      · simp only [List.length_append, List.length_singleton]; omega
      · show disk.wal.getD [] = _
        rw [List.drop_append_of_le_length (by omega), recs_append, List.append_nil, List.length_drop]
        have : a + (hist.length - a) + 1 = hist.length + 1 := by omega
        rw [this, ← g4]
        exact hd.wal
      · intro hn; simp only at hn hs; rw [hn] at hs; cases hs
      · intro d' hd'
        rcases List.mem_append.1 hd' with h1 | h1
        · exact hd.fits _ h1
        · rw [List.mem_singleton.1 h1]; exact g1
      · simp only [List.length_append, List.length_singleton]; omega
    · cases ha
  | ckBegin snap =>
    simp only [act] at ha
    split at ha
    · rename_i m
      split at ha
      · cases ha
      · rename_i hne
        obtain rfl := Option.some.inj ha
        obtain ⟨hs, rfl, hm⟩ := hp
        obtain ⟨g1, g2⟩ := hg
        have hcn : c ≤ hist.length := hd.cn
        have hcom : m.committed = hist.length := hm.com
        have hck : m.checkpoint = c := hm.ck
        have hlt : c < hist.length := by
          have : ¬ m.checkpoint = m.committed := fun h => hne (Or.inr h)
          omega
        refine ⟨a, c, [], hd.files rfl rfl hd.wal hs, hs, rfl, hm, hlt, snap, g1, g2 _ _ rfl, by rw [hcom], ?_⟩
        simp only [hcom, get_put, if_true, Option.getD_some, List.nil_append]
    · cases ha
  | ckAppend k =>
    simp only [act] at ha
    split at ha
    · rename_i m record rest
      obtain rfl := Option.some.inj ha
      obtain ⟨hs, rfl, hm, hlt, snap, g1, g2, g3, g4⟩ := hp
      have hcom : m.committed = hist.length := hm.com
      refine ⟨a, c, [], hd.files rfl rfl hd.wal hs, hs, rfl, hm, hlt, snap, g1, g2, g3, ?_⟩
      simp only [hcom, get_put, if_true, Option.getD_some]
      rw [List.append_assoc, List.take_append_drop]; exact g4
    · cases ha
  | ckRename =>
    simp only [act] at ha
    split at ha
    · rename_i m record
      obtain rfl := Option.some.inj ha
      obtain ⟨hs, rfl, hm, hlt, snap, g1, g2, g3, g4⟩ := hp
      have hcom : m.committed = hist.length := hm.com
      have hlt : c < hist.length := hlt
      rw [List.append_nil] at g4
      refine ⟨a, c, [], hd.files rfl ?_ hd.wal hs, hs, rfl, hm, hlt, snap, g1, g2, g3, ?_⟩
      · simp only [hcom, get_put]
        rw [if_neg (by omega)]
      · simp only [hcom, get_put, if_true]
        rw [show (get disk.tmp hist.length).getD [] = _ from g4]
    · cases ha
  | ckState =>
    simp only [act] at ha
    split at ha
    · rename_i m record
      obtain rfl := Option.some.inj ha
      obtain ⟨hs, rfl, hm, hlt, snap, g1, g2, g3, g4⟩ := hp
      have hcom : m.committed = hist.length := hm.com
      have hlt : c < hist.length := hlt
      have hac : a ≤ c := hd.ac
      obtain ⟨hash, e1, e2⟩ := hd.state
      have e1 : loadState disk.db = some (hist.length, c, hash) := e1
      obtain ⟨n, f1, f2, f3⟩ := hm.nur.snapshot g2
      refine ⟨a, hist.length, [], ?_, hs, rfl, { nur := hm.nur, idx := hm.idx, com := hm.com, ck := hcom, size := hm.size }, rfl⟩
      refine { state := ⟨some (record.take 32), ?_, ?_⟩, ac := by show a ≤ hist.length; omega, cn := Nat.le_refl _, wal := hd.wal,
               missing := hd.missing, fits := hd.fits, len := hd.len, rep := hd.rep }
      · simp only [hcom]
        exact loadState_checkpoint e1 (by omega) record
      · intro _
        refine ⟨snap, n, ?_, ?_, g1, f1, ?_, f3⟩
        · rw [g3, encRecord, List.take_append_of_le_length (by rw [hH]), List.take_of_length_le (by rw [hH])]
        · show get disk.ckpt hist.length = _
          rw [← g3]; exact g4
        · rw [List.take_length]; exact f2
    · cases ha
  | ckReset =>
    simp only [act] at ha
    split at ha
    · rename_i m
      obtain rfl := Option.some.inj ha
      obtain ⟨hs, rfl, hm, hc⟩ := hp
      have hc : c = hist.length := hc
      refine ⟨c, c, [], ?_, rfl, rfl, { nur := hm.nur, idx := hm.idx, com := hm.com, ck := hm.ck, size := rfl }, hc⟩
      refine { state := hd.state, ac := Nat.le_refl _, cn := hd.cn, wal := ?_, missing := by simp, fits := hd.fits,
               len := hd.len, rep := hd.rep }
      rw [hc, List.drop_length]; rfl
    · cases ha
  | clean id =>
    simp only [act] at ha
    split at ha
    · rename_i m
      split at ha
      · cases ha
      · rename_i hne
        obtain rfl := Option.some.inj ha
        obtain ⟨hs, rfl, hm, hc⟩ := hp
        have hck : m.checkpoint = c := hm.ck
        refine ⟨a, c, [], hd.files rfl ?_ hd.wal hs, hs, rfl, hm, hc⟩
        simp only [get_del, decide_eq_true_eq]
        rw [if_neg (by omega)]
    · cases ha
  | cleanTmp id =>
    simp only [act] at ha
    split at ha
    · rename_i m
      obtain rfl := Option.some.inj ha
      obtain ⟨hs, rfl, hm, hc⟩ := hp
      exact ⟨a, c, [], hd.files rfl rfl hd.wal hs, hs, rfl, hm, hc⟩
    · cases ha
  | ckEnd =>
    simp only [act] at ha
    split at ha
    · rename_i m
      obtain rfl := Option.some.inj ha
      obtain ⟨hs, rfl, hm, hc⟩ := hp
      exact ⟨a, c, [], hd, hs, rfl, hm⟩
    · cases ha
  | crash =>
    simp only [act] at ha
    split at ha
    · obtain rfl := Option.some.inj ha
      exact ⟨a, c, tail, hd, trivial⟩
    · cases ha
  | openCreates =>
    simp only [act] at ha
    split at ha
    · obtain rfl := Option.some.inj ha
      exact ⟨a, c, tail, hd.files rfl rfl hd.wal rfl, trivial⟩
    · cases ha
  | openIt =>
    simp only [act] at ha
    split at ha
    · split at ha
      · rename_i disk' m ho
        obtain rfl := Option.some.inj ha
        obtain ⟨w, m', h1, h2, h3, h4, h5, h6, a', h7⟩ := hd.open hH
        rw [show openNursery H disk = _ from h1] at ho
        simp only [Option.some.injEq, Prod.mk.injEq] at ho
        obtain ⟨rfl, rfl⟩ := ho
        exact ⟨a', c, [], h7, rfl, rfl, { nur := h2, idx := h3, com := h4, ck := h5, size := h6 }⟩
      · cases ha
    · cases ha

theorem Exec.inv {t : Nat} {s : Sys} (h : Exec H t s) : Inv H s := by
  induction h with
  | init => exact Inv.init
  | step a _ hg ha ih => exact ih.step hH hg ha
end

end Tycho.NurseryWal
