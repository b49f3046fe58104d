import Verif.Strider.Progress
import Mathlib.Data.List.Nodup

/-! The hypothesis on heights (what the rule of the garbage collection needs) holds when shards are neither split
nor merged. -/
namespace Tycho.Strider
open Tycho.Table

structure FixedShards (w : World) : Prop where
  plain : ∀ b i, w.shardBlock b = some i → i.afterSplit = false ∧ ∃ s h, i.prev = .single s h
  distinct : ∀ q, ((w.mcBlock q).tops.map BlockId.shard).Nodup
  same : ∀ p m, w.next p m → ∀ x, x ∈ (w.mcBlock m).tops.map BlockId.shard ↔ x ∈ (w.mcBlock p).tops.map BlockId.shard

theorem parents_plain (w : World) (hf : FixedShards w) (b a a' : BlockId) (h : a ∈ parents w b) (h' : a' ∈ parents w b) :
    a = a' ∧ a.shard = b.shard := by
  cases hi : w.shardBlock b with
  | none => simp [parents, hi] at h
  | some i =>
    obtain ⟨hs, s, x, hp⟩ := hf.plain b i hi
    simp [parents, hi, hp, hs] at h h'
    subst h; subst h'
    exact ⟨rfl, rfl⟩

theorem anc_plain (w : World) (hf : FixedShards w) (a b : BlockId) (h : Anc w a b) : a.shard = b.shard := by
  induction h with
  | refl => rfl
  | step p b _ hp ih => rw [ih, (parents_plain w hf b p p hp hp).2]

theorem anc_total (w : World) (hf : FixedShards w) (a c b : BlockId) (h : Anc w a b) (h' : Anc w c b) : Anc w a c ∨ Anc w c a := by
  induction h generalizing c with
  | refl => exact .inr h'
  | step p b hap hp ih =>
    cases h' with
    | refl => exact .inl (.step a p _ hap hp)
    | step p' _ hcp hp' =>
      have := (parents_plain w hf b p p' hp hp').1
      subst this
      exact ih c hcp

theorem covered_path' (w : World) (hb : BlocksOk w) (hn : ∀ p m, w.next p m → ValidNext w p m) (p q b : BlockId)
    (hp : Path w p q) (h : Covered w p b) : Covered w q b := by
  induction hp with
  | refl => exact h
  | step x y _ hx ih => exact covered_next w hb x y (hn _ _ hx) b ih

theorem heights_fixed_shards (w : World) (hb : BlocksOk w) (hn : ∀ p m, w.next p m → ValidNext w p m) (hf : FixedShards w)
    (q p b : BlockId) (hp : Path w q p) (h0 : b.seqno ≠ 0) (hc : b ∈ (w.mcBlock p).tops ∨ Future w p b) :
    heightsContain w (heights (w.mcBlock q).tops) b = true := by
  have hsame : ∀ x y, Path w x y → ∀ z, z ∈ (w.mcBlock y).tops.map BlockId.shard ↔ z ∈ (w.mcBlock x).tops.map BlockId.shard := by
    intro x y hxy
    induction hxy with
    | refl => intro z; exact Iff.rfl
    | step u v _ hv ih => intro z; rw [hf.same u v hv z]; exact ih z
  -- the masterchain block whose history has b
  have hm : ∃ m, Path w q m ∧ ∃ t ∈ (w.mcBlock m).tops, Anc w b t ∧ (m = p ∧ t = b ∨ ¬ Covered w q b) := by
    rcases hc with hc | ⟨hnc, m, hpm, _, t, ht, hbt⟩
    · exact ⟨p, hp, b, hc, .refl b, .inl ⟨rfl, rfl⟩⟩
    · have hqm : Path w q m := by
        clear ht hbt
        induction hpm with
        | refl => exact hp
        | step u v _ hv ih => exact .step u v ih hv
      exact ⟨m, hqm, t, ht, hbt, .inr (fun h => hnc (covered_path' w hb hn q p b hp h))⟩
  obtain ⟨m, hqm, t, ht, hbt, hor⟩ := hm
  have hsh := anc_plain w hf b t hbt
  have : b.shard ∈ (w.mcBlock q).tops.map BlockId.shard := by
    rw [← hsame q m hqm, hsh]; exact List.mem_map.2 ⟨t, ht, rfl⟩
  obtain ⟨u, hu, hus⟩ := List.mem_map.1 this
  have hg := heights_get _ (hf.distinct q) u hu
  unfold heightsContain
  rw [← hus, hg]
  dsimp only
  rw [decide_eq_true_eq]
  by_cases hu0 : u.seqno = 0
  · omega
  -- u is below the top block of its shard in m
  obtain ⟨_, t', ht', hut⟩ := covered_path' w hb hn q m u hqm (covered_top w q u hu hu0)
  have hsu := anc_plain w hf u t' hut
  have htt : t' = t := by
    have hd := hf.distinct m
    have : t'.shard = t.shard := by rw [← hsu, hus, hsh]
    exact List.inj_on_of_nodup_map hd ht' ht this
  subst htt
  rcases hor with ⟨_, rfl⟩ | hnc
  · exact anc_seqno w hb u _ hut
  · rcases anc_total w hf b u t' hbt hut with h | h
    · exact absurd ⟨h0, u, hu, h⟩ hnc
    · exact anc_seqno w hb u b h

end Tycho.Strider
