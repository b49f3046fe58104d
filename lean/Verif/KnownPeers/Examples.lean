import Verif.KnownPeers.Bans
/-! Concrete histories, and what goes wrong without the conditions. -/
namespace Tycho.KnownPeers
open Tycho.Table
open Tycho.Table (get)

/-- Decides whether a history is calm. -/
def calmB (s : St) : Op → Bool
  | .insert info _ _ => !s.pend.contains info.peer
  | .ban p => !s.pend.contains p
  | .update h info => match (get s.handles h).bind s.innerOf with
    | some i => decide (info.peer = (s.inners i).info.peer)
    | none => true
  | .remove _ => false
  | _ => true

def calmL (s : St) : List Op → Bool
  | [] => true
  | o :: l => calmB s o && calmL (s.step o) l

theorem calmB_sound (s : St) (o : Op) (h : calmB s o = true) : CalmAt s o := by
  cases o with
  | insert info aff allow => simpa [calmB, CalmAt] using h
  | ban p => simpa [calmB, CalmAt] using h
  | update k info =>
    intro i hi
    simp only [calmB, hi] at h
    simpa using h
  | remove p => simp [calmB] at h
  | _ => trivial

theorem calmL_sound (l : List Op) (h : calmL St.new l = true) : Calm l := by
  suffices H : ∀ (l2 l0 : List Op), calmL (St.run l0) l2 = true →
      ∀ l1 o l3, l2 = l1 ++ o :: l3 → CalmAt (St.run (l0 ++ l1)) o by
    intro l1 o l3 he
    exact H l [] h l1 o l3 he
  intro l2
  induction l2 with
  | nil => intro l0 _ l1 o l3 he; simp at he
  | cons x l2 ih =>
    intro l0 hc l1 o l3 he
    simp only [calmL, Bool.and_eq_true] at hc
    cases l1 with
    | nil =>
      simp only [List.nil_append, List.cons.injEq] at he
      rw [List.append_nil, ← he.1]
      exact calmB_sound _ _ hc.1
    | cons y l1 =>
      simp only [List.cons_append, List.cons.injEq] at he
      have := ih (l0 ++ [x]) (by rw [run_snoc]; exact hc.2) l1 o l3 he.2
      rw [List.append_assoc] at this
      rw [← he.1]
      exact this

/-- A calm history with three handles of one peer, an update, a banned stranger, and a peer that is forgotten. -/
def demo : List Op :=
  [.insert ⟨7, 10⟩ true false, .insert ⟨7, 12⟩ false false, .clone 0, .update 1 ⟨7, 13⟩, .ban 9, .insert ⟨8, 5⟩ false true,
    .drop 3, .finish 0, .drop 1]

example : Calm demo := calmL_sound _ (by decide +kernel)

example : NoPeek demo := by intro p; simp [demo]

example : Careful demo := by
  intro l1 h l2 w he
  have : Op.decrease h ∈ demo := by rw [he]; simp
  simp [demo] at this

example : demo.length < banned := by decide

/-- The handle 2 lives, its peer has high affinity and the newest info; peer 8 is forgotten, peer 9 banned. -/
example : (St.run demo).refers 2 0 ∧ (St.run demo).peerInfo 7 = some ⟨7, 13⟩ ∧
    ((St.run demo).inners 0).affinity = .high ∧ (St.run demo).contains 8 = false ∧ (St.run demo).isBanned 9 = true ∧
    (St.run demo).pend = [] ∧ (St.run demo).find 9 = none :=
  ⟨⟨.aff 0, by decide +kernel, by decide +kernel⟩, by decide +kernel, by decide +kernel, by decide +kernel, by decide +kernel,
    by decide +kernel, by decide +kernel⟩

/-- Insertions with every answer. -/
example : ((St.run demo).insert ⟨7, 12⟩ true false).2 = .outdated ∧ ((St.run demo).insert ⟨7, 12⟩ true true).2 = .handle 4 ∧
    ((St.run demo).insert ⟨9, 12⟩ true true).2 = .isBanned ∧ ((St.run demo).insert ⟨7, 13⟩ false false).2 = .handle 4 := by
  decide +kernel

/-! ### Findings -/

/-- A rejected insertion with affinity leaves the peer with high affinity, although nobody holds a handle with affinity:
the guard in `try_update_peer_info` is disarmed before the caller turns the outdated info into an error. -/
theorem rejected_insert_keeps_high : ∃ l, Calm l ∧ Careful l ∧ (St.run l).getAffinity 7 = some .high ∧
    ∀ h i, ¬ (St.run l).refersAff h i := by
  refine ⟨[.insert ⟨7, 10⟩ false false, .insert ⟨7, 5⟩ true false], calmL_sound _ (by decide +kernel), ?_, by decide +kernel, ?_⟩
  · intro l1 h l2 w he
    have : Op.decrease h ∈ [Op.insert ⟨7, 10⟩ false false, .insert ⟨7, 5⟩ true false] := by rw [he]; simp
    simp at this
  · rintro h i ⟨w, _, h2⟩
    have hw : (St.run [.insert ⟨7, 10⟩ false false, .insert ⟨7, 5⟩ true false]).wraps = [] := by decide +kernel
    rw [hw] at h2
    simp [Table.get] at h2

/-- A ban of a peer with a handle is forgotten when the last handle is dropped, and the peer can be inserted again. -/
theorem ban_forgotten : ∃ l, Calm l ∧ (St.run (l ++ [.ban 7])).isBanned 7 = true ∧
    Calm (l ++ [.ban 7] ++ [.drop 0]) ∧
    (St.run (l ++ [.ban 7] ++ [.drop 0])).isBanned 7 = false ∧
    ((St.run (l ++ [.ban 7] ++ [.drop 0])).insert ⟨7, 1⟩ false false).2 = .handle 1 :=
  ⟨[.insert ⟨7, 10⟩ false false], calmL_sound _ (by decide +kernel), by decide +kernel, calmL_sound _ (by decide +kernel),
    by decide +kernel, by decide +kernel⟩

/-- Decreasing the affinity through a handle with a clone counts twice: the drop of the clone wraps the counter around, and
the peer is banned although nobody banned it. -/
theorem clone_decrease_bans : ∃ l, Calm l ∧ (∀ i, ¬ Bans l i) ∧ (St.run l).isBanned 7 = true ∧ (St.run l).refers 0 0 := by
  refine ⟨[.insert ⟨7, 10⟩ true false, .clone 0, .decrease 0, .drop 1], calmL_sound _ (by decide +kernel), ?_, by decide +kernel,
    ⟨.simple 0, by decide +kernel, rfl⟩⟩
  rintro i ⟨l1, o, l2, he, hb⟩
  have hm : o ∈ [Op.insert ⟨7, 10⟩ true false, .clone 0, .decrease 0, .drop 1] := by rw [he]; simp
  simp only [List.mem_cons, List.not_mem_nil, or_false] at hm
  rcases hm with rfl | rfl | rfl | rfl <;> simp [bannedBy] at hb

/-- An insertion that comes between the two parts of a drop loses its entry: its handle lives, but the registry does not
know the peer. -/
theorem insert_lost_in_race : ∃ l, (St.run l).refers 1 1 ∧ ((St.run l).inners 1).info.peer = 7 ∧ (St.run l).pend = [] ∧
    (St.run l).contains 7 = false :=
  ⟨[.insert ⟨7, 10⟩ false false, .drop 0, .insert ⟨7, 11⟩ false false, .finish 0], ⟨.simple 1, by decide +kernel, rfl⟩,
    by decide +kernel, by decide +kernel, by decide +kernel⟩

/-- A ban that comes there is lost. -/
theorem ban_lost_in_race : ∃ l, (St.run (l ++ [.ban 7])).isBanned 7 = true ∧
    (St.run (l ++ [.ban 7] ++ [.finish 0])).isBanned 7 = false :=
  ⟨[.insert ⟨7, 10⟩ false false, .drop 0], by decide +kernel, by decide +kernel⟩

/-- A call that holds a temporary reference while the last handle is dropped leaves an entry that leads nowhere. -/
theorem dead_entry_stays : ∃ l, Calm l ∧ (St.run l).pend = [] ∧ (St.run l).contains 7 = true ∧
    (St.run l).peerInfo 7 = none ∧ (St.run l).isBanned 7 = false ∧ (St.run l).handles = [] :=
  ⟨[.insert ⟨7, 10⟩ false false, .peek 7, .drop 0, .unpeek 0], calmL_sound _ (by decide +kernel), by decide +kernel,
    by decide +kernel, by decide +kernel, by decide +kernel, by decide +kernel⟩

end Tycho.KnownPeers
