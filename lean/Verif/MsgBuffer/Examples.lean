import Verif.MsgBuffer.History

/-! ## Concrete cases -/
namespace Tycho.MsgBuffer.Ex

open Tycho.MsgBuffer Tycho.Table

def im (a n : Nat) : Msg := ⟨a, n, .int (n, n)⟩
def em (a ct : Nat) : Msg := ⟨a, ct, .ext ct⟩

/-- Slots of three messages, externals older than 50 expire, account 9 is blocked. -/
def prm : Params := ⟨3, .skipExpired 50, fun a => a == 9⟩

/-- Two buffers are filled, the first of them inside a transaction. -/
def before : List Op := [.add 0 (im 1 10), .add 0 (im 1 11), .add 0 (im 2 12), .add 0 (im 1 13), .add 0 (im 1 14), .add 0 (im 3 15), .add 0 (im 9 16),
  .add 1 (em 2 40), .add 1 (em 2 60), .add 1 (em 4 70)]

def during : List Op := [.fill 0 prm 2 [], .add 0 (im 2 17), .remove 0 (fun a => a == 9), .fill 1 prm 2 [], .fill 0 prm 2 []]

/-- The hypotheses of `rollback_exact` hold. -/
def legalB (v : Nat) (w : World) : Op → Bool
  | .add _ _ => true
  | .remove i rm => (w.bufs i).msgs.all (fun e => !rm e.1 || e.2.all Msg.isInt)
  | .fill _ p _ _ => p.vert == v
  | .begin i => (w.bufs i).tx.isNone
  | .commit i => (w.bufs i).tx.isSome
  | .rollback i => (w.bufs i).tx.isSome
  | .next => true

def legalAllB (v : Nat) (w : World) : List Op → Bool
  | [] => true
  | op :: ops => legalB v w op && (match run w op with
    | some w' => legalAllB v w' ops
    | none => true)

theorem legal_of {v : Nat} {w : World} {op : Op} (h : legalB v w op = true) : Legal v w op := by
  cases op with
  | remove i rm =>
    intro e he hr m hm
    simp only [legalB, List.all_eq_true] at h
    have := h e he
    rw [hr] at this
    simp only [Bool.not_true, Bool.false_or, List.all_eq_true] at this
    exact this m hm
  | _ => simpa [legalB, Legal] using h

theorem legalAll_of {v : Nat} (ops : List Op) {w : World} (h : legalAllB v w ops = true) : LegalAll v w ops := by
  induction ops generalizing w with
  | nil => trivial
  | cons op ops ih =>
    simp only [legalAllB, Bool.and_eq_true] at h
    refine ⟨legal_of h.1, ?_⟩
    intro w' e
    rw [e] at h
    exact ih h.2

example : LegalAll 3 World.init (before ++ .begin 0 :: during) := legalAll_of _ (by decide +kernel)
example : ∀ op ∈ during, ¬ op.isTx 0 := by
  intro op h
  simp only [during, List.mem_cons, List.not_mem_nil, or_false] at h
  rcases h with rfl | rfl | rfl | rfl | rfl <;> exact id

example : ∃ w0 w1 w2, runs World.init before = some w0 ∧ runs w0 (.begin 0 :: during) = some w1 ∧ run w1 (.rollback 0) = some w2 ∧ w2.bufs 0 = w0.bufs 0 :=
  rollback_exact (v := 3) (by decide) before during 0 (legalAll_of _ (by decide +kernel)) (by
    intro op h
    simp only [during, List.mem_cons, List.not_mem_nil, or_false] at h
    rcases h with rfl | rfl | rfl | rfl | rfl <;> exact id)

/-- What the world looks like after the first fill: two slots, account 1 has one message left, account 3 found no place. -/
def view (w : World) : List (Acc × List Nat) × List (Nat × List Nat × Nat) := ((w.bufs 0).msgs.map (fun e => (e.1, e.2.map Msg.body)),
  w.grp.slots.map (fun e => (e.1, e.2.accounts, e.2.count)))

example : (runs World.init (before ++ [.fill 0 prm 2 []])).map view = some ([(1, [14]), (9, [16])], [(2, [2, 3], 2), (1, [1], 3)]) := by decide +kernel
example : (runs World.init (before ++ [.fill 0 prm 2 []])).map (fun w => w.grp.msgs 1) = some [im 1 10, im 1 11, im 1 13] := by decide +kernel

/-- Then the second buffer: the expired external is dropped, the other one goes to the slot of its account, account 4 finds no place. -/
example : (runs World.init (before ++ [.fill 0 prm 2 [], .fill 1 prm 2 []])).map (fun w => (w.grp.msgs 2, (w.bufs 1).msgs)) =
    some ([im 2 12, em 2 60], [(4, [em 4 70])]) := by decide +kernel

/-- A buffer and a group with a slot that has room: the hypotheses of `fill_correct` hold for them. -/
theorem mid : ∃ w, runs World.init (before ++ [.fill 0 prm 2 []]) = some w ∧ (∀ i, BufOk (w.bufs i)) ∧ GroupOk 3 w.grp :=
  history_from_init (by decide) _ (legalAll_of _ (by decide +kernel))

/-- Finding: the slot that moved to the bucket of 3 messages is still in the bucket of 2 messages (`noteRemoval` drops the first slot of each
count), so the group with two full slots denies to be filled. -/
example : (runs World.init (before ++ [.fill 0 prm 2 [], .fill 1 prm 2 []])).map (fun w =>
    (w.grp.slots.map (fun e => (e.1, e.2.count)), w.grp.index, isFilled w.grp 2 3)) = some ([(2, 3), (1, 3)], [[], [], [2], [1, 2]], false) := by decide +kernel

/-- A group that is filled at once knows it. -/
example : (runs World.init [.add 0 (im 1 10), .add 0 (im 1 11), .add 0 (im 2 12), .add 0 (im 2 13), .fill 0 ⟨2, .includeAll, fun _ => false⟩ 2 []]).map (fun w =>
    isFilled w.grp 2 2) = some true := by decide +kernel

/-- Why the slot size must not shrink: with a stale entry of the index, a slot with three messages is visited by a fill with slot size two, where
`slot_vert_size - slot.msgs_count()` underflows in the code. -/
example : (runs World.init [.add 0 (im 1 10), .fill 0 prm 1 [], .add 0 (im 1 11), .add 0 (im 1 12), .fill 0 prm 1 []]).map (fun w =>
    (((presize w.grp.index 2).take 2).flatten, w.grp.slots.map (fun e => (e.1, e.2.count)))) = some ([1], [(1, 3)]) := by decide +kernel

/-- Removing an account with externals breaks the counter of internals: why `Legal` asks for internal messages. -/
example : (removeAccounts (addMessage (addMessage Buffer.empty (im 1 1)) (em 2 1)) (fun a => a == 2)).int = 0 := by decide +kernel

/-- Merging of groups: accounts 1 and 2, and account 5. -/
example : (runs World.init [.add 0 (im 1 10), .add 0 (im 2 12), .fill 0 prm 2 []]).bind (fun w =>
    (runs World.init [.add 0 (im 5 10), .add 0 (em 5 90), .fill 0 prm 2 []]).bind (fun w' =>
      (addGroup w.grp w'.grp).map (fun g => (g.slots.map (fun e => (e.1, e.2.accounts, e.2.count)), g.int, g.ext)))) =
    some ([(3, [5], 2), (2, [2], 1), (1, [1], 1)], 3, 1) := by decide +kernel

/-- Merging of groups with a common account fails. -/
example : (runs World.init [.add 0 (im 1 10), .fill 0 prm 2 []]).bind (fun w => (addGroup w.grp w.grp).map (fun g => g.int)) = none := by decide +kernel

end Tycho.MsgBuffer.Ex
