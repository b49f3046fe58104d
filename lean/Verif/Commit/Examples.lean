import Verif.Commit.Executable

/-!
A concrete DAG that meets the hypotheses of the theorems of `Props.lean`: two peers, rounds 0 to 7, anchors in rounds 2 and 5
by peer 1, their proofs in rounds 3 and 6, triggers in rounds 4 and 7.
-/
namespace Tycho.Commit.Ex

open Relation

/-- Does not reorder anything. -/
def idS : Shuffler := ⟨Unit, fun _ => (), fun _ l => (l, ()), fun _ _ => List.Perm.refl _⟩
/-- Reverses every round. -/
def revS : Shuffler := ⟨Unit, fun _ => (), fun _ l => (l.reverse, ()), fun _ _ => List.reverse_perm _⟩

def conf : Conf := ⟨0, 4, 2⟩

/-- Point of `author` in `round`. -/
def pid (r a : Nat) : PointId := ⟨r, 10 * r + a, a⟩

def links (r a : Nat) : List (Nat × Nat) :=
  if r = 0 then [] else if r = 1 then [(1, 1)]
  else if r = 5 ∧ a = 1 then [(1, 41)]
  else [(1, 10 * (r - 1) + 1), (2, 10 * (r - 1) + 2)]

def U (id : PointId) : Body where
  includes := links id.round id.author
  witness := if id.round = 5 ∧ id.author = 1 then [(2, 32)] else []
  isTrigger := decide (id.author = 1 ∧ (id.round = 4 ∨ id.round = 7))
  isProof := decide (id.author = 1 ∧ (id.round = 0 ∨ id.round = 3 ∨ id.round = 6))
  chained := if id.author = 1 ∧ id.round = 3 then .indirect (pid 0 1)
    else if id.author = 1 ∧ id.round = 6 then .indirect (pid 3 1) else .inapplicable
  status := .valid
  certified := true
  hasProof := true

def view (id : PointId) : Option Body :=
  if id.round ≤ 7 ∧ (id.author = 1 ∨ id.author = 2) ∧ id.digest = 10 * id.round + id.author then some (U id) else none

def s0 : State := init conf 1 0 false view
def t4 : Point := ⟨pid 4 1, U (pid 4 1)⟩
def t7 : Point := ⟨pid 7 1, U (pid 7 1)⟩

/-- One node commits as triggers come, the other only at the end. -/
def opsA : List Op := [.extend [1, 2, 3, 4], .commit t4, .removeCommitted 2, .extend [3, 4, 5, 6, 7], .commit t7]
def opsB : List Op := [.extend [1, 2, 3, 4, 5, 6, 7], .commit t7]
def opsC : List Op := [.extend [1, 2, 3, 4], .commit t4]

def brief (a : AnchorData) := (a.anchor.id.round, a.prevAnchor, a.history.map fun p => (p.id.round, p.id.author))

/-- C05, C06, C07: histories of both anchors, for two different shuffles. -/
example : (run idS conf s0 opsA).1.map brief =
    [(2, none, [(1, 2), (1, 1), (2, 1)]), (5, some 2, [(2, 2), (3, 2), (3, 1), (4, 1), (5, 1)])] := by decide +kernel
example : (run revS conf s0 opsB).1.map brief =
    [(2, none, [(1, 1), (1, 2), (2, 1)]), (5, some 2, [(2, 2), (3, 1), (3, 2), (4, 1), (5, 1)])] := by decide +kernel

theorem view_eq {id b} (h : view id = some b) : b = U id := by
  unfold view at h; split at h <;> simp at h; exact h.symm

theorem links_digest {r a x d} (h : (x, d) ∈ links r a) (hr : r ≠ 0) : d = 10 * (r - 1) + x := by
  unfold links at h
  split at h
  · omega
  split at h
  · simp at h; omega
  split at h
  · simp at h; omega
  · simp at h; omega

theorem link_digest {p q} (h : LinkTo p (U p) q) : q.digest = 10 * q.round + q.author := by
  rcases h with ⟨h1, h2⟩ | ⟨h1, h2⟩
  · have := links_digest h1 (by omega)
    omega
  · simp only [U] at h1
    split at h1
    · simp at h1; omega
    · simp at h1

theorem unique : DigestsNameAuthors U := by
  intro p q p' q' h h' hr hd
  have h1 := link_digest h
  have h2 := link_digest h'
  cases q; cases q'; simp_all

theorem faithful : Faithful U view := by
  intro id b h; rw [view_eq h]; simp

def chain (id : PointId) : Option PointId := (Point.mk id (U id)).chainedTo
def prev (id : PointId) : Option PointId := (Point.mk id (U id)).prevId

theorem loyal : Loyal chain prev view := by
  intro id b h; rw [view_eq h]; exact ⟨rfl, rfl⟩

theorem down : Down chain := by
  intro p q h
  unfold chain Point.chainedTo at h
  simp only [U] at h
  split at h
  · simp at h
  · rename_i hc
    split at hc
    · simp at hc
    · split at hc <;> simp at hc
  · rename_i hc
    simp at h; subst h
    split at hc
    · rename_i hh; simp at hc; subst hc; simp [pid]; omega
    · split at hc
      · rename_i hh; simp at hc; subst hc; simp [pid]; omega
      · simp at hc

def isOk {ε α} : Except ε α → Bool
  | .ok _ => true
  | .error _ => false

theorem exists_ok {ε α} {x : Except ε α} (h : isOk x = true) : ∃ a, x = .ok a := by
  cases x with
  | ok a => exact ⟨a, rfl⟩
  | error e => simp [isOk] at h

def s7 : State := (run idS conf s0 [.extend [1, 2, 3, 4, 5, 6, 7]]).2

theorem quietA : Quiet idS conf U s0 opsA :=
  ⟨trivial, exists_ok (by decide +kernel), trivial, trivial, exists_ok (by decide +kernel), trivial⟩
theorem quietB : Quiet idS conf U s0 opsB := ⟨trivial, exists_ok (by decide +kernel), trivial⟩
theorem quietC : Quiet idS conf U s0 opsC := ⟨trivial, exists_ok (by decide +kernel), trivial⟩

theorem step63 : ReflTransGen (fun p q => chain p = some q) (pid 6 1) (pid 3 1) :=
  ReflTransGen.single (by decide +kernel)

theorem oneA : OneChain idS conf chain prev s0 none opsA := by
  refine ⟨trivial, ⟨exists_ok (by decide +kernel), by intro q lk h; simp [step] at h⟩, by decide +kernel,
    trivial, ⟨exists_ok (by decide +kernel), ?_⟩, trivial⟩
  intro q lk hq hlk _
  have h1 : q = pid 3 1 := (Option.some.inj ((show some (pid 3 1) = some q from by rw [← hq]; decide +kernel))).symm
  have h2 : lk = pid 6 1 := Option.some.inj (hlk.symm.trans (by decide +kernel))
  rw [h1, h2]; exact step63
theorem oneB : OneChain idS conf chain prev s0 none opsB :=
  ⟨trivial, ⟨exists_ok (by decide +kernel), by intro q lk h; simp [step] at h⟩, trivial⟩
theorem oneC : OneChain idS conf chain prev s0 none opsC :=
  ⟨trivial, ⟨exists_ok (by decide +kernel), by intro q lk h; simp [step] at h⟩, trivial⟩

/-- C24: node C (one anchor so far) agrees with node B (both anchors at once). -/
example : (run idS conf s0 opsC).1.map (fun a => (a.anchor.id, a.proof, a.history.map Point.id)) <+:
    (run idS conf s0 opsB).1.map (fun a => (a.anchor.id, a.proof, a.history.map Point.id)) := by
  refine nodes_agree unique down opsC opsB (by decide) (by decide) faithful faithful loyal loyal quietC quietB oneC oneB ?_ ?_
  · intro a b ha hb
    have e1 : a.proof = pid 3 1 := by
      have : (run idS conf s0 opsC).1.getLast?.map AnchorData.proof = some (pid 3 1) := by decide +kernel
      rw [show (run idS conf s0 opsC).1.getLast? = some a from ha] at this
      simpa using this
    have e2 : b.proof = pid 6 1 := by
      have : (run idS conf s0 opsB).1.getLast?.map AnchorData.proof = some (pid 6 1) := by decide +kernel
      rw [show (run idS conf s0 opsB).1.getLast? = some b from hb] at this
      simpa using this
    rw [e1, e2]; exact step63
  · intro h; exact absurd h (by decide +kernel)

/-- C07: the hypotheses of `anchors_linked` hold for node A. -/
theorem consistentA : Consistent idS conf s0 none opsA := by
  have dec : ∀ d : Dag, d.view = view → ProofsDecrease d := by
    intro d hd p q h
    obtain ⟨b, hb, hq⟩ := h
    rw [hd] at hb
    rw [view_eq hb] at hq
    exact down p q hq
  refine ⟨trivial, ⟨exists_ok (by decide +kernel), dec _ rfl, by intro q lk h; simp [step] at h⟩, trivial,
    trivial, ⟨exists_ok (by decide +kernel), dec _ rfl, ?_⟩, trivial⟩
  intro q lk hq hlk _
  have h1 : q = pid 3 1 := (Option.some.inj ((show some (pid 3 1) = some q from by rw [← hq]; decide +kernel))).symm
  have h2 : lk = pid 6 1 := Option.some.inj (hlk.symm.trans (by decide +kernel))
  rw [h1, h2]
  exact ReflTransGen.single ⟨U (pid 6 1), by decide +kernel, by decide +kernel⟩

example : (run idS conf s0 opsA).1.IsChain FollowsOk := anchors_linked opsA consistentA

theorem s7_reachable : Reachable idS conf s7 := ⟨1, 0, false, view, _, rfl⟩

/-- C07: `t4` is a trigger of the chain of `t7`. -/
example : ∃ A s', commit idS conf s7 t7 = (.ok A, s') ∧ A.length = 2 ∧ commitAll idS conf s7 [t4, t4, t7] = (.ok A, s') := by
  obtain ⟨A, hA⟩ : ∃ A, (commit idS conf s7 t7).1 = .ok A := exists_ok (by decide +kernel)
  have hc : commit idS conf s7 t7 = (.ok A, (commit idS conf s7 t7).2) := by rw [← hA]
  have hp : A.map AnchorData.proof = [pid 3 1, pid 6 1] := by
    have : ((commit idS conf s7 t7).1.toOption.map fun A => A.map AnchorData.proof) = some [pid 3 1, pid 6 1] := by
      decide +kernel
    rw [hA] at this
    simpa [Except.toOption] using this
  refine ⟨A, _, hc, by simpa using congrArg List.length hp, ?_⟩
  refine schedule_independent [t4, t4] s7_reachable hc ?_
  intro x hx
  have : x = t4 := by simpa using hx
  subst this
  refine ⟨by decide +kernel, ?_⟩
  have : pid 3 1 ∈ A.map AnchorData.proof := by rw [hp]; simp
  obtain ⟨a, ha, hpa⟩ := List.mem_map.1 this
  exact ⟨a, ha, by rw [hpa]; decide +kernel⟩

/-- C05: the hypotheses of `commit_history` hold for both anchors of `t7`. -/
example : ∃ a b s', commit idS conf s7 t7 = (.ok ([a] ++ b :: []), s') ∧ DigestUnique s7.dag ∧
    InHistory (s7.dag.after [a]) (historyLimit conf 5) (pid 5 1) (pid 3 2) := by
  obtain ⟨A, hA⟩ : ∃ A, (commit idS conf s7 t7).1 = .ok A := exists_ok (by decide +kernel)
  have hc : commit idS conf s7 t7 = (.ok A, (commit idS conf s7 t7).2) := by rw [← hA]
  have hp : A.map (fun a => (a.anchor.id, a.history.map Point.id)) =
      [(pid 2 1, [pid 1 2, pid 1 1, pid 2 1]), (pid 5 1, [pid 2 2, pid 3 2, pid 3 1, pid 4 1, pid 5 1])] := by
    have : ((commit idS conf s7 t7).1.toOption.map fun A => A.map (fun a => (a.anchor.id, a.history.map Point.id))) =
      some [(pid 2 1, [pid 1 2, pid 1 1, pid 2 1]), (pid 5 1, [pid 2 2, pid 3 2, pid 3 1, pid 4 1, pid 5 1])] := by
      decide +kernel
    rw [hA] at this
    simpa [Except.toOption] using this
  match A, hp, hc with
  | [a, b], hp, hc =>
    have hu : DigestUnique s7.dag := faithful_unique rfl faithful unique
    simp only [List.map_cons, List.map_nil, List.cons.injEq, Prod.mk.injEq, and_true] at hp
    obtain ⟨⟨_, _⟩, hb1, hb2⟩ := hp
    have := (commit_history (A1 := [a]) s7_reachable hu hc).2.1 (pid 3 2)
    refine ⟨a, b, _, hc, hu, ?_⟩
    have h5 : b.anchor.id.round = 5 := by rw [hb1]; rfl
    rw [h5, hb1, hb2] at this
    exact this.1 (by simp)

/-- C25: after rounds are given up, the first anchor is not executable, the second one is, and has all of its history. -/
def confG : Conf := ⟨0, 2, 1⟩
def opsG : List Op := [.extend [1, 2, 3, 4, 5, 6, 7], .dropUpto 1, .onceAfterGap]
def sG : State := (run idS confG (init confG 1 0 false view) opsG).2

example : GoodStart confG 0 false ∧ Disciplined idS confG [] (init confG 1 0 false view) opsG ∧ DigestUnique sG.dag ∧
    (handed (commit idS confG sG t7).1).map (fun a => (a.executable, brief a)) =
      [(false, 2, none, [(1, 2), (1, 1), (2, 1)]), (true, 5, none, [(3, 2), (3, 1), (4, 1), (5, 1)])] :=
  ⟨Or.inl (by decide), ⟨trivial, by decide +kernel, trivial, trivial⟩, faithful_unique rfl faithful unique, by decide +kernel⟩

end Tycho.Commit.Ex
