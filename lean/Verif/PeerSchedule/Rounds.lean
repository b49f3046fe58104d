import Verif.PeerSchedule.Props
/-!
Answers for a round over time and across nodes; statistics of an epoch.
-/
namespace Tycho.PeerSchedule
open Tycho.Table

/-- Starts of epochs a call tries to schedule. -/
def Act.starts : Act → List Round
  | .init g _ i => [g - 1, max i.prevStart (g + 1), max i.currStart (g + 1)]
  | .setPeers i => [i.prevStart, i.currStart]
  | _ => []

/-- The plan after calls that touch only the future of round `r`. -/
structure After (p : Plan) (c r : Round) (q : Plan) : Prop where
  ok : PlanOk q
  app : ∃ new, q.applied = new ++ p.applied ∧ ∀ e ∈ new, r < e.start
  nxt : ∀ e, q.next = some e → r < e.start
  cur : c ≤ q.currStart

theorem After.schedule {p q : Plan} {c r : Round} (h : After p c r q) (e : Epoch) (he : e.start ≤ c ∨ r < e.start) :
    After p c r (q.schedule e) := by
  refine ⟨planOk_schedule h.ok e, ?_, ?_, ?_⟩ <;> unfold Plan.schedule <;> split
  · exact h.app
  · exact h.app
  · exact h.nxt
  · rename_i hc
    intro e' he'
    injection he' with he'
    subst he'
    rcases he with he | he
    · exact absurd (Or.inl (Nat.le_trans he h.cur)) hc
    · exact he
  · exact h.cur
  · exact h.cur

theorem After.reach {p q : Plan} {c r : Round} (h : After p c r q) (x : Round) : After p c r (q.reach x) := by
  refine ⟨planOk_reach h.ok x, ?_, ?_, ?_⟩ <;> unfold Plan.reach <;> cases hn : q.next with
  | none => first | exact h.app | exact h.cur | (simp only [hn]; intro e he; cases he)
  | some e =>
    simp only
    by_cases hx : e.start ≤ x
    · simp only [if_pos hx]
      first
      | (obtain ⟨new, h1, h2⟩ := h.app
         refine ⟨e :: new, by rw [h1]; rfl, ?_⟩
         intro b hb
         rcases List.mem_cons.1 hb with rfl | hb
         · exact h.nxt b hn
         · exact h2 b hb)
      | (intro e' he'; cases he')
      | exact Nat.le_trans h.cur (Nat.le_of_lt (h.ok.future e hn))
    · simp only [if_neg hx]
      first | exact h.app | exact h.cur | exact h.nxt | (rw [hn]; exact fun e' he' => h.nxt e' (hn.trans he'))

theorem After.act {p q : Plan} {c r : Round} (h : After p c r q) (a : Act) (ha : ∀ n ∈ a.starts, n ≤ c ∨ r < n) :
    After p c r (q.act a) := by
  cases a <;> simp only [Plan.act]
  case init g au i =>
    have a1 := ha (g - 1) (by simp [Act.starts])
    have a2 := ha (max i.prevStart (g + 1)) (by simp [Act.starts])
    have a3 := ha (max i.currStart (g + 1)) (by simp [Act.starts])
    have h1 := (h.schedule ⟨g - 1, [(au, 0)]⟩ a1).reach (g - 1)
    have h2 : After p c r (if g + 1 < i.currStart then
      ((((q.schedule ⟨g - 1, [(au, 0)]⟩).reach (g - 1)).schedule ⟨max i.prevStart (g + 1), i.prevSub⟩).reach
        (max i.prevStart (g + 1))) else (q.schedule ⟨g - 1, [(au, 0)]⟩).reach (g - 1)) := by
      by_cases hg : g + 1 < i.currStart
      · rw [if_pos hg]; exact (h1.schedule _ a2).reach _
      · rw [if_neg hg]; exact h1
    have h3 := h2.schedule ⟨max i.currStart (g + 1), i.currSub⟩ a3
    by_cases hv : i.nextVset.isEmpty = true
    · rw [if_pos hv]; exact h3
    · rw [if_neg hv]; exact h3.reach _
  case setPeers i =>
    have h3 := ((h.schedule ⟨i.prevStart, i.prevSub⟩ (ha i.prevStart (by simp [Act.starts]))).reach
      i.prevStart).schedule ⟨i.currStart, i.currSub⟩ (ha i.currStart (by simp [Act.starts]))
    by_cases hv : i.nextVset.isEmpty = true
    · rw [if_pos hv]; exact h3
    · rw [if_neg hv]; exact h3.reach _
  case apply x => exact h.reach x
  case applyLate x => exact h.reach x
  all_goals exact h

theorem After.run (bs : List Act) : ∀ {p q : Plan} {c r : Round}, After p c r q →
    (∀ a ∈ bs, ∀ n ∈ a.starts, n ≤ c ∨ r < n) → After p c r (q.run bs) := by
  induction bs with
  | nil => exact fun h _ => h
  | cons a bs ih =>
    intro p q c r h ha
    exact ih (h.act a (ha a List.mem_cons_self)) (fun b hb => ha b (List.mem_cons_of_mem _ hb))

theorem find_take_append (new old : List Epoch) (r : Round) (hn : ∀ e ∈ new, r < e.start) (k : Nat) :
    ((new ++ old).take k).find? (fun e => decide (e.start ≤ r)) =
        (old.take k).find? (fun e => decide (e.start ≤ r)) ∨
      ((new ++ old).take k).find? (fun e => decide (e.start ≤ r)) = none := by
  have hnew : ∀ j, (new.take j).find? (fun e => decide (e.start ≤ r)) = none := by
    intro j
    rw [List.find?_eq_none]
    intro e he
    have := hn e (List.mem_of_mem_take he)
    simpa using this
  rw [List.take_append, List.find?_append, hnew, Option.none_or]
  have hsplit : old.take k = old.take (k - new.length) ++ (old.drop (k - new.length)).take (k - (k - new.length)) := by
    rw [← List.take_add]
    congr 1
    omega
  rw [hsplit, List.find?_append]
  cases (old.take (k - new.length)).find? (fun e => decide (e.start ≤ r)) with
  | none => exact Or.inr rfl
  | some e => exact Or.inl rfl

theorem After.epochOf {p q : Plan} {c r : Round} (h : After p c r q) (hp : ∀ e, p.next = some e → r < e.start) :
    q.epochOf r = p.epochOf r ∨ q.epochOf r = none := by
  have hskip : ∀ (x : Plan), (∀ e, x.next = some e → r < e.start) →
      x.epochOf r = (x.applied.take 3).find? (fun e => decide (e.start ≤ r)) := by
    intro x hx
    unfold Plan.epochOf
    cases hn : x.next with
    | none => rfl
    | some e =>
      have := hx e hn
      simp [Nat.not_le.2 this]
  rw [hskip q h.nxt, hskip p hp]
  obtain ⟨new, h1, h2⟩ := h.app
  rw [h1]
  exact find_take_append new p.applied r h2 3

/-- **Answers do not change.** Take a round that is not in the scheduled epoch. Whatever is called afterwards, if epochs
are scheduled only for later rounds (calls with epochs that are current or older already are ignored, so they are
allowed), the peers in charge of the round remain the same until they are forgotten; another non-empty list is never
given. -/
theorem peers_of_round_stable (l : Peer) (as bs : List Act) (s s' : Sched) (h : (Sched.new l).run as = some s)
    (h' : s.run bs = some s') (r : Round) (hr : ∀ n, s.atomic.starts.next = some n → r < n)
    (hb : ∀ a ∈ bs, ∀ n ∈ a.starts, n ≤ s.atomic.starts.curr ∨ r < n) :
    s'.atomic.peersOrderedFor r = s.atomic.peersOrderedFor r ∨ s'.atomic.peersOrderedFor r = [] := by
  have hi := inv_of_run (Inv.new l) h
  have hs := shows_run as (Inv.new l) (shows_new l) h
  have hs' := shows_run bs hi hs h'
  have hok : PlanOk (Plan.empty.run as) := planOk_run as planOk_empty
  have hnx : ∀ e, (Plan.empty.run as).next = some e → r < e.start := by
    intro e he
    exact hr e.start (by rw [hs.s3, he]; rfl)
  have ha : After (Plan.empty.run as) s.atomic.starts.curr r (Plan.empty.run as) :=
    ⟨hok, ⟨[], rfl, by simp⟩, hnx, by rw [hs.s2, nth_currStart]; exact Nat.le_refl _⟩
  have hA := ha.run bs hb
  rw [hs'.ordered, hs.ordered]
  unfold Plan.peersOf
  rcases hA.epochOf hnx with he | he
  · exact Or.inl (by rw [he])
  · exact Or.inr (by rw [he])

/-! ### Nodes that follow the same chain of epochs -/

/-- The chain of epochs: starts grow, subsets are not empty. -/
structure Chain (E : Nat → Epoch) : Prop where
  grow : ∀ k, (E k).start < (E (k + 1)).start
  some : ∀ k, (E k).sub ≠ []

/-- The call is given the epochs `k` and `k + 1` of the chain. -/
def Gives (E : Nat → Epoch) (k : Nat) (i : InitPeers) : Prop :=
  i.prevStart = (E k).start ∧ i.prevSub = (E k).sub ∧ i.currStart = (E (k + 1)).start ∧ i.currSub = (E (k + 1)).sub

/-- A node that knows the chain up to the epoch `hi` follows it: each `set_peers` is given two neighbour epochs, the
first of which is known already; old calls may be repeated. Everything else is arbitrary. `Follows E hi as hi'`: the
node knows the chain up to `hi'` afterwards. -/
inductive Follows (E : Nat → Epoch) : Nat → List Act → Nat → Prop where
  | nil (hi : Nat) : Follows E hi [] hi
  | peers (hi k : Nat) (i : InitPeers) (as : List Act) (hi' : Nat) :
      Gives E k i → k ≤ hi → Follows E (max hi (k + 1)) as hi' → Follows E hi (.setPeers i :: as) hi'
  | other (hi : Nat) (a : Act) (as : List Act) (hi' : Nat) :
      (∀ i, a ≠ .setPeers i) → (∀ g au i, a ≠ .init g au i) → Follows E hi as hi' → Follows E hi (a :: as) hi'

/-- Epochs `k0 + n` down to `k0`. -/
def chainList (E : Nat → Epoch) (k0 : Nat) : Nat → List Epoch
  | 0 => [E k0]
  | n + 1 => E (k0 + (n + 1)) :: chainList E k0 n

theorem Chain.mono {E : Nat → Epoch} (h : Chain E) {a b : Nat} (hab : a ≤ b) : (E a).start ≤ (E b).start := by
  induction b with
  | zero => cases Nat.le_zero.1 hab; exact Nat.le_refl _
  | succ b ih =>
    rcases Nat.lt_or_ge b a with h1 | h1
    · have : a = b + 1 := Nat.le_antisymm hab h1
      rw [this]
      exact Nat.le_refl _
    · exact Nat.le_trans (ih h1) (Nat.le_of_lt (h.grow b))

theorem Chain.lt {E : Nat → Epoch} (h : Chain E) {a b : Nat} (hab : a < b) : (E a).start < (E b).start :=
  Nat.lt_of_lt_of_le (h.grow a) (h.mono hab)

theorem chain_lt_iff {E : Nat → Epoch} (h : Chain E) (a b : Nat) : (E a).start ≤ (E b).start ↔ a ≤ b := by
  constructor
  · intro hs
    rcases Nat.lt_or_ge b a with h1 | h1
    · exact absurd (h.lt h1) (Nat.not_lt.2 hs)
    · exact h1
  · exact h.mono

/-- The plan of a node that follows the chain. -/
structure OnChain (E : Nat → Epoch) (k0 hi : Nat) (p : Plan) : Prop where
  ex : ∃ n rest, p.applied = chainList E k0 n ++ rest ∧
    ((p.next = none ∧ hi = k0 + n) ∨ (p.next = some (E (k0 + n + 1)) ∧ hi = k0 + n + 1))

theorem chainList_head (E : Nat → Epoch) (k0 n : Nat) (rest : List Epoch) (nx : Option Epoch) :
    (⟨chainList E k0 n ++ rest, nx⟩ : Plan).currStart = (E (k0 + n)).start := by
  cases n <;> rfl

theorem onChain_schedule {E : Nat → Epoch} (hc : Chain E) {k0 hi : Nat} {p : Plan} (h : OnChain E k0 hi p) (k : Nat)
    (hk : k ≤ hi) : OnChain E k0 hi (p.schedule (E k)) := by
  obtain ⟨ap, nx⟩ := p
  obtain ⟨n, rest, h1, h2⟩ := h.ex
  simp only at h1 h2
  subst h1
  unfold Plan.schedule
  rw [chainList_head]
  by_cases hg : (E k).start ≤ (E (k0 + n)).start ∨ (E k).sub.isEmpty = true
  · rw [if_pos hg]; exact ⟨n, rest, rfl, h2⟩
  · rw [if_neg hg]
    have hk2 : ¬ k ≤ k0 + n := fun hh => hg (Or.inl (hc.mono hh))
    rcases h2 with ⟨_, h3⟩ | ⟨_, h3⟩
    · omega
    · have : k = k0 + n + 1 := by omega
      subst this
      exact ⟨n, rest, rfl, Or.inr ⟨rfl, h3⟩⟩

/-- Scheduling of the epoch after the known ones. -/
theorem onChain_extend {E : Nat → Epoch} (hc : Chain E) {k0 hi : Nat} {p : Plan} (h : OnChain E k0 hi p) (k : Nat)
    (hk : k ≤ hi) (hn : p.next = none ∨ k < hi) : OnChain E k0 (max hi (k + 1)) (p.schedule (E (k + 1))) := by
  rcases Nat.lt_or_ge k hi with hlt | hge
  · have : max hi (k + 1) = hi := by omega
    rw [this]
    exact onChain_schedule hc h (k + 1) hlt
  · have hke : k = hi := by omega
    subst hke
    have hno : p.next = none := by rcases hn with hn | hn; exact hn; omega
    obtain ⟨ap, nx⟩ := p
    obtain ⟨n, rest, h1, h2⟩ := h.ex
    simp only at h1 h2 hno
    subst h1
    rcases h2 with ⟨_, h3⟩ | ⟨h4, _⟩
    · subst h3
      unfold Plan.schedule
      rw [chainList_head]
      have hl := hc.grow (k0 + n)
      have hs := hc.some (k0 + n + 1)
      rw [if_neg (by
        rintro (hh | hh)
        · exact absurd hl (Nat.not_lt.2 hh)
        · exact hs (List.isEmpty_iff.1 hh))]
      exact ⟨n, rest, rfl, Or.inr ⟨rfl, by omega⟩⟩
    · rw [hno] at h4; cases h4

theorem onChain_reach {E : Nat → Epoch} {k0 hi : Nat} {p : Plan} (h : OnChain E k0 hi p) (x : Round) :
    OnChain E k0 hi (p.reach x) := by
  obtain ⟨ap, nx⟩ := p
  obtain ⟨n, rest, h1, h2⟩ := h.ex
  simp only at h1 h2
  subst h1
  unfold Plan.reach
  rcases h2 with ⟨rfl, h3⟩ | ⟨rfl, h3⟩
  · exact ⟨n, rest, rfl, Or.inl ⟨rfl, h3⟩⟩
  · simp only
    by_cases hx : (E (k0 + n + 1)).start ≤ x
    · rw [if_pos hx]
      exact ⟨n + 1, rest, rfl, Or.inl ⟨rfl, h3⟩⟩
    · rw [if_neg hx]
      exact ⟨n, rest, rfl, Or.inr ⟨rfl, h3⟩⟩

/-- After reaching the newest known epoch nothing is scheduled. -/
theorem onChain_reach_none {E : Nat → Epoch} {k0 hi : Nat} {p : Plan} (h : OnChain E k0 hi p) :
    (p.reach (E hi).start).next = none := by
  obtain ⟨ap, nx⟩ := p
  obtain ⟨n, rest, h1, h2⟩ := h.ex
  simp only at h1 h2
  unfold Plan.reach
  rcases h2 with ⟨rfl, h3⟩ | ⟨rfl, h3⟩
  · rfl
  · subst h3
    simp only
    rw [if_pos (Nat.le_refl _)]

theorem onChain_setPeers {E : Nat → Epoch} (hc : Chain E) {k0 hi : Nat} {p : Plan} (h : OnChain E k0 hi p) (k : Nat)
    (hk : k ≤ hi) (i : InitPeers) (hg : Gives E k i) : OnChain E k0 (max hi (k + 1)) (p.act (.setPeers i)) := by
  obtain ⟨g1, g2, g3, g4⟩ := hg
  simp only [Plan.act]
  rw [g1, g2, g3, g4]
  have e1 : (⟨(E k).start, (E k).sub⟩ : Epoch) = E k := rfl
  have e2 : (⟨(E (k + 1)).start, (E (k + 1)).sub⟩ : Epoch) = E (k + 1) := rfl
  rw [e1, e2]
  have h1 := onChain_schedule hc h k hk
  have h2 := onChain_reach h1 (E k).start
  have h3 := onChain_extend hc h2 k hk (by
    rcases Nat.lt_or_ge k hi with hlt | hge
    · exact Or.inr hlt
    · have : k = hi := by omega
      subst this
      exact Or.inl (onChain_reach_none h1))
  by_cases hv : i.nextVset.isEmpty = true
  · rw [if_pos hv]; exact h3
  · rw [if_neg hv]; exact onChain_reach h3 _

theorem onChain_run {E : Nat → Epoch} (hc : Chain E) {k0 hi hi' : Nat} {as : List Act} (hf : Follows E hi as hi') :
    ∀ {p : Plan}, OnChain E k0 hi p → OnChain E k0 hi' (p.run as) := by
  induction hf with
  | nil hi => exact fun h => h
  | peers hi k i as hi' hg hk _ ih =>
    intro p h
    exact ih (onChain_setPeers hc h k hk i hg)
  | other hi a as hi' h1 h2 _ ih =>
    intro p h
    apply ih
    cases a <;> simp only [Plan.act]
    case init g au i => exact absurd rfl (h2 g au i)
    case setPeers i => exact absurd rfl (h1 i)
    case apply c => exact onChain_reach h c
    case applyLate c => exact onChain_reach h c
    all_goals exact h

theorem onChain_init {E : Nat → Epoch} (hc : Chain E) (k0 g : Nat) (au : Peer) (i : InitPeers) (hg : Gives E k0 i)
    (hgen : g + 1 < (E k0).start) : OnChain E k0 (k0 + 1) (Plan.empty.act (.init g au i)) := by
  obtain ⟨g1, g2, g3, g4⟩ := hg
  have hl := hc.grow k0
  have m1 : max (E k0).start (g + 1) = (E k0).start := Nat.max_eq_left (Nat.le_of_lt hgen)
  have m2 : max (E (k0 + 1)).start (g + 1) = (E (k0 + 1)).start :=
    Nat.max_eq_left (Nat.le_of_lt (Nat.lt_trans hgen hl))
  simp only [Plan.act]
  rw [g1, g2, g3, g4, m1, m2, if_pos (Nat.lt_trans hgen hl)]
  have e1 : (⟨(E k0).start, (E k0).sub⟩ : Epoch) = E k0 := rfl
  have e2 : (⟨(E (k0 + 1)).start, (E (k0 + 1)).sub⟩ : Epoch) = E (k0 + 1) := rfl
  rw [e1, e2]
  -- the genesis epoch
  obtain ⟨rest, hr, hcs⟩ : ∃ rest, (Plan.empty.schedule ⟨g - 1, [(au, 0)]⟩).reach (g - 1) = ⟨rest, none⟩ ∧
      (⟨rest, none⟩ : Plan).currStart < (E k0).start := by
    change ∃ rest, (if g - 1 ≤ 0 ∨ ([(au, 0)] : List (Peer × Nat)).isEmpty = true then Plan.empty
      else (⟨[], some ⟨g - 1, [(au, 0)]⟩⟩ : Plan)).reach (g - 1) = _ ∧ _
    by_cases h0 : g - 1 ≤ 0
    · rw [if_pos (Or.inl h0)]
      exact ⟨[], rfl, Nat.lt_of_le_of_lt (Nat.zero_le _) hgen⟩
    · rw [if_neg (by
        rintro (hh | hh)
        · exact h0 hh
        · cases hh)]
      refine ⟨[⟨g - 1, [(au, 0)]⟩], ?_, ?_⟩
      · simp [Plan.reach, Plan.empty]
      · exact Nat.lt_of_le_of_lt (Nat.le_trans (Nat.sub_le g 1) (Nat.le_succ g)) hgen
  rw [hr]
  have h1 : ((⟨rest, none⟩ : Plan).schedule (E k0)).reach (E k0).start = ⟨E k0 :: rest, none⟩ := by
    unfold Plan.schedule
    rw [if_neg (by
        rintro (hh | hh)
        · exact absurd hcs (Nat.not_lt.2 hh)
        · exact hc.some k0 (List.isEmpty_iff.1 hh))]
    simp [Plan.reach]
  rw [h1]
  have h2 : OnChain E k0 k0 ⟨E k0 :: rest, none⟩ := ⟨0, rest, rfl, Or.inl ⟨rfl, rfl⟩⟩
  have h3 := onChain_extend hc h2 k0 (Nat.le_refl _) (Or.inl rfl)
  have hm : max k0 (k0 + 1) = k0 + 1 := by omega
  rw [hm] at h3
  by_cases hv : i.nextVset.isEmpty = true
  · rw [if_pos hv]; exact h3
  · rw [if_neg hv]; exact onChain_reach h3 _

/-- The first epoch of a part of the chain that starts not later than the round. -/
theorem find_chain {E : Nat → Epoch} (hc : Chain E) (k0 : Nat) (rest : List Epoch) (r m : Nat) (hkm : k0 ≤ m)
    (h1 : (E m).start ≤ r) (h2 : r < (E (m + 1)).start) : ∀ (n : Nat), m ≤ k0 + n → ∀ j,
    ((chainList E k0 n ++ rest).take j).find? (fun e => decide (e.start ≤ r)) =
      if k0 + n < m + j then some (E m) else none := by
  intro n
  induction n with
  | zero =>
    intro hm j
    have : m = k0 := by omega
    subst this
    cases j with
    | zero => simp
    | succ j => simp [chainList, h1]
  | succ n ih =>
    intro hm j
    cases j with
    | zero => simp; omega
    | succ j =>
      simp only [chainList, List.cons_append, List.take_succ_cons]
      rcases Nat.lt_or_ge (k0 + n) m with hlt | hge
      · have : m = k0 + (n + 1) := by omega
        subst this
        rw [List.find?_cons, decide_eq_true h1]
        simp only
        rw [if_pos (by omega)]
      · have hs : ¬ (E (k0 + (n + 1))).start ≤ r := by
          have := hc.mono (show m + 1 ≤ k0 + (n + 1) by omega)
          exact Nat.not_le.2 (Nat.lt_of_lt_of_le h2 this)
        rw [List.find?_cons, decide_eq_false hs]
        simp only
        rw [ih hge j]
        by_cases hj : k0 + n < m + j
        · rw [if_pos hj, if_pos (by omega)]
        · rw [if_neg hj, if_neg (by omega)]

theorem OnChain.epochOf {E : Nat → Epoch} (hc : Chain E) {k0 hi : Nat} {p : Plan} (h : OnChain E k0 hi p) (r m : Nat)
    (hkm : k0 ≤ m) (hmh : m ≤ hi) (h1 : (E m).start ≤ r) (h2 : r < (E (m + 1)).start) :
    (p.epochOf r = some (E m) ∨ p.epochOf r = none) ∧ (hi ≤ m + 2 → p.epochOf r = some (E m)) := by
  obtain ⟨ap, nx⟩ := p
  obtain ⟨n, rest, e1, e2⟩ := h.ex
  simp only at e1 e2
  subst e1
  unfold Plan.epochOf
  rcases e2 with ⟨rfl, h3⟩ | ⟨rfl, h3⟩
  · simp only [Option.toList_none, List.nil_append]
    rw [find_chain hc k0 rest r m hkm h1 h2 n (by omega) 3]
    refine ⟨?_, ?_⟩
    · split
      · exact Or.inl rfl
      · exact Or.inr rfl
    · intro hh; rw [if_pos (by omega)]
  · simp only [Option.toList_some, List.singleton_append]
    rcases Nat.lt_or_ge (k0 + n) m with hlt | hge
    · have : m = k0 + n + 1 := by omega
      subst this
      rw [List.find?_cons, decide_eq_true h1]
      exact ⟨Or.inl rfl, fun _ => rfl⟩
    · have hs : ¬ (E (k0 + n + 1)).start ≤ r := by
        have := hc.mono (show m + 1 ≤ k0 + n + 1 by omega)
        exact Nat.not_le.2 (Nat.lt_of_lt_of_le h2 this)
      rw [List.find?_cons, decide_eq_false hs]
      simp only
      rw [find_chain hc k0 rest r m hkm h1 h2 n hge 3]
      refine ⟨?_, ?_⟩
      · split
        · exact Or.inl rfl
        · exact Or.inr rfl
      · intro hh; rw [if_pos (by omega)]

/-- **Every node that follows the chain of epochs gives the right peers.** A node starts with `init` at the epochs `k0`
and `k0 + 1` (after genesis), then follows the chain in any way, with any other calls, in any order, at any moment
between. For each round of an epoch `m` it was told of, the answer is the subset of that epoch, or nothing if it is
forgotten; and the last three epochs it knows are not forgotten. So no two such nodes disagree. -/
theorem nodes_agree_on_peers (E : Nat → Epoch) (hc : Chain E) (l : Peer) (k0 hi : Nat) (g : Round) (au : Peer)
    (i : InitPeers) (as : List Act) (s : Sched) (hg : Gives E k0 i) (hgen : g + 1 < (E k0).start)
    (hf : Follows E (k0 + 1) as hi) (hs : (Sched.new l).run (.init g au i :: as) = some s)
    (r m : Nat) (hkm : k0 ≤ m) (hmh : m ≤ hi) (h1 : (E m).start ≤ r) (h2 : r < (E (m + 1)).start) :
    (s.atomic.peersOrderedFor r = (E m).peers ∨ s.atomic.peersOrderedFor r = []) ∧
      (hi ≤ m + 2 → s.atomic.peersOrderedFor r = (E m).peers) := by
  rw [(peers_for_round l _ s hs r).1]
  have h0 := onChain_init hc k0 g au i hg hgen
  have hp : OnChain E k0 hi (Plan.empty.run (.init g au i :: as)) := onChain_run hc hf h0
  obtain ⟨a1, a2⟩ := hp.epochOf hc r m hkm hmh h1 h2
  unfold Plan.peersOf
  refine ⟨?_, ?_⟩
  · rcases a1 with a1 | a1
    · rw [a1]; exact Or.inl rfl
    · rw [a1]; exact Or.inr rfl
  · intro hh; rw [a2 hh]

end Tycho.PeerSchedule
