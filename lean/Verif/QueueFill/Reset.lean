import Verif.QueueFill.Lemmas

/-! Reset of the router by statistics: which accounts get a partition, independently of iteration order. -/
namespace Tycho.QueueFill
open Tycho.Bytes Tycho.Table Tycho.QueueKey Tycho.QueueDiffTl

/-- The router `r` sends the account to partition `p`, `p ≠ 0`. -/
def Routed (r : Router) (i : IAddr) (p : Nat) : Prop :=
  p ≠ 0 ∧ ∃ t a, i = .std t a ∧ Table.get r.dst a = some p

/-- Messages to the account in partition 0 of the remote diff. -/
def remoteCount (x : Remote) (i : IAddr) : Nat :=
  match x.par0 with
  | none => 0
  | some t => (Table.get t i).getD 0

/-- An account with `n` messages in own statistics has too many messages for partition 0. -/
inductive Overloaded (contains : Contains) (limit : Nat) (me : Shard) (others : List (Shard × Remote))
    (i : IAddr) (n : Nat) : Prop
  /-- in the own shard -/
  | own : contains me i = true → limit < n → Overloaded contains limit me others i n
  /-- in a shard without a top diff -/
  | unknown : contains me i = false → (∀ x ∈ others, contains x.1 i = false) → limit < n →
      Overloaded contains limit me others i n
  /-- in a shard with a top diff that does not route it: own messages and the messages there -/
  | remote (x : Shard × Remote) : contains me i = false → x ∈ others → contains x.1 i = true →
      (∀ p, ¬ Routed x.2.router i p) → limit < n + remoteCount x.2 i → Overloaded contains limit me others i n

/-- The partition an account gets, if it had none: that of the shard where it lives, otherwise 1 if it is
overloaded. -/
inductive Gets (contains : Contains) (limit : Nat) (me : Shard) (others : List (Shard × Remote))
    (i : IAddr) (n : Nat) (p : Nat) : Prop
  | remote (x : Shard × Remote) : contains me i = false → x ∈ others → contains x.1 i = true →
      Routed x.2.router i p → Gets contains limit me others i n p
  | low : Overloaded contains limit me others i n → p = 1 → Gets contains limit me others i n p

/-- Hypotheses: the accounts of the statistics are different standard accounts, and no account is in two other
shards. -/
structure ResetOk (contains : Contains) (others : List (Shard × Remote)) (es : List (IAddr × Nat)) : Prop where
  std : ∀ e ∈ es, ∃ t a, e.1 = .std t a
  distinct : (es.map (fun e => routerAddr e.1)).Nodup
  shards : ∀ x ∈ others, ∀ y ∈ others, ∀ i, contains x.1 i = true → contains y.1 i = true → x = y

theorem getPartition_none_std (r : Router) (t : Option (List Bool)) (a : Addr) :
    getPartition r none (.std t a) = (Table.get r.dst a).getD 0 := by
  simp [getPartition, routerAddr]

theorem routed_iff (r : Router) (t : Option (List Bool)) (a : Addr) (p : Nat) :
    Routed r (.std t a) p ↔ (p ≠ 0 ∧ getPartition r none (.std t a) = p) := by
  rw [getPartition_none_std]
  unfold Routed
  constructor
  · rintro ⟨hp, t', a', h, hg⟩
    simp only [IAddr.std.injEq] at h
    obtain ⟨rfl, rfl⟩ := h
    exact ⟨hp, by rw [hg]; rfl⟩
  · rintro ⟨hp, hg⟩
    refine ⟨hp, t, a, rfl, ?_⟩
    cases hx : Table.get r.dst a with
    | none => rw [hx] at hg; exact absurd hg.symm hp
    | some q => rw [hx] at hg; simp at hg; rw [hg]

theorem insertDst_std (r : Router) (t : Option (List Bool)) (a : Addr) (p : Nat) (hp : p ≠ 0) :
    ∃ r', insertDst r (.std t a) p = some r' ∧ r'.src = r.src ∧ r'.dst = Table.put r.dst a p := by
  unfold insertDst
  rw [if_neg hp]
  simp only [routerAddr]
  exact ⟨_, rfl, rfl, rfl⟩

/-- The decision for one account in the code, as the specification. -/
theorem remoteVerdict_remote (contains : Contains) (others : List (Shard × Remote)) (t : Option (List Bool)) (a : Addr)
    (n p : Nat) (h : remoteVerdict contains others (.std t a) n = .remote p) :
    ∃ x ∈ others, contains x.1 (.std t a) = true ∧ Routed x.2.router (.std t a) p := by
  unfold remoteVerdict at h
  split at h
  · cases h
  · rename_i x hx
    have hm := List.mem_of_find?_eq_some hx
    have hc := List.find?_some hx
    split at h
    · rename_i hp
      cases h
      exact ⟨x, hm, hc, (routed_iff _ _ _ _).2 ⟨hp, rfl⟩⟩
    · split at h <;> cases h

theorem remoteVerdict_total (contains : Contains) (others : List (Shard × Remote)) (t : Option (List Bool)) (a : Addr)
    (n m : Nat) (h : remoteVerdict contains others (.std t a) n = .total m) :
    ((∀ x ∈ others, contains x.1 (.std t a) = false) ∧ m = n) ∨
    ∃ x ∈ others, contains x.1 (.std t a) = true ∧ (∀ p, ¬ Routed x.2.router (.std t a) p) ∧
      m = n + remoteCount x.2 (.std t a) := by
  unfold remoteVerdict at h
  split at h
  · rename_i hx
    cases h
    left
    refine ⟨?_, rfl⟩
    intro x hm
    have := List.find?_eq_none.1 hx x hm
    simpa using this
  · rename_i x hx
    have hm := List.mem_of_find?_eq_some hx
    have hc := List.find?_some hx
    right
    split at h
    · cases h
    · rename_i hp
      have hp' : ∀ p, ¬ Routed x.2.router (.std t a) p := by
        intro p hr
        obtain ⟨h1, h2⟩ := (routed_iff _ _ _ _).1 hr
        exact hp (by rw [h2]; exact h1)
      refine ⟨x, hm, hc, hp', ?_⟩
      unfold remoteCount
      split at h <;> rename_i h' <;> cases h <;> simp [h']

/-- One step. -/
theorem resetOne_spec (contains : Contains) (limit : Nat) (me : Shard) (others : List (Shard × Remote))
    (hs : ∀ x ∈ others, ∀ y ∈ others, ∀ i, contains x.1 i = true → contains y.1 i = true → x = y)
    (st : Router × List IAddr) (t : Option (List Bool)) (a : Addr) (n : Nat) :
    ∃ st', resetOne contains limit me others st (.std t a, n) = some st' ∧ st'.1.src = st.1.src ∧
      (∀ b, b ≠ a → Table.get st'.1.dst b = Table.get st.1.dst b) ∧
      (∀ p, Routed st.1 (.std t a) p → Table.get st'.1.dst a = Table.get st.1.dst a) ∧
      (∀ p, (∀ q, ¬ Routed st.1 (.std t a) q) → Gets contains limit me others (.std t a) n p →
        Table.get st'.1.dst a = some p) ∧
      ((∀ p, ¬ Gets contains limit me others (.std t a) n p) → Table.get st'.1.dst a = Table.get st.1.dst a) ∧
      st'.2 = st.2 ++ (if getPartition st.1 none (.std t a) = 0 ∧ st'.2 ≠ st.2 then [.std t a] else []) ∧
      (st'.2 ≠ st.2 ↔ ((∀ q, ¬ Routed st.1 (.std t a) q) ∧ Overloaded contains limit me others (.std t a) n)) := by
  have put_facts : ∀ (p : Nat) (hp : p ≠ 0), ∃ r', insertDst st.1 (.std t a) p = some r' ∧ r'.src = st.1.src ∧
      (∀ b, b ≠ a → Table.get r'.dst b = Table.get st.1.dst b) ∧ Table.get r'.dst a = some p := by
    intro p hp
    obtain ⟨r', h1, h2, h3⟩ := insertDst_std st.1 t a p hp
    refine ⟨r', h1, h2, ?_, ?_⟩
    · intro b hb; rw [h3, get_put, if_neg hb]
    · rw [h3, get_put, if_pos rfl]
  have app_ne : ∀ l : List IAddr, l ++ [.std t a] ≠ l := by
    intro l h; have := congrArg List.length h; simp at this
  unfold resetOne
  dsimp only
  by_cases h0 : getPartition st.1 none (.std t a) ≠ 0
  · rw [if_pos h0]
    have hrt : Routed st.1 (.std t a) (getPartition st.1 none (.std t a)) := (routed_iff _ _ _ _).2 ⟨h0, rfl⟩
    refine ⟨st, rfl, rfl, fun _ _ => rfl, fun _ _ => rfl, fun p hn => absurd hrt (hn _), fun _ => rfl, by simp, ?_⟩
    constructor
    · intro h; exact absurd rfl h
    · rintro ⟨h, _⟩; exact absurd hrt (h _)
  rw [if_neg h0]
  have h0' : getPartition st.1 none (.std t a) = 0 := by omega
  have hnr : ∀ q, ¬ Routed st.1 (.std t a) q := by
    intro q hq
    obtain ⟨h1, h2⟩ := (routed_iff _ _ _ _).1 hq
    exact h1 (by rw [← h2, h0'])
  -- the outcome "goes to partition 1 because overloaded"
  have overloaded : Overloaded contains limit me others (.std t a) n →
      (∀ p, Gets contains limit me others (.std t a) n p → p = 1) →
      ∃ st', (insertDst st.1 (.std t a) 1).map (fun r => (r, st.2 ++ [.std t a])) = some st' ∧ st'.1.src = st.1.src ∧
      (∀ b, b ≠ a → Table.get st'.1.dst b = Table.get st.1.dst b) ∧
      (∀ p, Routed st.1 (.std t a) p → Table.get st'.1.dst a = Table.get st.1.dst a) ∧
      (∀ p, (∀ q, ¬ Routed st.1 (.std t a) q) → Gets contains limit me others (.std t a) n p →
        Table.get st'.1.dst a = some p) ∧
      ((∀ p, ¬ Gets contains limit me others (.std t a) n p) → Table.get st'.1.dst a = Table.get st.1.dst a) ∧
      st'.2 = st.2 ++ (if getPartition st.1 none (.std t a) = 0 ∧ st'.2 ≠ st.2 then [.std t a] else []) ∧
      (st'.2 ≠ st.2 ↔ ((∀ q, ¬ Routed st.1 (.std t a) q) ∧ Overloaded contains limit me others (.std t a) n)) := by
    intro ho h1
    obtain ⟨r', e1, e2, e3, e4⟩ := put_facts 1 (by decide)
    refine ⟨(r', st.2 ++ [.std t a]), by rw [e1]; rfl, e2, e3, fun p hp => absurd hp (hnr p), ?_, ?_, ?_, ?_⟩
    · intro p _ hg; rw [h1 p hg]; exact e4
    · intro hno; exact absurd (Gets.low ho rfl) (hno 1)
    · dsimp only; rw [if_pos ⟨h0', app_ne _⟩]
    · exact ⟨fun _ => ⟨hnr, ho⟩, fun _ => app_ne _⟩
  -- the outcome "stays"
  have stays : (∀ p, ¬ Gets contains limit me others (.std t a) n p) →
      ∃ st', some st = some st' ∧ st'.1.src = st.1.src ∧
      (∀ b, b ≠ a → Table.get st'.1.dst b = Table.get st.1.dst b) ∧
      (∀ p, Routed st.1 (.std t a) p → Table.get st'.1.dst a = Table.get st.1.dst a) ∧
      (∀ p, (∀ q, ¬ Routed st.1 (.std t a) q) → Gets contains limit me others (.std t a) n p →
        Table.get st'.1.dst a = some p) ∧
      ((∀ p, ¬ Gets contains limit me others (.std t a) n p) → Table.get st'.1.dst a = Table.get st.1.dst a) ∧
      st'.2 = st.2 ++ (if getPartition st.1 none (.std t a) = 0 ∧ st'.2 ≠ st.2 then [.std t a] else []) ∧
      (st'.2 ≠ st.2 ↔ ((∀ q, ¬ Routed st.1 (.std t a) q) ∧ Overloaded contains limit me others (.std t a) n)) := by
    intro hno
    refine ⟨st, rfl, rfl, fun _ _ => rfl, fun _ _ => rfl, fun p _ hg => absurd hg (hno p), fun _ => rfl, by simp, ?_⟩
    constructor
    · intro h; exact absurd rfl h
    · rintro ⟨_, ho⟩; exact absurd (Gets.low ho rfl) (hno 1)
  cases hme : contains me (.std t a) with
  | true =>
    rw [if_pos rfl]
    by_cases hn : n > limit
    · rw [if_pos hn]
      refine overloaded (.own hme hn) ?_
      intro p hg
      cases hg with
      | remote x h1 => rw [hme] at h1; cases h1
      | low _ h => exact h
    · rw [if_neg hn]
      refine stays ?_
      intro p hg
      cases hg with
      | remote x h1 => rw [hme] at h1; cases h1
      | low ho _ =>
        cases ho with
        | own _ h => exact hn h
        | unknown h1 => rw [hme] at h1; cases h1
        | remote x h1 => rw [hme] at h1; cases h1
  | false =>
    rw [if_neg (by simp)]
    cases hv : remoteVerdict contains others (.std t a) n with
    | remote p =>
      dsimp only
      obtain ⟨x, hx, hc, hr⟩ := remoteVerdict_remote contains others t a n p hv
      obtain ⟨r', e1, e2, e3, e4⟩ := put_facts p hr.1
      have huniq : ∀ q, Gets contains limit me others (.std t a) n q → q = p := by
        intro q hg
        cases hg with
        | remote y _ hy hcy hry =>
          have := hs x hx y hy _ hc hcy
          subst this
          obtain ⟨_, q1⟩ := (routed_iff _ _ _ _).1 hr
          obtain ⟨_, q2⟩ := (routed_iff _ _ _ _).1 hry
          omega
        | low ho _ =>
          cases ho with
          | own h1 => rw [hme] at h1; cases h1
          | unknown _ h => rw [h x hx] at hc; cases hc
          | remote y _ hy hcy hny =>
            have := hs x hx y hy _ hc hcy
            subst this
            exact absurd hr (hny p)
      refine ⟨(r', st.2), by rw [e1]; rfl, e2, e3, fun q hq => absurd hq (hnr q), ?_, ?_, by simp, ?_⟩
      · intro q _ hg; rw [huniq q hg]; exact e4
      · intro hno; exact absurd (Gets.remote x hme hx hc hr) (hno p)
      · constructor
        · intro h; exact absurd rfl h
        · rintro ⟨_, ho⟩
          cases ho with
          | own h1 => rw [hme] at h1; cases h1
          | unknown _ h => rw [h x hx] at hc; cases hc
          | remote y _ hy hcy hny =>
            have := hs x hx y hy _ hc hcy
            subst this
            exact absurd hr (hny p)
    | total m =>
      dsimp only
      have hsplit := remoteVerdict_total contains others t a n m hv
      have hover : Overloaded contains limit me others (.std t a) n ↔ limit < m := by
        rcases hsplit with ⟨h1, rfl⟩ | ⟨x, hx, hc, hnr', rfl⟩
        · constructor
          · intro ho
            cases ho with
            | own h => rw [hme] at h; cases h
            | unknown _ _ h => exact h
            | remote y _ hy hcy => rw [h1 y hy] at hcy; cases hcy
          · exact .unknown hme h1
        · constructor
          · intro ho
            cases ho with
            | own h => rw [hme] at h; cases h
            | unknown _ h => rw [h x hx] at hc; cases hc
            | remote y _ hy hcy _ h =>
              have := hs x hx y hy _ hc hcy
              subst this
              exact h
          · exact .remote x hme hx hc hnr'
      have hno : ∀ y ∈ others, contains y.1 (.std t a) = true → ∀ p, ¬ Routed y.2.router (.std t a) p := by
        intro y hy hcy
        rcases hsplit with ⟨h1, _⟩ | ⟨x, hx, hc, hnr', _⟩
        · rw [h1 y hy] at hcy; cases hcy
        · have := hs x hx y hy _ hc hcy
          subst this
          exact hnr'
      by_cases hn : m > limit
      · rw [if_pos hn]
        refine overloaded (hover.2 hn) ?_
        intro p hg
        cases hg with
        | remote y _ hy hcy hry => exact absurd hry (hno y hy hcy p)
        | low _ h => exact h
      · rw [if_neg hn]
        refine stays ?_
        intro p hg
        cases hg with
        | remote y _ hy hcy hry => exact absurd hry (hno y hy hcy p)
        | low ho _ => exact hn (hover.1 ho)

/-- **Which partitions accounts get.** The reset succeeds; an account that had a partition other than 0 keeps
it; an account of the statistics without one gets the partition of the shard where it lives, or partition 1
if it is overloaded; every other route and all source routes are unchanged; the accounts reported as moved
are exactly the overloaded ones that had no partition. -/
theorem reset_routes (contains : Contains) (limit : Nat) (me : Shard) (others : List (Shard × Remote))
    (es : List (IAddr × Nat)) (h : ResetOk contains others es) (r : Router) (moved : List IAddr) :
    ∃ r' new, resetRouter contains limit me others es (r, moved) = some (r', moved ++ new) ∧ r'.src = r.src ∧
      (∀ e ∈ es, ∀ a, routerAddr e.1 = some a → (∀ q, ¬ Routed r e.1 q) → ∀ p,
        Gets contains limit me others e.1 e.2 p → Table.get r'.dst a = some p) ∧
      (∀ a, (∀ e ∈ es, routerAddr e.1 = some a → (∃ q, Routed r e.1 q) ∨
          ∀ p, ¬ Gets contains limit me others e.1 e.2 p) → Table.get r'.dst a = Table.get r.dst a) ∧
      (∀ i, i ∈ new ↔ ∃ n, (i, n) ∈ es ∧ (∀ q, ¬ Routed r i q) ∧ Overloaded contains limit me others i n) := by
  induction es generalizing r moved with
  | nil => exact ⟨r, [], by simp [resetRouter], rfl, by simp, fun _ _ => rfl, by simp⟩
  | cons e es ih =>
    obtain ⟨i, n⟩ := e
    obtain ⟨t, a, hi⟩ := h.std (i, n) (by simp)
    dsimp only at hi
    subst hi
    obtain ⟨⟨r1, moved1⟩, e1, e2, e3, e4, e5, e6, e7, e8⟩ := resetOne_spec contains limit me others h.shards (r, moved) t a n
    dsimp only at e2 e3 e4 e5 e6 e7 e8
    have hd := h.distinct
    rw [List.map_cons, List.nodup_cons] at hd
    have hother : ∀ e ∈ es, ∀ b, routerAddr e.1 = some b → b ≠ a := by
      intro e he b hb hba
      apply hd.1
      rw [List.mem_map]
      exact ⟨e, he, by rw [hb, hba]; rfl⟩
    have hroute : ∀ e ∈ es, ∀ q, Routed r1 e.1 q ↔ Routed r e.1 q := by
      intro e he q
      unfold Routed
      constructor
      · rintro ⟨hq, t', b, hb, hg⟩
        rw [e3 b (hother e he b (by rw [hb]; rfl))] at hg
        exact ⟨hq, t', b, hb, hg⟩
      · rintro ⟨hq, t', b, hb, hg⟩
        rw [← e3 b (hother e he b (by rw [hb]; rfl))] at hg
        exact ⟨hq, t', b, hb, hg⟩
    obtain ⟨r', new, f1, f2, f3, f4, f5⟩ := ih
      ⟨fun e he => h.std e (by simp [he]), hd.2, h.shards⟩ r1 moved1
    rw [resetRouter, e1]
    dsimp only
    rw [f1]
    have hra : Table.get r'.dst a = Table.get r1.dst a :=
      f4 a (fun e he hb => absurd rfl (hother e he a hb))
    refine ⟨r', (if getPartition r none (.std t a) = 0 ∧ moved1 ≠ moved then [.std t a] else []) ++ new, ?_,
      by rw [f2, e2], ?_, ?_, ?_⟩
    · rw [← List.append_assoc, ← e7]
    · intro e he b hb hn p hg
      rcases List.mem_cons.1 he with rfl | he
      · simp only [routerAddr, Option.some.injEq] at hb
        subst hb
        rw [hra]; exact e5 p hn hg
      · exact f3 e he b hb (fun q hq => hn q ((hroute e he q).1 hq)) p hg
    · intro b hb
      have h1 : Table.get r'.dst b = Table.get r1.dst b := by
        refine f4 b ?_
        intro e he hbe
        rcases hb e (by simp [he]) hbe with ⟨q, hq⟩ | hq
        · exact .inl ⟨q, (hroute e he q).2 hq⟩
        · exact .inr hq
      rw [h1]
      by_cases hba : b = a
      · subst hba
        rcases hb (.std t b, n) (by simp) rfl with ⟨q, hq⟩ | hq
        · exact e4 q hq
        · exact e6 hq
      · exact e3 b hba
    · intro i
      rw [List.mem_append, f5]
      have hfirst : (i ∈ if getPartition r none (.std t a) = 0 ∧ moved1 ≠ moved then [.std t a] else []) ↔
          (i = .std t a ∧ (∀ q, ¬ Routed r i q) ∧ Overloaded contains limit me others i n) := by
        constructor
        · intro hm
          split at hm
          · rename_i hc
            simp only [List.mem_singleton] at hm
            subst hm
            exact ⟨rfl, e8.1 hc.2⟩
          · simp at hm
        · rintro ⟨rfl, hc⟩
          have hne := e8.2 hc
          have h0 : getPartition r none (.std t a) = 0 := by
            by_contra h0
            exact hc.1 _ ((routed_iff _ _ _ _).2 ⟨h0, rfl⟩)
          rw [if_pos ⟨h0, hne⟩]; simp
      rw [hfirst]
      constructor
      · rintro (⟨rfl, hc⟩ | ⟨m, hm, hc⟩)
        · exact ⟨n, by simp, hc⟩
        · exact ⟨m, by simp [hm], fun q hq => hc.1 q ((hroute _ hm q).2 hq), hc.2⟩
      · rintro ⟨m, hm, hc⟩
        rcases List.mem_cons.1 hm with hm | hm
        · simp only [Prod.mk.injEq] at hm
          obtain ⟨rfl, rfl⟩ := hm
          exact .inl ⟨rfl, hc⟩
        · exact .inr ⟨m, hm, fun q hq => hc.1 q ((hroute _ hm q).1 hq), hc.2⟩

theorem overloaded_perm (contains : Contains) (limit : Nat) (me : Shard) (others others' : List (Shard × Remote))
    (hp : others.Perm others') (i : IAddr) (n : Nat) (h : Overloaded contains limit me others i n) :
    Overloaded contains limit me others' i n := by
  cases h with
  | own h1 h2 => exact .own h1 h2
  | unknown h1 h2 h3 => exact .unknown h1 (fun x hx => h2 x (hp.mem_iff.2 hx)) h3
  | remote x h1 h2 h3 h4 h5 => exact .remote x h1 (hp.mem_iff.1 h2) h3 h4 h5

theorem gets_perm (contains : Contains) (limit : Nat) (me : Shard) (others others' : List (Shard × Remote))
    (hp : others.Perm others') (i : IAddr) (n p : Nat) (h : Gets contains limit me others i n p) :
    Gets contains limit me others' i n p := by
  cases h with
  | remote x h1 h2 h3 h4 => exact .remote x h1 (hp.mem_iff.1 h2) h3 h4
  | low h1 h2 => exact .low (overloaded_perm contains limit me others others' hp i n h1) h2

/-- **The routes do not depend on the iteration order** of the statistics or of the other shards: every
collator of the block builds the same router from the same statistics. -/
theorem reset_order_independent (contains : Contains) (limit : Nat) (me : Shard) (others others' : List (Shard × Remote))
    (es es' : List (IAddr × Nat)) (h : ResetOk contains others es) (ho : others.Perm others') (he : es.Perm es')
    (r : Router) :
    ∃ r1 m1 r2 m2, resetRouter contains limit me others es (r, []) = some (r1, m1) ∧
      resetRouter contains limit me others' es' (r, []) = some (r2, m2) ∧ r1.src = r2.src ∧
      (∀ a, Table.get r1.dst a = Table.get r2.dst a) ∧ (∀ i, i ∈ m1 ↔ i ∈ m2) := by
  have h' : ResetOk contains others' es' :=
    ⟨fun e h1 => h.std e (he.mem_iff.2 h1), ((he.map _).nodup_iff).1 h.distinct,
      fun x hx y hy => h.shards x (ho.mem_iff.2 hx) y (ho.mem_iff.2 hy)⟩
  obtain ⟨r1, m1, a1, a2, a3, a4, a5⟩ := reset_routes contains limit me others es h r []
  obtain ⟨r2, m2, b1, b2, b3, b4, b5⟩ := reset_routes contains limit me others' es' h' r []
  refine ⟨r1, m1, r2, m2, a1, b1, by rw [a2, b2], ?_, ?_⟩
  · intro a
    by_cases hx : ∃ e ∈ es, routerAddr e.1 = some a ∧ (∀ q, ¬ Routed r e.1 q) ∧ ∃ p, Gets contains limit me others e.1 e.2 p
    · obtain ⟨e, he1, hr, hn, p, hg⟩ := hx
      rw [a3 e he1 a hr hn p hg, b3 e (he.mem_iff.1 he1) a hr hn p (gets_perm contains limit me others others' ho _ _ _ hg)]
    · have hno : ∀ e ∈ es, routerAddr e.1 = some a → (∃ q, Routed r e.1 q) ∨
          ∀ p, ¬ Gets contains limit me others e.1 e.2 p := by
        intro e he1 hr
        by_cases hq : ∃ q, Routed r e.1 q
        · exact .inl hq
        · exact .inr (fun p hg => hx ⟨e, he1, hr, fun q h => hq ⟨q, h⟩, p, hg⟩)
      rw [a4 a hno, b4 a]
      intro e he1 hr
      rcases hno e (he.mem_iff.2 he1) hr with hq | hq
      · exact .inl hq
      · exact .inr (fun p hg => hq p (gets_perm contains limit me others' others ho.symm _ _ _ hg))
  · intro i
    rw [a5, b5]
    constructor
    · rintro ⟨n, h1, h2, h3⟩
      exact ⟨n, he.mem_iff.1 h1, h2, overloaded_perm contains limit me others others' ho _ _ h3⟩
    · rintro ⟨n, h1, h2, h3⟩
      exact ⟨n, he.mem_iff.2 h1, h2, overloaded_perm contains limit me others' others ho.symm _ _ h3⟩

/-- A router never gets an explicit route to partition 0: the request is refused. -/
theorem insert_zero_refused (r : Router) (i : IAddr) : insertSrc r i 0 = none ∧ insertDst r i 0 = none := by
  simp [insertSrc, insertDst]

end Tycho.QueueFill
