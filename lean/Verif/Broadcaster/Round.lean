import Verif.Broadcaster.Props

/-! The collector of a round (`consensus/src/intercom/broadcast/collector.rs`) together with the
broadcaster of the own point of that round. -/
namespace Tycho.Broadcaster
open Tycho.Table

/-- Why a collector ended. -/
inductive Fin where
  | ready
  | bcasterFailed
  | roundsMoved
deriving DecidableEq, Repr

/-- consensus/src/intercom/broadcast/collector.rs:63-76 `CollectorTask`, with the watch channel of its
status: `seen` tells whether the broadcaster has seen the last value. -/
structure Col where
  includes : Bool := false
  bcasterOk : Bool := false
  attempt : Nat := 0
  seen : Bool := true
  fin : Option Fin := none
deriving DecidableEq, Repr

/-- consensus/src/intercom/broadcast/collector.rs:163-173 `is_ready`. -/
def Col.isReady (k : Col) : Bool := k.includes && k.bcasterOk

/-- The end of the loop when `is_ready` holds (109-112, 122-124, 128-130). -/
def Col.check (k : Col) : Col := if k.isReady then { k with fin := some .ready } else k

/-- consensus/src/intercom/broadcast/collector.rs:175-213 `match_watched_rounds`: the rounds tell to
stop. -/
def roundsMoved (current next consensus topKnown : Nat) : Bool :=
  decide (next < consensus) || decide (current ≤ topKnown)

/-- A round: the collector and the broadcaster of the own point. -/
structure Round where
  col : Col := {}
  bc : St

/-- What may happen in a round. -/
inductive REv where
  /-- enough broadcasts of others are collected -/
  | includes
  /-- the retry timer of the collector ticks -/
  | tick
  /-- the collector takes the signal of the broadcaster -/
  | signal (x : Signal)
  /-- the round of the consensus or the top known anchor changes -/
  | rounds (consensus topKnown : Nat)
  /-- the broadcaster sees the change of the collector's status -/
  | status
  /-- the broadcaster sees that the collector ended -/
  | closed
  /-- anything else of the broadcaster -/
  | other (e : Ev)
deriving DecidableEq, Repr

/-- When an event of the round can happen. -/
def renabled (r : Round) : REv → Prop
  | .includes => r.col.fin = none ∧ r.col.includes = false
  | .tick => r.col.fin = none
  | .signal x => r.col.fin = none ∧ r.col.bcasterOk = false ∧ x ∈ r.bc.signals
  | .rounds _ _ => r.col.fin = none
  | .status => r.col.fin = none ∧ r.col.seen = false ∧ enabled r.bc (.status r.col.attempt)
  | .closed => r.col.fin ≠ none ∧ enabled r.bc .closed
  | .other e => enabled r.bc e ∧ e ≠ .closed ∧ ∀ a, e ≠ .status a

/-- consensus/src/intercom/broadcast/collector.rs:80-150 `run`; `n` is the current round.
Simplification: the collector may end as soon as a signal is there, whenever it was sent. -/
def rstep (c : Cfg) (n : Nat) (r : Round) : REv → Option Round
  | .includes => some { r with col := ({ r.col with includes := true }).check }
  | .tick => some ⟨if r.col.isReady then { r.col with fin := some .ready }
      else { r.col with attempt := (r.col.attempt + 1) % 256, seen := false }, r.bc⟩
  | .signal .ok => some { r with col := ({ r.col with bcasterOk := true }).check }
  | .signal .err => some { r with col := { r.col with fin := some .bcasterFailed } }
  | .rounds cr tk =>
    some ⟨if roundsMoved n (n + 1) cr tk then { r.col with fin := some .roundsMoved } else r.col, r.bc⟩
  | .status => (step c r.bc (.status r.col.attempt)).map fun b => ⟨{ r.col with seen := true }, b⟩
  | .closed => (step c r.bc .closed).map fun b => ⟨r.col, b⟩
  | .other e => (step c r.bc e).map fun b => ⟨r.col, b⟩

/-- The states of a round. -/
inductive RReach (c : Cfg) (n : Nat) : List REv → Round → Prop
  | init : RReach c n [] ⟨{}, new c⟩
  | step {h r e r'} : RReach c n h r → renabled r e → rstep c n r e = some r' → RReach c n (h ++ [e]) r'

/-- The event of the broadcaster in an event of the round. -/
def toEv (r : Round) : REv → Option Ev
  | .status => some (.status r.col.attempt)
  | .closed => some .closed
  | .other e => some e
  | _ => none

theorem rstep_bc {c n r e r'} (he : renabled r e) (hs : rstep c n r e = some r') :
    r'.bc = r.bc ∨ ∃ x, enabled r.bc x ∧ step c r.bc x = some r'.bc := by
  cases e with
  | includes => cases hs; exact .inl rfl
  | tick => cases hs; exact .inl rfl
  | signal x => cases x <;> (cases hs; exact .inl rfl)
  | rounds a b => cases hs; exact .inl rfl
  | status =>
    obtain ⟨b, h1, rfl⟩ := Option.map_eq_some_iff.mp hs
    exact .inr ⟨_, he.2.2, h1⟩
  | closed => cases hs; exact .inr ⟨.closed, he.2, rfl⟩
  | other x =>
    obtain ⟨b, h1, rfl⟩ := Option.map_eq_some_iff.mp hs
    exact .inr ⟨_, he.1, h1⟩

/-- The broadcaster in a round behaves as a broadcaster. -/
theorem bc_reach {c n h r} (hr : RReach c n h r) : ∃ h', Reach c h' r.bc := by
  induction hr with
  | init => exact ⟨[], .init⟩
  | step _ he hs ih =>
    obtain ⟨h', ih⟩ := ih
    rcases rstep_bc he hs with h | ⟨x, h1, h2⟩
    · exact ⟨h', h ▸ ih⟩
    · exact ⟨h' ++ [x], .step ih h1 h2⟩

/-- What holds of the collector. -/
structure RInv (r : Round) (h : List REv) : Prop where
  incl : r.col.includes = true ↔ .includes ∈ h
  ok : r.col.bcasterOk = true → .ok ∈ r.bc.signals
  ready : r.col.fin = some .ready → r.col.isReady = true
  busy : r.col.fin = none → r.col.isReady = false
  failed : r.col.fin = some .bcasterFailed → .err ∈ r.bc.signals
  attempt : r.col.attempt < 256

theorem signals_keep {c h s e t x} (hc : c.WF) (hr : Reach c h s) (he : enabled s e)
    (ht : step c s e = some t) (hx : x ∈ s.signals) : x ∈ t.signals := by
  obtain ⟨hI, hH⟩ := reach_inv hc hr
  cases e with
  | status a =>
    have hi : s.phase ≠ .idle := by rw [show s.phase = .run from he]; simp
    have hne : s.signals ≠ [] := List.ne_nil_of_mem hx
    simp only [step, shouldFinish] at ht
    split at ht
    · cases ht; simpa [hne] using hx
    · split at ht
      · rename_i h; exact absurd h.2.2 hne
      · rw [(attempt_frame hc hI hi ht).1.signals]; exact hx
  | start =>
    obtain ⟨t', h1, _, h2⟩ := begin_some (ph := .run) hI (by simp) (.inl he)
    have ht : beginLoop c s .run = some t := ht
    rw [h1] at ht; cases ht; rw [h2]; exact hx
  | cont =>
    have : s.phase = .idle ∨ s.bcastPeers = [] := by
      rcases he with he | he
      · exact .inl he
      · exact .inr (hI.begun (by rw [he]; simp))
    obtain ⟨t', h1, _, h2⟩ := begin_some (ph := .cont 1) hI (by simp) this
    have ht : beginLoop c s (.cont 1) = some t := ht
    rw [h1] at ht; cases ht; rw [h2]; exact hx
  | tick =>
    obtain ⟨a, ha⟩ := he
    simp only [step, ha] at ht
    obtain ⟨h1, h2, h3, h4, h5, h6, h7, h8, h9, h10, h11⟩ := hI
    have hi : Inv c { s with phase := .cont ((a + 1) % 256) } :=
      ⟨h1, h2, h3, h4, h5, h6, h7, fun e => (by cases e), fun _ => h9 (by rw [ha]; simp), h10, h11⟩
    rw [(attempt_frame hc hi (by simp) ht).1.signals]; exact hx
  | bcastDone q r =>
    obtain ⟨_, hm, hn, _⟩ := inv_answer hI (perm_bcast hI.perm he.2)
    simp only [step, matchBroadcast, if_neg (show ¬ q ∉ s.inflight by simpa using hm)] at ht
    cases r with
    | ok => rw [(request_frame (by exact hn) ht).1.signals]; exact hx
    | _ => cases ht; exact hx
  | sigDone q a r =>
    obtain ⟨_, hm, hn, _⟩ := inv_answer hI (perm_sig hI.perm he.2)
    simp only [step, matchSignature, if_neg (show ¬ q ∉ s.inflight by simpa using hm)] at ht
    cases r with
    | noPoint =>
      by_cases ha : a = true
      · rw [if_pos ha] at ht; cases ht; exact hx
      · rw [if_neg ha] at ht; rw [(broadcast_frame (by exact hn) ht).1.signals]; exact hx
    | signature y =>
      by_cases hs : q ∈ c.signers
      · by_cases hv : c.valid q y = true
        · simp only [if_pos hs, if_pos hv] at ht; cases ht; exact hx
        · simp only [if_pos hs, if_neg hv] at ht; cases ht; exact hx
      · simp only [if_neg hs] at ht; cases ht; exact hx
    | rejected =>
      by_cases hs : q ∈ c.signers
      · simp only [if_pos hs] at ht; cases ht; exact hx
      · simp only [if_neg hs] at ht; cases ht; exact hx
    | _ => cases ht; exact hx
  | resolved q =>
    simp only [step, resolved] at ht
    split at ht
    · cases ht; exact hx
    · rename_i hq
      rw [(broadcast_frame (by exact hq) ht).1.signals]; exact hx
  | _ => cases ht; exact hx

theorem check_fin (k : Col) (h : k.fin = none) :
    (k.check.fin = some .ready ∧ k.isReady = true) ∨ (k.check.fin = none ∧ k.isReady = false) := by
  unfold Col.check
  cases hk : k.isReady
  · exact .inr ⟨by simpa using h, rfl⟩
  · exact .inl ⟨rfl, rfl⟩

theorem check_same (k : Col) : k.check.includes = k.includes ∧ k.check.bcasterOk = k.bcasterOk ∧
    k.check.attempt = k.attempt := by
  unfold Col.check; split <;> exact ⟨rfl, rfl, rfl⟩

theorem rinv {c n h r} (hc : c.WF) (hr : RReach c n h r) : RInv r h := by
  induction hr with
  | init => constructor <;> simp [new, Col.isReady]
  | step hr he hs ih =>
    rename_i h r e r'
    obtain ⟨h', hb⟩ := bc_reach hr
    have keep : ∀ x ∈ r.bc.signals, x ∈ r'.bc.signals := by
      intro x hx
      rcases rstep_bc he hs with h | ⟨y, h1, h2⟩
      · rw [h]; exact hx
      · exact signals_keep hc hb h1 h2 hx
    have plain : e ≠ .includes → (REv.includes ∈ h ++ [e] ↔ REv.includes ∈ h) := by
      intro h; simp only [List.mem_append, List.mem_singleton]
      exact ⟨fun k => k.elim id (fun k => absurd k.symm h), .inl⟩
    have same : e ≠ .includes → r'.col.includes = r.col.includes → r'.col.bcasterOk = r.col.bcasterOk →
        r'.col.attempt = r.col.attempt → r'.col.fin = r.col.fin → RInv r' (h ++ [e]) := by
      intro h0 h1 h2 h3 h4
      refine ⟨by rw [h1, plain h0]; exact ih.incl, fun h => keep _ (ih.ok (h2 ▸ h)), fun h => ?_, fun h => ?_,
        fun h => keep _ (ih.failed (h4 ▸ h)), h3 ▸ ih.attempt⟩
      · rw [Col.isReady, h1, h2]; exact ih.ready (h4 ▸ h)
      · rw [Col.isReady, h1, h2]; exact ih.busy (h4 ▸ h)
    cases e with
    | includes =>
      cases hs
      obtain ⟨k1, k2, k3⟩ := check_same { r.col with includes := true }
      have hf := check_fin { r.col with includes := true } he.1
      refine ⟨by simp [k1], fun h => ih.ok (by rwa [k2] at h), fun h => ?_, fun h => ?_, fun h => ?_, by rw [k3]; exact ih.attempt⟩
      · rw [Col.isReady, k1, k2]
        rcases hf with ⟨_, f⟩ | ⟨f, _⟩
        · exact f
        · rw [f] at h; cases h
      · rw [Col.isReady, k1, k2]
        rcases hf with ⟨f, _⟩ | ⟨_, f⟩
        · rw [f] at h; cases h
        · exact f
      · rcases hf with ⟨f, _⟩ | ⟨f, _⟩ <;> (rw [f] at h; cases h)
    | tick =>
      have hb := ih.busy he
      simp only [rstep, hb, Bool.false_eq_true, if_false, Option.some.injEq] at hs
      subst hs
      refine ⟨by rw [plain (by simp)]; exact ih.incl, ih.ok, fun h => ?_, fun _ => hb, fun h => ?_, Nat.mod_lt _ (by omega)⟩
      · rw [show r.col.fin = none from he] at h; cases h
      · rw [show r.col.fin = none from he] at h; cases h
    | signal x =>
      cases x with
      | ok =>
        cases hs
        obtain ⟨k1, k2, k3⟩ := check_same { r.col with bcasterOk := true }
        have hf := check_fin { r.col with bcasterOk := true } he.1
        refine ⟨by rw [plain (by simp), k1]; exact ih.incl, fun _ => he.2.2, fun h => ?_, fun h => ?_, fun h => ?_, by rw [k3]; exact ih.attempt⟩
        · rw [Col.isReady, k1, k2]
          rcases hf with ⟨_, f⟩ | ⟨f, _⟩
          · exact f
          · rw [f] at h; cases h
        · rw [Col.isReady, k1, k2]
          rcases hf with ⟨f, _⟩ | ⟨_, f⟩
          · rw [f] at h; cases h
          · exact f
        · rcases hf with ⟨f, _⟩ | ⟨f, _⟩ <;> (rw [f] at h; cases h)
      | err =>
        cases hs
        exact ⟨by rw [plain (by simp)]; exact ih.incl, ih.ok, fun h => by simp at h, fun h => by simp at h,
          fun _ => he.2.2, ih.attempt⟩
    | rounds a b =>
      by_cases hm : roundsMoved n (n + 1) a b = true
      · simp only [rstep, if_pos hm, Option.some.injEq] at hs
        subst hs
        exact ⟨by rw [plain (by simp)]; exact ih.incl, ih.ok, fun h => by simp at h, fun h => by simp at h,
          fun h => by simp at h, ih.attempt⟩
      · simp only [rstep, if_neg hm, Option.some.injEq] at hs
        subst hs
        exact same (by simp) rfl rfl rfl rfl
    | status =>
      obtain ⟨b, _, rfl⟩ := Option.map_eq_some_iff.mp hs
      exact same (by simp) rfl rfl rfl rfl
    | closed =>
      cases hs
      exact same (by simp) rfl rfl rfl rfl
    | other x =>
      obtain ⟨b, _, rfl⟩ := Option.map_eq_some_iff.mp hs
      exact same (by simp) rfl rfl rfl rfl

/-- C167. A collector that ended as ready has collected enough broadcasts of others, and the own
point has valid signatures of the majority of others: the evidence given, or, before the broadcaster
has noticed, the signatures it holds. -/
theorem ready_means {c n h r} (hc : c.WF) (hr : RReach c n h r) (hf : r.col.fin = some .ready)
    (hd : r.bc.phase ≠ .dead) :
    .includes ∈ h ∧ ∃ ev, (r.bc.evidence = some ev ∨ (r.bc.evidence = none ∧ ev = r.bc.sigs)) ∧
      GoodEvidence c ev ∧ c.count.majorityOfOthers ≤ ev.length := by
  have hi := rinv hc hr
  have hb := hi.ready hf
  simp only [Col.isReady, Bool.and_eq_true] at hb
  refine ⟨hi.incl.mp hb.1, ?_⟩
  obtain ⟨h', hr'⟩ := bc_reach hr
  obtain ⟨hI, hH⟩ := reach_inv hc hr'
  rcases hH.ok (hi.ok hb.2) with ⟨h1, h2⟩ | ⟨ev, h1, h2⟩ | h1
  · exact ⟨_, .inr ⟨hH.ph (.inr h1), rfl⟩, hI.uniq, h2⟩
  · exact ⟨ev, .inl h1, hH.good ev h1, h2⟩
  · exact absurd h1 hd

/-- C167. A collector that ended because of its broadcaster: a reliable minority of distinct peers
gave an answer that counts as a refusal. -/
theorem failed_means {c n h r} (hc : c.WF) (hr : RReach c n h r) (hf : r.col.fin = some .bcasterFailed) :
    ∃ h', Reach c h' r.bc ∧ ∃ l : List Nat, l.Nodup ∧ c.count.reliableMinority ≤ l.length ∧
      ∀ p ∈ l, ∃ e ∈ h', Refusal c p e := by
  obtain ⟨h', hr'⟩ := bc_reach hr
  exact ⟨h', hr', err_means hc hr' ((rinv hc hr).failed hf)⟩

/-- C167. A collector that goes on has not both conditions yet: it ends at once when the second is
met. -/
theorem ends_when_ready {c n h r} (hc : c.WF) (hr : RReach c n h r) (hf : r.col.fin = none) :
    ¬ (r.col.includes = true ∧ r.col.bcasterOk = true) := by
  have := (rinv hc hr).busy hf
  simp only [Col.isReady] at this
  rintro ⟨h1, h2⟩
  rw [h1, h2] at this; cases this

/-- C167. No round is stuck: in every state with the collector at work it can tick, which leads to a
new attempt that the broadcaster at work is able to see, and once the collector ended the broadcaster
can end too. -/
theorem round_goes_on {c n h r} (hc : c.WF) (hr : RReach c n h r) (hp : r.bc.phase = .run) :
    (r.col.fin = none → ∃ r1 r2, renabled r .tick ∧ rstep c n r .tick = some r1 ∧
      r1.col.attempt = (r.col.attempt + 1) % 256 ∧ renabled r1 .status ∧ rstep c n r1 .status = some r2) ∧
    (r.col.fin ≠ none → ∃ r1, renabled r .closed ∧ rstep c n r .closed = some r1 ∧
      r1.bc.phase = .done ∧ r1.bc.evidence = some r.bc.sigs) := by
  constructor
  · intro hf
    have hb := (rinv hc hr).busy hf
    obtain ⟨h', hr'⟩ := bc_reach hr
    have hs : (step c r.bc (.status ((r.col.attempt + 1) % 256))).isSome := no_panic hc hr' hp
    obtain ⟨b, hb'⟩ := Option.isSome_iff_exists.mp hs
    refine ⟨⟨{ r.col with attempt := (r.col.attempt + 1) % 256, seen := false }, r.bc⟩,
      ⟨{ r.col with attempt := (r.col.attempt + 1) % 256, seen := true }, b⟩, hf, ?_, rfl, ⟨hf, rfl, hp⟩, ?_⟩
    · simp only [rstep, hb, Bool.false_eq_true, if_false]
    · simp only [rstep, hb', Option.map_some]
  · intro hf
    exact ⟨_, ⟨hf, hp⟩, rfl, rfl, rfl⟩

/-- C167. The rounds end a collector exactly when the consensus is past the next round or the top
known anchor reached the current one. -/
theorem rounds_end {c n r r' cr tk} (hf : r.col.fin = none) (hs : rstep c n r (.rounds cr tk) = some r') :
    r'.col.fin = (if n + 1 < cr ∨ n ≤ tk then some .roundsMoved else none) := by
  simp only [rstep] at hs
  cases hs
  by_cases h : n + 1 < cr ∨ n ≤ tk
  · rw [if_pos h]
    simp [roundsMoved, h]
  · rw [if_neg h]
    simp [roundsMoved, h, hf]

end Tycho.Broadcaster
