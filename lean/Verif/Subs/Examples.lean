import Verif.Subs.Props

/-! Concrete executions: the hypotheses of the theorems are met; and the calls that race with a removal. -/
namespace Tycho.Subs

/-- `Fresh` as a check. -/
def freshB (s : State) : Ev → Bool
  | .go t _ => match s.thr t with
    | none => true
    | some k => match k.ph with
      | .wait op => decide (op = .remove) || decide (s.reg k.uuid = some (k.cid, k.lk))
      | _ => true
  | _ => true

def run (fresh : Bool) : List Ev → State → Option State
  | [], s => some s
  | e :: es, s => if (fresh && !freshB s e) = true then none else (step s e).bind (run fresh es)

theorem fresh_of_freshB {s : State} {e : Ev} (h : freshB s e = true) : Fresh s e := by
  cases e with
  | register => trivial
  | start => trivial
  | go t c =>
    intro k op hk hp ho
    simp only [freshB, hk, hp, Bool.or_eq_true, decide_eq_true_eq] at h
    exact h.resolve_left ho

theorem exec_run {fresh : Bool} {cap ma mc : Nat} (es : List Ev) {s s' : State} (h : Exec fresh cap ma mc s) (hr : run fresh es s = some s') :
    Exec fresh cap ma mc s' := by
  induction es generalizing s with
  | nil => simp only [run] at hr; obtain rfl := Option.some.inj hr; exact h
  | cons e es ih =>
    simp only [run] at hr
    split at hr
    · simp at hr
    · rename_i hc
      rw [Option.bind_eq_some_iff] at hr
      obtain ⟨s1, h1, h2⟩ := hr
      refine ih (.step e h ?_ h1) h2
      rintro rfl
      refine fresh_of_freshB ?_
      simpa using hc

def Ev.thread : Ev → Option Nat
  | .register _ _ => none
  | .start t _ _ _ => some t
  | .go t _ => some t

theorem step_thr_other {s s' : State} {e : Ev} (hs : step s e = some s') {x : Nat} (hx : e.thread ≠ some x) : s'.thr x = s.thr x := by
  cases e with
  | register u c =>
    simp only [step] at hs
    split at hs
    · obtain rfl := Option.some.inj hs; rfl
    · rw [Option.map_eq_some_iff] at hs
      obtain ⟨⟨r, s1⟩, h1, rfl⟩ := hs
      rw [(newEntry_frame h1).2.2.2.2.1]
  | start t u op c =>
    have hx : x ≠ t := by rintro rfl; exact hx rfl
    simp only [step] at hs
    split at hs
    · simp at hs
    · rcases begin_cases hs with rfl | ⟨id, lk, hr', rfl⟩ | ⟨s1, hr', h1, rfl⟩ | ⟨s1, id, lk, hr', h1, rfl⟩
      · rfl
      · exact upd_ne _ _ hx
      · rw [(newEntry_frame h1).2.2.2.2.1]
      · show upd s1.thr t _ x = _
        rw [upd_ne _ _ hx, (newEntry_frame h1).2.2.2.2.1]
  | go t c =>
    have hx : x ≠ t := by rintro rfl; exact hx rfl
    simp only [step] at hs
    split at hs
    · simp at hs
    · cases shape hs with
      | goto ph h1 _ _ => rw [h1, upd_ne _ _ hx]
      | finish h1 _ => rw [h1, upd_ne _ _ hx]

theorem run_thr {fresh : Bool} (es : List Ev) {s s' : State} (hr : run fresh es s = some s') {x : Nat} (hx : ∀ e ∈ es, e.thread ≠ some x) : s'.thr x = s.thr x := by
  induction es generalizing s with
  | nil => simp only [run] at hr; obtain rfl := Option.some.inj hr; rfl
  | cons e es ih =>
    simp only [run] at hr
    split at hr
    · simp at hr
    · rw [Option.bind_eq_some_iff] at hr
      obtain ⟨s1, h1, h2⟩ := hr
      rw [ih h2 (fun e he => hx e (by simp [he])), step_thr_other h1 (hx e (by simp))]

/-- `n` steps of thread `t`. -/
def gos (n t : Nat) : List Ev := List.replicate n (.go t .fresh)

/-- Clients 1, 2, 3 subscribe to 7 (with room for two members in a small set); 1 also to 8 and 9; 1 leaves 8; 2 is removed while 3
subscribes to 8. -/
def evs : List Ev :=
  [.start 1 1 (.sub [7, 8, 9]) .fresh] ++ gos 12 1 ++ [.start 1 2 (.sub [7]) .fresh] ++ gos 6 1 ++ [.start 1 3 (.sub [7]) .fresh] ++ gos 6 1 ++
  [.start 1 1 (.unsub [8]) .fresh, .start 2 2 .remove .fresh, .start 3 3 (.sub [8, 8]) .fresh] ++ gos 4 1 ++ gos 3 2 ++ gos 2 3 ++ gos 4 1 ++ gos 5 2 ++ gos 7 3

def after : Option State := run true evs (State.new 2 10 10)

example : (after.map fun s => (s.notify 7, s.notify 8, s.notify 9)) = some ([2, 0], [2], [0]) := by decide +kernel
example : (after.map fun s => (s.reg 1, s.reg 2, s.reg 3)) = some (some (0, 0), none, some (2, 2)) := by decide +kernel
example : (after.map fun s => (s.list 0, s.list 1, s.list 2, s.count 0, s.count 2)) = some (some [7, 9], none, some [7, 8], 2, 2) := by decide +kernel
example : (after.map fun s => (s.thr 1, s.thr 2, s.thr 3)) = some (none, none, none) := by decide +kernel

theorem after_quiet {s : State} (h : after = some s) : Exec true 2 10 10 s ∧ Quiet s := by
  refine ⟨exec_run _ .new h, ?_⟩
  intro t
  by_cases ht : t = 1 ∨ t = 2 ∨ t = 3
  · have : (after.map fun s => (s.thr 1, s.thr 2, s.thr 3)) = some (none, none, none) := by decide +kernel
    rw [h] at this
    simp only [Option.map_some, Option.some.injEq, Prod.mk.injEq] at this
    rcases ht with rfl | rfl | rfl
    · exact this.1
    · exact this.2.1
    · exact this.2.2
  · rw [run_thr _ h ?_]
    · rfl
    · intro e he hx
      have : ∀ e ∈ evs, ∀ y, e.thread = some y → y = 1 ∨ y = 2 ∨ y = 3 := by
        intro e he y hy
        simp only [evs, gos, List.mem_append, List.mem_cons, List.mem_replicate, List.not_mem_nil, or_false] at he
        rcases he with ((((((((((((rfl | ⟨_, rfl⟩) | rfl) | ⟨_, rfl⟩) | rfl) | ⟨_, rfl⟩) | rfl | rfl | rfl) | ⟨_, rfl⟩) | ⟨_, rfl⟩) | ⟨_, rfl⟩) | ⟨_, rfl⟩) | ⟨_, rfl⟩) | ⟨_, rfl⟩) <;>
          simp only [Ev.thread, Option.some.injEq] at hy <;> omega
      exact ht (this e he t hx)

/-- The theorems apply: client 3 (id 2) is notified of 8, which it asked for; client 1 (id 0) is not, it left. -/
example {s : State} (h : after = some s) : want s.log 3 8 = true ∧ want s.log 1 8 = false := by
  obtain ⟨he, hq⟩ := after_quiet h
  have h1 : (after.map fun s => (s.notify 8, s.reg 1, s.reg 3)) = some ([2], some (0, 0), some (2, 2)) := by decide +kernel
  rw [h] at h1
  simp only [Option.map_some, Option.some.injEq, Prod.mk.injEq] at h1
  refine ⟨(notify_exact he h1.2.2 (hq.idle 3) 8).1 (by rw [h1.1]; simp), ?_⟩
  have := mt (notify_exact he h1.2.1 (hq.idle 1) 8).2 (by rw [h1.1]; simp)
  simpa using this

/-- In the middle: call 1 has its answer, call 2 is purging, call 3 has looked up address 8 (which call 1 dropped). -/
example : ((run true (evs.take 39) (State.new 2 10 10)).map fun s => ((s.thr 1).map (·.ph), (s.thr 2).map (·.ph), (s.thr 3).map (·.ph), s.fwd 8 == none)) =
    some (some (.rm1 1 8 (.unsub [] [8])), some (.purge [0] true), some (.subRev 8 3 true [8] []), false) := by decide +kernel

/-- The race: client 1 is looked up by `subscribe_many`, removed by another call, and its id goes to client 2. -/
def staleEvs : List Ev :=
  [.start 1 1 (.sub []) .fresh] ++ gos 2 1 ++ [.start 1 1 (.sub [7]) .fresh, .start 2 1 .remove .fresh] ++ gos 6 2 ++ [.register 2 .pop] ++ gos 6 1

/-- C19, finding. `subscribe_many` for client 1 answers `Ok`, and from then on client 2, which never asked for anything, is notified
of the address instead; client 1 is not registered. (manager.rs:49-66: the entry is not checked after the lock.) -/
theorem stale_call_misdirects : ∃ s, Exec false 2 10 10 s ∧ s.thr 1 = none ∧ s.thr 2 = none ∧ s.reg 1 = none ∧
    (∃ c l, s.reg 2 = some (c, l) ∧ c ∈ s.notify 7) ∧ want s.log 2 7 = false ∧ s.log = [.clear 1, .sub 1 7] := by
  have h : ((run false staleEvs (State.new 2 10 10)).map fun s => (s.thr 1, s.thr 2, s.reg 1, s.reg 2)) =
      some (none, none, none, some (0, 1)) := by decide +kernel
  have h' : ((run false staleEvs (State.new 2 10 10)).map fun s => (s.notify 7, s.log)) = some ([0], [.clear 1, .sub 1 7]) := by decide +kernel
  rw [Option.map_eq_some_iff] at h
  obtain ⟨s, h1, h2⟩ := h
  rw [h1] at h'
  simp only [Prod.mk.injEq, Option.map_some, Option.some.injEq] at h2 h'
  obtain ⟨e1, e2, e3, e4⟩ := h2
  obtain ⟨e5, e6⟩ := h'
  exact ⟨s, exec_run _ .new h1, e1, e2, e3, ⟨0, 1, e4, by rw [e5]; simp⟩, by rw [e6]; decide, e6⟩

end Tycho.Subs
