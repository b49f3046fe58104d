import Mathlib.Data.List.Basic

/-!
Combinators of block providers: core/src/block_strider/provider/mod.rs (`ChainBlockProvider`, `CycleBlockProvider`,
`RetryBlockProvider`), provider/futures.rs (`SelectNonEmptyFut`), and the fallback of provider/blockchain_provider.rs,
used the way the block strider uses them (core/src/block_strider/mod.rs:149-179): while block `n` is in progress
(`get_block` for its shard blocks, then `cleanup_until n`) the next block is asked for once (`get_next_block n`); both
must end before block `n + 1` is in progress. `u32::MAX` as "no seqno" is `none`; `saturating_add` is `+`.
-/
namespace Tycho.Providers

inductive Part where
  | left
  | right
deriving DecidableEq, Repr

/-- mod.rs:241-251 `Not` -/
def Part.other : Part → Part
  | .left => .right
  | .right => .left

/-! ### Cycle -/

/-- mod.rs:227-232 `CycleBlockProviderState` -/
structure Cycle where
  current : Part
  switchAt : Option Nat
deriving DecidableEq, Repr

/-- mod.rs:254-263 -/
def Cycle.new : Cycle := ⟨.left, none⟩

/-- mod.rs:275-283 `choose_provider` -/
def Cycle.choose (c : Cycle) (n : Nat) : Part :=
  match c.switchAt with
  | some k => if k ≤ n then c.current.other else c.current
  | none => c.current

/-- mod.rs:285-294 `toggle_switch_at` -/
def Cycle.toggle (c : Cycle) (n : Nat) : Cycle × Part :=
  match c.switchAt with
  | none => ({ c with switchAt := some n }, c.current.other)
  | some _ => ({ c with switchAt := none }, c.current)

/-- mod.rs:296-302 `try_apply_switch` -/
def Cycle.apply (c : Cycle) (n : Nat) : Cycle :=
  match c.switchAt with
  | some k => if k ≤ n then ⟨c.current.other, none⟩ else c
  | none => c

/-- The call of `get_next_block` for the block in progress. -/
inductive Next where
  | idle
  | asking (p : Part)
  | got (p : Part)
deriving DecidableEq, Repr

/-- `src`: who returned the block in progress. -/
structure CycleSt where
  cyc : Cycle
  n : Nat
  src : Part
  next : Next
  cleaned : Bool
deriving DecidableEq, Repr

/-- What providers see. `next`: the block after `n` was returned. -/
inductive Ev where
  | ask (p : Part) (n : Nat)
  | none (p : Part) (n : Nat)
  | next (p : Part) (n : Nat)
  | block (p : Part) (n : Nat)
  | cleanup (p : Part) (n : Nat)
  | cleaned (n : Nat)
  | begin (n : Nat)
deriving DecidableEq, Repr

inductive CycleStep : CycleSt → List Ev → CycleSt → Prop
  /-- mod.rs:333-338 `get_block` -/
  | block (s) : s.cleaned = false → CycleStep s [.block (s.cyc.choose s.n) s.n] s
  /-- mod.rs:310-316 -/
  | start (s) : s.next = .idle →
    CycleStep s [.ask (s.cyc.choose s.n) s.n] { s with next := .asking (s.cyc.choose s.n) }
  /-- mod.rs:316-328 no block: ask the other one -/
  | none (s p) : s.next = .asking p →
    CycleStep s [.ask (s.cyc.toggle (s.n + 1)).2 s.n, .none p s.n]
      { s with cyc := (s.cyc.toggle (s.n + 1)).1, next := .asking (s.cyc.toggle (s.n + 1)).2 }
  | some (s p) : s.next = .asking p → CycleStep s [.next p s.n] { s with next := .got p }
  /-- mod.rs:340-351 -/
  | cleanup (s) : s.cleaned = false →
    CycleStep s [.cleaned s.n, .cleanup .right s.n, .cleanup .left s.n] { s with cyc := s.cyc.apply s.n, cleaned := true }
  /-- the strider goes on with the next block -/
  | begin (s p) : s.next = .got p → s.cleaned = true →
    CycleStep s [.begin (s.n + 1)] ⟨s.cyc, s.n + 1, p, .idle, false⟩

/-- Start: no block is in progress, block `n` is asked for first. -/
def CycleSt.start (n : Nat) : CycleSt := ⟨.new, n, .left, .idle, true⟩

inductive CycleExec (n : Nat) : List Ev → CycleSt → Prop
  | init : CycleExec n [] (.start n)
  | step (tr s es s') : CycleExec n tr s → CycleStep s es s' → CycleExec n (es ++ tr) s'

/-! ### Chain -/

/-- mod.rs:150-154: `left` is there, and the seqno at which it is to be dropped (`0` after that). -/
inductive ChainState where
  | active
  | leaving (k : Nat)
  | gone
deriving DecidableEq, Repr

structure ChainSt where
  st : ChainState
  n : Nat
  src : Part
  next : Next
  cleaned : Bool
deriving DecidableEq, Repr

/-- mod.rs:174-176, 197-199 `left` only while no drop is planned -/
def ChainState.choose : ChainState → Part
  | .active => .left
  | _ => .right

/-- mod.rs:204-226 what is cleaned, and the new state -/
def ChainState.cleanup (c : ChainState) (n : Nat) : ChainState × List Part :=
  match c with
  | .leaving k => if k ≤ n then (.gone, [.left, .right]) else (c, [.right])
  | .active => (c, [.left])
  | .gone => (c, [.right])

inductive ChainStep : ChainSt → List Ev → ChainSt → Prop
  | block (s) : s.cleaned = false → ChainStep s [.block s.st.choose s.n] s
  | start (s) : s.next = .idle → ChainStep s [.ask s.st.choose s.n] { s with next := .asking s.st.choose }
  /-- mod.rs:178-191 only the left one has a fallback -/
  | noneLeft (s) : s.next = .asking .left →
    ChainStep s [.ask .right s.n, .none .left s.n] { s with st := .leaving (s.n + 1), next := .asking .right }
  | some (s p) : s.next = .asking p → ChainStep s [.next p s.n] { s with next := .got p }
  | cleanup (s) : s.cleaned = false →
    ChainStep s (.cleaned s.n :: ((s.st.cleanup s.n).2.map (fun p => .cleanup p s.n)).reverse)
      { s with st := (s.st.cleanup s.n).1, cleaned := true }
  | begin (s p) : s.next = .got p → s.cleaned = true → ChainStep s [.begin (s.n + 1)] ⟨s.st, s.n + 1, p, .idle, false⟩

def ChainSt.start (n : Nat) : ChainSt := ⟨.active, n, .left, .idle, true⟩

inductive ChainExec (n : Nat) : List Ev → ChainSt → Prop
  | init : ChainExec n [] (.start n)
  | step (tr s es s') : ChainExec n tr s → ChainStep s es s' → ChainExec n (es ++ tr) s'

/-! ### Fallback -/

/-- blockchain_provider.rs:73-80; `left` is the client, `right` the fallback. -/
structure FbSt where
  useFb : Bool
  cleanAt : Option Nat
  n : Nat
  next : Next
  cleaned : Bool
deriving DecidableEq, Repr

/-- blockchain_provider.rs:148-153, 206-211 who is asked first -/
def FbSt.first (s : FbSt) : Part := if s.useFb then .right else .left

/-- blockchain_provider.rs:302-312, 326-344: the fallback is cleaned if a cleanup was scheduled for this seqno or
an earlier one, and the schedule is dropped only if it was for exactly this one. -/
def FbSt.cleanup (s : FbSt) : FbSt × List Part :=
  match s.cleanAt with
  | none => ({ s with cleaned := true }, [])
  | some k =>
    if k ≤ s.n then
      ({ s with cleaned := true, cleanAt := if k = s.n then none else some k }, [.right])
    else ({ s with cleaned := true }, [])

/-- `get_block` for shard blocks runs concurrently and shares `useFb`: it sets and resets it. -/
inductive FbStep : FbSt → List Ev → FbSt → Prop
  /-- get_block_impl asks the client or the fallback -/
  | block (s) : s.cleaned = false → FbStep s [.block s.first s.n] s
  /-- blockchain_provider.rs:213-216 the client of a `get_block` timed out, the fallback is asked -/
  | blockFb (s) : s.cleaned = false → FbStep s [.block .right s.n] { s with useFb := true }
  /-- blockchain_provider.rs:226 the fallback of a `get_block` has no block -/
  | blockReset (s) : s.cleaned = false → FbStep s [.block .left s.n] { s with useFb := false }
  | start (s) : s.next = .idle → FbStep s [.ask s.first s.n] { s with next := .asking s.first }
  /-- blockchain_provider.rs:154-160 timeout of the client -/
  | nonePrimary (s) : s.next = .asking .left →
    FbStep s [.ask .right s.n, .none .left s.n] { s with useFb := true, next := .asking .right }
  /-- blockchain_provider.rs:161-172 and the next round of the loop: the flag was just reset; if a `get_block` sets
  it again in between, the fallback is asked again -/
  | noneFallback (s p) : s.next = .asking .right →
    FbStep s [.ask p s.n, .none .right s.n]
      { s with useFb := decide (p = .right), cleanAt := some (s.n + 1), next := .asking p }
  | some (s p) : s.next = .asking p → FbStep s [.next p s.n] { s with next := .got p }
  | cleanup (s) : s.cleaned = false →
    FbStep s (.cleaned s.n :: (s.cleanup.2.map (fun p => .cleanup p s.n))) s.cleanup.1
  | begin (s p) : s.next = .got p → s.cleaned = true →
    FbStep s [.begin (s.n + 1)] { s with n := s.n + 1, next := .idle, cleaned := false }

def FbSt.start (n : Nat) : FbSt := ⟨false, none, n, .idle, true⟩

inductive FbExec (n : Nat) : List Ev → FbSt → Prop
  | init : FbExec n [] (.start n)
  | step (tr s es s') : FbExec n tr s → FbStep s es s' → FbExec n (es ++ tr) s'

/-! ### Retry -/

/-- mod.rs:365-381 `get_next_block` of `RetryBlockProvider`: answers of the inner provider, in order; result and number of calls.
Without answers left the call never ends. -/
def retry {α : Type} (attempts : Nat) : Nat → List (Option α) → Option (Option α × Nat)
  | _, [] => none
  | done, r :: rs =>
    if r.isSome ∨ attempts ≤ done then some (r, done + 1)
    else retry attempts (done + 1) rs

/-! ### Select -/

/-- A future: how many times it is pending, then its result. -/
structure Fut (α : Type) where
  pending : Nat
  result : Option α
deriving DecidableEq, Repr

/-- futures.rs:26-42 one `poll`: a result, or the futures left. `done` is `all_done` so far. -/
def poll {α : Type} : List (Option (Fut α)) → (Option α) ⊕ (List (Option (Fut α)) × Bool)
  | [] => .inr ([], true)
  | none :: fs =>
    match poll fs with
    | .inl r => .inl r
    | .inr (fs', d) => .inr (none :: fs', d)
  | some f :: fs =>
    match f.pending with
    | 0 =>
      match f.result with
      | some r => .inl (some r)
      | none =>
        match poll fs with
        | .inl r => .inl r
        | .inr (fs', d) => .inr (none :: fs', d)
    | k + 1 =>
      match poll fs with
      | .inl r => .inl r
      | .inr (fs', _) => .inr (some ⟨k, f.result⟩ :: fs', false)

/-- Polls until it is ready: the result and the number of polls that were pending. -/
def select {α : Type} : Nat → List (Option (Fut α)) → Option (Option α × Nat)
  | 0, _ => none
  | fuel + 1, fs =>
    match poll fs with
    | .inl r => some (r, 0)
    | .inr (_, true) => some (none, 0)
    | .inr (fs', false) => (select fuel fs').map (fun x => (x.1, x.2 + 1))

end Tycho.Providers
