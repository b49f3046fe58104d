import Mathlib.Data.List.Basic

/-! Model of `util/src/rate_limit.rs`: requests of a peer are limited by class (GCRA), and a peer rejected too often
is put into cooldown.

Simplifications. Times are natural numbers of milliseconds. Maps are functions. A check of the limiter is one
step (`check`); the claims of one bucket, the only part where threads compete for something to be limited, are also
modelled atomic operation by atomic operation (`Conc`), taking each atomic variable to be sequentially consistent. -/
namespace Tycho.RateLimit

/-- The greatest u64. -/
def u64Max : Nat := 2 ^ 64 - 1

/-- util/src/rate_limit.rs:12-16 `TrafficLimit`. -/
structure Limit where
  rate : Nat
  burst : Nat
deriving DecidableEq, Repr

/-- Both are `NonZeroU32`. -/
def Limit.WF (l : Limit) : Prop := 0 < l.rate ∧ 0 < l.burst ∧ l.burst < 2 ^ 32

/-- util/src/rate_limit.rs:29-33,295-299 `interval_ms`. -/
def Limit.interval (l : Limit) : Nat :=
  let r := if 1000 < l.rate then 1000 else l.rate
  max ((1000 + r - 1) / r) 1

/-- util/src/rate_limit.rs:300 `tolerance_ms`. -/
def Limit.tolerance (l : Limit) : Nat := min (l.interval * (l.burst - 1)) u64Max

/-- util/src/rate_limit.rs:283-290 `AtomicBucket`. -/
structure Bucket where
  tat : Nat
  interval : Nat
  tolerance : Nat
deriving DecidableEq, Repr

/-- util/src/rate_limit.rs:295-307 `AtomicBucket::new`. -/
def Bucket.new (l : Limit) : Bucket := ⟨0, l.interval, l.tolerance⟩

/-- util/src/rate_limit.rs:318 -/
def nextTat (tat now interval : Nat) : Nat := min (max tat now + interval) u64Max

/-- util/src/rate_limit.rs:309-329 `try_claim` without interference; `some after` is `TryLater`. -/
def Bucket.tryClaim (b : Bucket) (now : Nat) : Bucket × Option Nat :=
  if now < b.tat - b.tolerance then (b, some (b.tat - b.tolerance))
  else ({ b with tat := nextTat b.tat now b.interval }, none)

/-- util/src/rate_limit.rs:35-44 `RateLimitConfig`. -/
structure Config where
  rejectsBefore : Nat
  cooldown : Nat
  pruneInterval : Nat
  ttl : Nat
deriving DecidableEq, Repr

/-- util/src/rate_limit.rs:52-66 `normalize`. -/
def Config.normalize (c : Config) : Config :=
  { c with
    rejectsBefore := min (max c.rejectsBefore 1) 254
    pruneInterval := if c.pruneInterval = 0 then 1000 else c.pruneInterval
    ttl := if c.ttl = 0 then 1000 else c.ttl }

/-- util/src/rate_limit.rs:80-84 `RateLimitVerdict`. -/
inductive Verdict where
  | allow
  | reject (retryAfter : Nat)
deriving DecidableEq, Repr

section
variable {K C : Type} [DecidableEq K] [DecidableEq C]

/-- util/src/rate_limit.rs:182-187 `PeerLimiter`. -/
structure Peer (C : Type) where
  buckets : C → Option Bucket
  rejects : Nat
  until_ : Nat
  seen : Nat

/-- util/src/rate_limit.rs:193-200 `new`. -/
def Peer.new (now : Nat) : Peer C := ⟨fun _ => none, 0, 0, now⟩

/-- util/src/rate_limit.rs:238-248 `bucket`. -/
def Peer.bucket (p : Peer C) (c : C) (l : Limit) : Bucket := (p.buckets c).getD (Bucket.new l)

/-- util/src/rate_limit.rs:250-262 `register_rejection`. -/
def Peer.registerRejection (cfg : Config) (p : Peer C) (now : Nat) : Peer C :=
  if cfg.rejectsBefore ≤ min (p.rejects + 1) 255 then
    { p with rejects := 0, until_ := max p.until_ (min (now + cfg.cooldown) u64Max) }
  else { p with rejects := p.rejects + 1 }

/-- util/src/rate_limit.rs:202-236 `check`. -/
def Peer.check (cfg : Config) (p : Peer C) (c : C) (l : Limit) (now : Nat) : Peer C × Verdict :=
  let p := { p with seen := now }
  if now < p.until_ then (p, .reject (p.until_ - now))
  else
    let r := (p.bucket c l).tryClaim now
    let p := { p with buckets := fun d => if d = c then some r.1 else p.buckets d }
    match r.2 with
    | none => ({ p with rejects := 0 }, .allow)
    | some after =>
      let p := p.registerRejection cfg now
      (p, .reject (if now < p.until_ then p.until_ - now else after - now))

/-- util/src/rate_limit.rs:264-267 `is_expired`. -/
def Peer.expired (p : Peer C) (now ttl : Nat) : Bool := decide (ttl ≤ now - p.seen)

/-- util/src/rate_limit.rs:269-271 `in_cooldown`. -/
def Peer.inCooldown (p : Peer C) (now : Nat) : Bool := decide (now < p.until_)

/-- util/src/rate_limit.rs:97-101 `RateLimiterInner`. -/
structure St (K C : Type) where
  peers : K → Option (Peer C)
  lastPrune : Nat

/-- util/src/rate_limit.rs:155-160 `prune_expired`. -/
def prune (cfg : Config) (m : K → Option (Peer C)) (now : Nat) : K → Option (Peer C) :=
  fun k => (m k).filter fun p => p.inCooldown now || !p.expired now cfg.ttl

/-- util/src/rate_limit.rs:162-178 `maybe_prune`. -/
def maybePrune (cfg : Config) (s : St K C) (now : Nat) : St K C :=
  if now - s.lastPrune < cfg.pruneInterval then s else ⟨prune cfg s.peers now, now⟩

/-- util/src/rate_limit.rs:134-153 `peer`. -/
def getPeer (cfg : Config) (m : K → Option (Peer C)) (k : K) (now : Nat) : Peer C :=
  match m k with
  | some p => if p.expired now cfg.ttl then Peer.new now else p
  | none => Peer.new now

/-- util/src/rate_limit.rs:125-132 `check`. -/
def check (cfg : Config) (s : St K C) (k : K) (c : C) (l : Limit) (now : Nat) : St K C × Verdict :=
  let s := maybePrune cfg s now
  let r := (getPeer cfg s.peers k now).check cfg c l now
  ({ s with peers := fun j => if j = k then some r.1 else s.peers j }, r.2)

/-- A check that was made. -/
structure Rec (K C : Type) where
  key : K
  cls : C
  time : Nat
  verdict : Verdict
deriving DecidableEq, Repr

/-- util/src/rate_limit.rs:108-118 `new`, then checks: histories of checks, the newest first. Each class has
its limit, the clock does not go back. -/
inductive Reach (cfg : Config) (lim : C → Limit) : St K C → List (Rec K C) → Prop
  | new (now : Nat) : Reach cfg lim ⟨fun _ => none, now⟩ []
  | check {s h} (k : K) (c : C) (now : Nat) : Reach cfg lim s h → (∀ r ∈ h, r.time ≤ now) → now < 2 ^ 62 →
      Reach cfg lim (check cfg.normalize s k c (lim c) now).1
        (⟨k, c, now, (check cfg.normalize s k c (lim c) now).2⟩ :: h)

end

/-! ## Claims at the same time -/

/-- A claim at work: its time and the value it loaded. -/
structure Claim where
  now : Nat
  tat : Nat
deriving DecidableEq, Repr

/-- A bucket and the claims at work; what was granted and rejected is history. -/
structure Conc where
  tat : Nat := 0
  claims : List Claim := []
  granted : List Nat := []
  rejected : List Nat := []
deriving DecidableEq, Repr

/-- What may happen: a claim begins and loads, or goes once round the loop. -/
inductive Ev where
  | load (now : Nat)
  | round (c : Claim) (spurious : Bool)
deriving DecidableEq, Repr

/-- util/src/rate_limit.rs:309-329 `try_claim`, operation by operation. -/
def Conc.step (l : Limit) (s : Conc) : Ev → Option Conc
  | .load now => some { s with claims := ⟨now, s.tat⟩ :: s.claims }
  | .round c spurious =>
    if c ∈ s.claims then
      if c.now < c.tat - l.tolerance then
        some { s with claims := s.claims.erase c, rejected := c.now :: s.rejected }
      else if c.tat = s.tat ∧ spurious = false then
        some { s with claims := s.claims.erase c, tat := nextTat c.tat c.now l.interval, granted := c.now :: s.granted }
      else some { s with claims := { c with tat := s.tat } :: s.claims.erase c }
    else none

/-- All interleavings of claims, with any clocks. -/
inductive Conc.Reach (l : Limit) : Conc → Prop
  | new : Conc.Reach l {}
  | step {s e t} : Conc.Reach l s → (∀ now, e = .load now → now < 2 ^ 62) → Conc.step l s e = some t → Conc.Reach l t

end Tycho.RateLimit
