import Verif.Common.Table
/-!
Model of the bans of peers: `consensus/src/moderator/ban/{peer_events,current_bans,cache,state,core}.rs`, the keys of
records (`consensus/src/moderator/journal/record_key.rs`), what is read at a start
(`consensus/src/moderator/storage/store.rs:41-75`) and the writer (`consensus/src/moderator/impl_.rs`).

Peers and kinds of events are numbers. What runs under the lock of `BanCore` is one step. The task of the scheduler takes one
item of its channel at a time; for an event it reads the clock first and takes the lock later, and calls of the user may run in
between (`pend`). The writer puts the items of one message to disk at once; a restart (also a crash) loses what it did not
write. Clocks do not go back, and a restart takes at least a millisecond. `DelayQueue` is modelled by its documented
behaviour: an entry comes out at its deadline or later. A panic is recorded (`bad`).

Simplifications: only events that count for bans; the deduplication of events (core.rs:211-224) is left out, so all reports
are different events; the wrap of `seq_no`, the overflow of times, the limits of `DelayQueue` and failures of the disk are not
represented; the configuration does not change at a restart.
-/
namespace Tycho.Bans
open Tycho.Table (Table get put del)

/-- `RecordKey`, record_key.rs:32-37: time of creation, then number. -/
abbrev Key := Nat × Nat

/-- Derived `Ord` of `RecordKey`. -/
def klt (a b : Key) : Bool := decide (a.1 < b.1 ∨ (a.1 = b.1 ∧ a.2 < b.2))

/-- `BanConfigValue`, config.rs:118-134: duration of a ban, and window and count of toleration. -/
structure Conf where
  dur : Nat
  tol : Option (Nat × Nat)
deriving DecidableEq, Repr

/-- The configuration: a value for each kind of event, `journal.ttl`, and `max_duration` (config.rs:87-95). -/
structure Config where
  of : Nat → Conf
  ttl : Nat
  maxDur : Nat

/-- `EventHistory`, peer_events.rs:12-16. -/
structure Hist where
  last : Option Nat
  tolerated : List Key
deriving DecidableEq, Repr

/-- The minimum of keys, peer_events.rs:59-67. -/
def minKey (k : Key) (l : List Key) : Key := l.foldl (fun m x => if klt x m then x else m) k

/-- `maybe_ban_until`, peer_events.rs:23-83; `none` for a panic. -/
def Hist.maybeBan (h : Hist) (k : Key) (c : Conf) : Option (Hist × Option Nat) :=
  let last := max (h.last.getD k.1) k.1
  match c.tol with
  | none => some (⟨some last, h.tolerated⟩, some (last + c.dur))
  | some (window, count) =>
    if h.tolerated.length > count then none
    else if k.1 < last - window then some (⟨some last, h.tolerated⟩, none)
    else
      let t := if k ∈ h.tolerated then h.tolerated else h.tolerated ++ [k]
      let t := t.filter (fun x => decide (last - window ≤ x.1))
      if t.length > count then
        if minKey k t ∈ t ∧ (t.erase (minKey k t)).length = count then
          some (⟨some last, t.erase (minKey k t)⟩, some (last + c.dur))
        else none
      else some (⟨some last, t⟩, none)

/-- `RecordKind`, without those that do not count for bans. -/
inductive Kind where
  | event (tag : Nat)
  | banned (til : Nat)
  | unbanned
deriving DecidableEq, Repr

/-- A record of the journal. -/
structure Rec where
  key : Key
  peer : Nat
  kind : Kind
deriving DecidableEq, Repr

/-- `UpdaterQueueItem`, ban/mod.rs:13-23. -/
inductive Item where
  | event (peer tag : Nat)
  | banned (peer til : Nat)
  | unban (peer : Nat)
deriving DecidableEq, Repr

/-- Everything. `last`: `last_bans` with the deadline of the entry of `auto_unbans`; `net`: the banned peers of the present
peer schedule; `disk`: the stored journal in the order of its keys; `queue`: messages on their way to the writer. -/
structure St where
  now : Nat
  started : Nat
  seq : Nat
  hist : Table (Nat × Nat) Hist
  bans : Table Nat Nat
  net : Option (Table Nat Unit)
  chan : List Item
  last : Table Nat (Nat × Nat)
  pend : Option (Nat × Nat × Nat)
  disk : List Rec
  queue : List (List Rec)
  bad : Bool
deriving Repr

/-- `kf.new_key`, record_key.rs:16-21, 23-28. -/
def St.newKey (s : St) (created : Nat) : Key × St := ((created, s.seq), { s with seq := s.seq + 1 })

/-- `set_banned` and `remove_bans` of the peer schedule, as far as the moderator sees it. -/
def St.netBan (s : St) (p : Nat) : St := { s with net := s.net.map (fun n => put n p ()) }
/-- See `netBan`. -/
def St.netUnban (s : St) (p : Nat) : St := { s with net := s.net.map (fun n => del n (fun x => decide (x = p))) }

/-- `CurrentBans::upsert` and the sends after it, current_bans.rs:18-37, cache.rs:146-160, 171-181, and what
`BanCoreState` adds, state.rs:62-70, 75-83. The second is `None`: there is a ban as long or longer. -/
def St.upsert (s : St) (p til : Nat) : St × Bool := match get s.bans p with
  | some old =>
    if til > old then ({ s with bans := put s.bans p til, chan := s.chan ++ [.banned p til] }, true) else (s, false)
  | none => (St.netBan { s with bans := put s.bans p til, chan := s.chan ++ [.banned p til] } p, true)

/-- `BanCache::unban`, cache.rs:187-204, with state.rs:87-96: `none` is a panic. -/
def St.unban (s : St) (p expected : Nat) : St × Option Bool := match get s.bans p with
  | some cur =>
    if cur < expected then (s, none)
    else if cur = expected then (St.netUnban { s with bans := del s.bans (fun x => decide (x = p)) } p, some true)
    else (s, some false)
  | none => (s, none)

/-- Sends a message to the writer. -/
def St.write (s : St) (l : List Rec) : St := { s with queue := s.queue ++ [l] }

/-- `manual_ban`, core.rs:98-122, called with the sum of the clock and a duration (impl_.rs:264); the message for the writer is
sent before anything else is done. -/
def St.manualBan (s : St) (p til : Nat) : St :=
  let (key, s) := s.newKey s.now
  match s.upsert p til with
  | (s, true) => s.write [⟨key, p, .banned til⟩]
  | (s, false) => s

/-- The locked part of `on_event`, core.rs:226-270: `t` is the time read before. -/
def St.onEvent (cfg : Config) (s : St) (p tag t : Nat) : St :=
  let (key, s) := s.newKey t
  match ((get s.hist (p, tag)).getD ⟨none, []⟩).maybeBan key (cfg.of tag) with
  | none => { s with bad := true }
  | some (h, none) => { s with hist := put s.hist (p, tag) h }.write [⟨key, p, .event tag⟩]
  | some (h, some til) =>
    let (key2, s) := St.newKey { s with hist := put s.hist (p, tag) h } s.now
    ((s.upsert p til).1).write [⟨key, p, .event tag⟩, ⟨key2, p, .banned til⟩]

/-- `on_banned`, core.rs:273-293. -/
def St.onBanned (s : St) (p til : Nat) : St := match get s.last p with
  | some (old, _) =>
    if til > old then { s with last := put s.last p (til, s.now + (til - s.now)) } else { s with bad := true }
  | none => { s with last := put s.last p (til, s.now + (til - s.now)) }

/-- `on_manual_unban`, core.rs:295-322. -/
def St.onManualUnban (s : St) (p : Nat) : St := match get s.last p with
  | none => s
  | some (til, _) =>
    let s := { s with last := del s.last (fun x => decide (x = p)) }
    match s.unban p til with
    | (s, none) => { s with bad := true }
    | (s, some false) => s
    | (s, some true) => let (key, s) := s.newKey s.now; s.write [⟨key, p, .unbanned⟩]

/-- `on_auto_unban`, core.rs:342-361. The entry is due. -/
def St.onAutoUnban (s : St) (p : Nat) : St := match get s.last p with
  | none => s
  | some (til, deadline) =>
    if s.now < deadline then s
    else
      let s := { s with last := del s.last (fun x => decide (x = p)) }
      match s.unban p til with
      | (s, none) => { s with bad := true }
      | (s, some false) => s
      | (s, some true) => let (key, s) := s.newKey s.now; s.write [⟨key, p, .unbanned⟩]

/-- The next item of the channel, core.rs:174-191; the clock is read for an event, core.rs:208. -/
def St.recv (s : St) : St := match s.pend, s.chan with
  | none, .event p tag :: l => { s with chan := l, pend := some (p, tag, s.now) }
  | none, .banned p til :: l => St.onBanned { s with chan := l } p til
  | none, .unban p :: l => St.onManualUnban { s with chan := l } p
  | _, _ => s

/-- The rest of `on_event`. -/
def St.handle (cfg : Config) (s : St) : St := match s.pend with
  | some (p, tag, t) => St.onEvent cfg { s with pend := none } p tag t
  | none => s

/-- A `put` of a record: the place of its key. -/
def insert (r : Rec) (l : List Rec) : List Rec :=
  l.takeWhile (fun x => klt x.key r.key) ++ r :: l.dropWhile (fun x => klt x.key r.key)

/-- Records put one after another. -/
def insertAll (disk : List Rec) (l : List Rec) : List Rec := l.foldl (fun d r => insert r d) disk

/-- The writer writes the items of the next message. -/
def St.flush (s : St) : St := match s.queue with
  | g :: q => { s with disk := insertAll s.disk g, queue := q }
  | [] => s

/-- What the cleaner leaves: records older than `ttl` go, impl_.rs:398-403. It is no step: `clean_unseen` shows that a start does
not see the difference. -/
def cleaned (cfg : Config) (now : Nat) (disk : List Rec) : List Rec := disk.filter (fun r => decide (now - cfg.ttl ≤ r.key.1))

/-- `load_restore`, store.rs:41-75. -/
def load (cfg : Config) (started : Nat) (disk : List Rec) : List Rec :=
  let specialSince := started - cfg.ttl
  let allSince := started - cfg.maxDur
  (disk.filter (fun r => decide (min specialSince allSince ≤ r.key.1))).filter (fun r =>
    if r.key.1 < allSince then match r.kind with
      | .event _ => false
      | _ => true
    else true)

/-- `Temp`, cache.rs:46-57. -/
inductive Temp where
  | new (til : Nat)
  | stored (til : Nat)
deriving DecidableEq, Repr

/-- `Temp::until`. -/
def Temp.til : Temp → Nat
  | .new u => u
  | .stored u => u

/-- What `restore` builds. -/
structure Restored where
  hist : Table (Nat × Nat) Hist
  temp : Table Nat Temp
  bad : Bool

/-- One record of the loop of `restore`, cache.rs:62-103. -/
def restoreStep (cfg : Config) (now : Nat) (x : Restored) (r : Rec) : Restored := match r.kind with
  | .event tag => match ((get x.hist (r.peer, tag)).getD ⟨none, []⟩).maybeBan r.key (cfg.of tag) with
    | none => { x with bad := true }
    | some (h, none) => { x with hist := put x.hist (r.peer, tag) h }
    | some (h, some til) =>
      if til > now ∧ ((get x.temp r.peer).map (fun o => decide (o.til < til))).getD true = true then
        { x with hist := put x.hist (r.peer, tag) h, temp := put x.temp r.peer (.new til) }
      else { x with hist := put x.hist (r.peer, tag) h }
  | .banned til =>
    if til > now ∧ ((get x.temp r.peer).map (fun o => decide (o.til ≤ til))).getD true = true then
      { x with temp := put x.temp r.peer (.stored til) }
    else x
  | .unbanned => { x with temp := del x.temp (fun p => decide (p = r.peer)) }

/-- The loop of `restore`. -/
def restoreLoop (cfg : Config) (now : Nat) (l : List Rec) : Restored := l.foldl (restoreStep cfg now) ⟨[], [], false⟩

/-- The second loop of `restore`, cache.rs:107-135, on a new core: the bans are set and sent to the scheduler, new ones also to
the writer. -/
def St.applyTemp (s : St) (e : Nat × Temp) : St :=
  match e.2 with
  | .new til =>
    let (key, s) := s.newKey s.now
    St.write { s with bans := put s.bans e.1 til, chan := s.chan ++ [.banned e.1 til] } [⟨key, e.1, .banned til⟩]
  | .stored til => { s with bans := put s.bans e.1 til, chan := s.chan ++ [.banned e.1 til] }

/-- A start of the node on a disk: `Moderator::new`, impl_.rs:41-117, with `BanCore::restore`, core.rs:77-91, before
anything is reported. `NodeStarted` takes the first number. -/
def start (cfg : Config) (now : Nat) (disk : List Rec) : St :=
  let x := restoreLoop cfg now (load cfg now disk)
  x.temp.foldl St.applyTemp ⟨now, now, 1, x.hist, [], none, [], [], none, disk, [], x.bad⟩

/-- A step of everything. -/
inductive Op where
  | tick (d : Nat)
  | report (peer tag : Nat)
  | manualBan (peer dur : Nat)
  | askUnban (peer : Nat)
  | recv
  | handle
  | expire (peer : Nat)
  | flush
  | setSchedule
  | restart (d : Nat)
deriving DecidableEq, Repr

/-- The effect of a step. A ban by hand is for a minute at least and `ttl` at most, impl_.rs:255-263, config.rs:169-181. -/
def step (cfg : Config) (s : St) : Op → St
  | .tick d => { s with now := s.now + d }
  | .report p tag => { s with chan := s.chan ++ [.event p tag] }
  | .manualBan p dur => if 0 < dur ∧ dur ≤ cfg.ttl then s.manualBan p (s.now + dur) else s
  | .askUnban p => { s with chan := s.chan ++ [.unban p] }
  | .recv => s.recv
  | .handle => s.handle cfg
  | .expire p => match s.pend with
    | none => s.onAutoUnban p
    | some _ => s
  | .flush => s.flush
  | .setSchedule => { s with net := some (s.bans.map (fun e => (e.1, ()))) }
  | .restart d => start cfg (s.now + d + 1) s.disk

/-- A history of a node from its first start at time `t0`. -/
def run (cfg : Config) (t0 : Nat) (ops : List Op) : St := ops.foldl (step cfg) (start cfg t0 [])

end Tycho.Bans
