# Formal model of broxus/tycho in Lean 4 — design

## Layout

* `lean/Verif/<Component>/Model.lean` — executable model; every definition cites file and lines in `/repo`.
* `lean/Verif/<Component>/Lemmas.lean` — helper lemmas.
* `lean/Verif/<Component>/Props.lean` — small independent specification (what the English property means),
  the property theorems, and for each theorem a concrete non-trivial case that meets its hypotheses.
* `lean/Verif.lean` — imports everything.
* `MANIFEST.json` — property → theorem names.  `seeded/LOG.jsonl` — mutation experiments.

## Trusted base

* Lean 4.33.0 kernel. Axioms allowed: `propext`, `Classical.choice`, `Quot.sound` (no others; no
  `native_decide`, no `bv_decide`). The per-theorem axiom list is printed by `vcheck`.
* The reading of `/repo` recorded in the comments of each `Model.lean`. The Rust code was not run.
* The behaviour assumed of external code (std collections, RocksDB ordered key-value semantics, tokio, crypto)
  stated per component below.

## Properties and plan

| id | model | proof |
|----|-------|-------|
| C01 | `Transactional`: a class with begin/commit/rollback/in_tx, instances for value, option, map | lawfulness is preserved by each container; induction over operation lists |
| C02 | `Median`: two heaps as multisets with max/min pop | invariant: lo ≤ hi, size balance, lo ∪ hi = inserted; then median of sorted list |
| C03 | `PrioritySemaphore`: state machine, one atomic step per critical section | conservation invariant by induction over operations; FIFO/priority by queue invariants |
| C04 | `PeerCount` | counting argument on Finset / List cardinalities |
| C05 | `Commit.gather`: DAG as partial map (round, digest) → point; shuffle = arbitrary permutation parameter | loop invariant over rounds |
| C06 | `Commit`: committed set threaded through dequeue | induction over commits using C05 |
| C07 | `Commit.anchorChain` | induction over the proof chain |
| C08 | `ProofLeader` | arithmetic (omega) |
| C09 | `Stats` | arithmetic, induction |
| C10 | `Dedup` | refinement to "last sighting" function |
| C11 | `QueueKey`, `StoredKeys` | byte-list lexicographic order lemmas |
| C12 | `QueueIter` | heap merge invariant, k-way merge = sort |
| C13–C15 | `Queue`: state = ordered maps (messages, stats, tails, infos, pointers) | step lemmas + invariants |
| C16 | `BlockMeta` on `BitVec 64` | bit extensionality |
| C17 | `BlockProof` | arithmetic + weighted intersection |
| C18 | `Dht` | invariants over operation lists; counterexample for "nearest first" |
| C19 | `Subs`: threads, one step per map access | address, registry and per-client invariants over interleavings |
| C20 | `InclusionState` (once-cells) | invariant over arbitrary interleavings of atomic once-cell operations |

Later properties (appended to `properties.jsonl`) are described in the component sections below.

## Components

### Transactional (C01) — `lean/Verif/Transactional`
Modelled: `util/src/transactional/*` (value, option, btree/hash map, guard) and the generated impl of
`util-proc/src/derive_transactional.rs`. Maps are partial functions. Not modelled: iteration order,
`debug_assert!`, `inner_mut` of the maps (documented as bypassing tracking), assigning a whole new element through
`get_mut` (it would drop the element's own snapshot). `Spec.lean` holds the plain-content semantics of each operation.

### PeerCount (C04), ProofLeader (C08), Stats (C09) — consensus arithmetic
Modelled: `consensus/src/models/peer_count.rs`, `consensus/src/dag/proof_leader.rs`, `consensus/src/models/stats.rs`.
`usize`/`u32` are `Nat`, with the overflow points that the code can reach written as `none`/panic outcomes
(`filled_rounds` overflow is not modelled). The PCG generator is a parameter. Finding: merging an aggregate that has no
rounds is accepted or refused depending on the side it is on (`merge_with_empty_not_symmetric`).

### Median (C02, C21)
`util/src/num/median.rs`, `util/src/num/safe_avg.rs`. `BinaryHeap` = list in pop order (trusted std). Findings: the even
case saturates `a+b` and so understates medians of values above 2^127; the restarted average after overflow counts
old-average + sample as a single sample.

### Dedup (C10)
`collator/src/mempool/impls/common/deduplicator.rs`; IndexMap = list of pairs, its binary search = number of smaller keys
(keys are proved ascending). A threshold of 0 is excluded: there the answer for a repeat inside one round depends on
whether cleaning ran between.

### BlockMeta (C16, C22)
`core/src/storage/block_handle/{meta,handle,mod}.rs`, `block_handle_merge` of `core/src/storage/tables.rs`. Bit vectors;
each atomic read-modify-write is one step (relaxed ordering on a single word). RocksDB is trusted to apply merge
operands of one key in some order without losing any. `Common/Bytes` has fixed width little/big endian encodings and
their order.

### BlockProof (C17)
`block-util/src/block/block_proof_stuff.rs`, all checks. Not modelled: cells/BOC/merkle virtualisation (given as a hash
and a parse result), the dictionary, the subset computation (parameter). Assumption in the theorem statements:
`SoundSignatureCheck` for the external `check_signatures`; the source of that crate is not in the sandbox.

### QueueKey (C11)
`block-util/src/queue/proto.rs` keys, `collator/src/storage/models.rs`, `storage-traits/src/stored_value.rs`,
`collator/src/internal_queue/types/ranges.rs`. `Common/Codec` models readers over `&mut &[u8]`; RocksDB's key order is
bytewise lexicographic (trusted). Finding: `BlockId::deserialize` does not move the reader past the hashes and fails
when anything follows, contrary to the trait's contract.

### QueueDiffTl (C23)
TL form of queue diffs (`block-util/src/queue/proto.rs`, `block-util/src/tl.rs`, `util/src/tl.rs`). Parameters: the file
hash, the validity test of `ShardIdent::new`, the constructor id. Not modelled: `QueueState` wrapper, size hints.

### Queue (C13, C14, C15) — `lean/Verif/Queue`
`Model.lean` models `QueueImpl` (`collator/src/internal_queue/queue.rs`: prepare/apply/commit/clear), the storage layer
(`state/storage.rs`, `storage/transaction.rs`, `storage/snapshot.rs`), and the collector (`gc.rs`). Column families are
association tables; a write batch is atomic; a `QueueKey` is its rank (justified by `QueueKey`, C11). `Sys`/`Op`/`run`
interleave callers (prepare, write, drop, commit, clear, under the global and per-shard locks) with the collector
(tick, plan from a snapshot, write, fail) and with process restarts that keep the database and lose everything else.
`Apply.lean` (C13), `Clear.lean` (C14), `Commit.lean` (C15 and the history theorems), `Examples.lean` (concrete cases,
and the boundaries: `clear_statistics_edge`, `gc_statistics_edge`, `clear_leaves_other_partitions`,
`gc_skips_unrecorded_top`, `shard_pointer_can_regress`). Not modelled: RocksDB errors, compaction, import from a file,
the per-shard totals inside a diff record.

### QueueIter (C12) — `lean/Verif/QueueIter`
`StateIteratorImpl` over RocksDB range iterators of one snapshot (`state_iterator.rs`, `shard_iterator.rs`). The binary
heap is any function that returns some least element; hash-map order is the order of the table, which is arbitrary.
The receiver test is an arbitrary predicate on stored messages. Assumed: the key recomputed from a message equals its
stored key; stored values deserialise.

### Commit (C05, C06, C07, C24, C25) — `lean/Verif/Commit`
`Model.lean` models the mempool committer: `consensus/src/dag/commit/{mod,back}.rs`, and `Task.lean` the loop of
`engine/committer_task.rs`. The local DAG is a function from point ids to what is known about them (it may change between
any two calls), the shuffle is any seeded permutation (`Shuffler`). Panics and `HistoryConflict` are outcomes. `Spec.lean`:
links, reachability, histories. Assumptions in the statements: a digest names its author (`DigestUnique`), for links across
calls the triggers belong to one chain (`Consistent`, `OneChain`), proofs point down. Not modelled: round inspector,
metrics, `u32` overflow, the async part of `next_trigger`.
Findings: (a) a trigger whose chain of proofs skips the last committed proof is accepted silently: the last assertion of
`anchor_chain` only checks `≤`, hence the one-chain hypotheses; (b) on an error inside a batch the anchors before it stay
marked as committed although their data is lost; (c) `Committer::init` after a gap with a bottom at most
`commit_history_rounds` above the genesis declares anchors complete (`full_history_bottom = bottom`) although rounds between
genesis and bottom are missing: `GoodStart` excludes it (it needs `sync_support_rounds` smaller than the history depth,
which `validate` allows).

### Signing (C20) — `lean/Verif/Signing`
`InclusionState` of `consensus/src/dag/dag_location.rs` (acquire, restore, resolve, sign, close), the request handler of
`intercom/broadcast/signer.rs`, the phases of a version in `dag_point_future.rs` and restarts from stored statuses. Each
`OnceLock` access is one atomic step; versions, requests, crashes and restarts interleave freely; a restart takes any order of
records that `restore_order_asc` admits. Not modelled: the node's own points, the threshold counter, metrics.
Finding: a version restored as the first valid one is not marked so in storage, so two crashes can make a node sign two
versions (`two_restarts_sign_two_versions`).

### Semaphore (C03) — `lean/Verif/Semaphore`
`util/src/sync/priority_semaphore.rs`, every function. Steps: one compare-exchange on the counter, or one critical section of
the mutex. A poll is several steps (read what is needed; take permits without the lock; lock; finish), so other callers
interleave inside it; `add_permits_locked` gives up the lock when its wake list is full and continues later. The word
`permits << 1 | CLOSED` is a count and a flag. Not modelled: memory orderings, the intrusive list's pointers (see
`IntrusiveList`), mutex poisoning. A permit taken without the lock by a poll that then finds the semaphore closed is dropped
(`lost`); it is closed anyway.

### Dht (C18, C26) — `lean/Verif/Dht`
`network/src/dht/routing.rs` and `xor_distance`, `random_key_at_distance` of `dht/mod.rs`, on 32 byte ids. Whether the oldest
peer of a full bucket is expired, and whether the callback accepts the peer, are inputs. `visit_closest` visits as `closest`.
Finding: `closest` visits the buckets above the key's distance before those below it, whose peers are nearer, so a lookup is
not nearest-first (`closest_not_nearest_first`); the proved order is `closest_order`.

### Subs (C19) — `lean/Verif/Subs`
`rpc-subscriptions/src/{manager.rs, clients/, index/}`: any number of threads run register, `subscribe_many`, `unsubscribe_many`,
`unsubscribe_all` and `remove_client` concurrently; a step is one access to a concurrent map or one lock operation.
`ForwardSet` with its inline array and its promotion to a hash set, `IdPool`, the reverse lists and the client registry are
modelled. Specification: `want`, a fold over the log of subscription events. Simplifications are listed in `Model.lean` (entry
creation atomic under its map lock, `detach_client` atomic under the client's mutex, memory accounting left out).
Finding: a call looks its client up, then locks the client's mutex, and does not check that the client is still registered (only
`detach_client` does). If a removal runs in between, the call works with a client id that was given back, and possibly to another
client (`stale_call_misdirects`: client 2 gets the notifications client 1 asked for). The theorems about clients are therefore
about executions without such a call (`Exec true`, `Fresh`); the theorems about addresses hold in every execution.

### Counters (C27) — `lean/Verif/Counters`
`core/src/storage/shard_state/counters.rs`, every function: the presence bitmap, the eight bit planes for counts 2..=256, the map
for larger counts, `CounterBatch` (bit deltas, prepare order), serialisation and `deserialize_trusted`. A roaring bitmap is a set
of row numbers; its byte format is a parameter with a round trip hypothesis. Specification: a plain table from rows to counts.
The documented contract of the callers (every row once, its old count right) is a hypothesis here and is proved of the callers
in `CellStore`.

### CellStore (C28, C29) — `lean/Verif/CellStore`
`core/src/storage/shard_state/cell_storage.rs` (`store_cell_mt`, `remove_cell_mt`, `load_cell`,
`prepare_persistent_state_save`, the persisted filter and its rebuild) with `cell_nursery.rs` and the modelled `Counters`. Cells are
content-addressed natural numbers over an arbitrary finite-depth DAG (`World`); the approximate filter keeps an arbitrary
fingerprint of a hash, so collisions are covered. The walks are steps of any thread in any order (`sched`), with detached
subtrees; a batch is visible in the database only after a separate write step, and loads and evictions may come in between.
`Spec.lean` says what a sound store is. `Base.lean` has the invariant, `StoreWalk`/`StoreCommit` and `RemoveWalk`/`RemoveCommit` the
two big operations, `Ops` the others. Assumed of callers (`Allowed`): one store or removal at a time (the code takes a lock), only
stored trees are removed. Not modelled: `apply_temp_cell`, the tree cache, RocksDB errors, `u32` overflow of additions, crash points
inside an operation (see `NurseryWal`).
Findings (`Examples.lean`): `delayed_removal_leaks` (a split subtree that occurs twice in the removed tree is deleted without its
children), `read_of_deleted_cell_stays` and `stale_row_is_reused` (a load between the commit and the batch write caches a deleted
row; a later store can then skip writing that cell), `promoted_cell_disappears_for_a_while`.

### NurseryWal (C30, C31) — `lean/Verif/NurseryWal`
`core/src/storage/shard_state/nursery_persistence/{format,mod}.rs`: the record encoding byte by byte, `append_commit`, the batch of the
caller, the checkpoint (temporary file, rename, state keys, log reset, removal of stale files), `load_state`, `load_checkpoint`,
`replay_wal`, `open`; `CellNursery::apply_commit`. A crash may come between any two steps and after any prefix of a file write.
Trusted: a crash is one of the process, not of the machine: completed writes stay and a RocksDB batch is atomic (no fsync is
modelled); file operations of one process are sequential (the code holds the GC lock). BLAKE3 is any function to 32 bytes.
Specification: `replay`, the fold of the written commits over an empty nursery.

### Merge (C32, C33, C34) — `lean/Verif/Merge`
The merge operators registered with RocksDB: `storage/src/kv/refcount.rs`, `archive_data_merge`, `consensus/src/models/point_status`
(the byte layout of all eight statuses, `read_flags`, `decode`, `merge_bytes`), `moderator/journal/point_ref_count.rs`.
`block_handle_merge` is in `BlockMeta`. Specification: `Regroup`, the ways RocksDB may replace consecutive operands by their merge
before a read merges the rest; the stored value acts as a first operand. TL constructor ids are parameters (distinct where the code
distinguishes them); `RawBytes` reads all remaining bytes. `i64` sums are integers, with bounds as hypotheses.
Finding: of several `TransInvalid` (or `NotFound`) operands the remaining cause is the one with the greatest bytes, and the compared
bytes contain flags that an earlier partial merge may have changed, so it depends on the grouping (`cause_depends_on_grouping`).

### Journal (C35) — `lean/Verif/Journal`
`consensus/src/moderator`: `batch`, `store_records`, `clean_events`, `get_point`, over the byte-level merge of C34; RocksDB may merge the
operands of a point at any time (`compact`). The caller is one task that runs these calls one after another and each ends in one
atomic batch, so a crash is between operations. The contents of the main database are an arbitrary argument of each call. Kind,
peer and message of records are left out; sorting of references is left out. Overflow of the exclusive end round is not modelled.
Assumed: record keys are new (`RecordKeyFactory` starts at zero after a restart: a key of the same millisecond could repeat and
overwrite, which would leak counts), and an event carries a point at most once (`Examples.lean` shows the leak otherwise; no event
carries points today).

### IntrusiveList (C36) — `lean/Verif/IntrusiveList`
`util/src/util/linked_list.rs`, the waiter list under the priority semaphore: pointers of nodes on one heap shared by any number of
lists, `push_front`, `pop_back`, `remove`, `last`, with the assertions as failures. Specification: plain lists and the contract the
unsafe functions state. Not modelled: pinning and aliasing of the Rust references.

### MsgBuffer (C37, C38, C39) — `lean/Verif/MsgBuffer`
`collator/src/collator/messages_buffer.rs`: the message buffer with its transactions, `fill_message_group` with both passes and the slot
index, groups with `check_is_filled` and `+`. Specification (`Spec.lean`): `BufOk`, `GroupOk` (well-formed states), `Filled` (what a fill
has to achieve: conservation and order per account, blocked accounts, limits, maximality, reports), `Legal` (how callers use it: one slot
size, only accounts with internal messages removed). A message is its destination, content and kind. Left out: work-unit counters, wrap of
`u16` slot ids, hash map order of merged slots (taken as given). `fillNew` has fuel; that it suffices is part of the theorem.
Finding: in the third step `.entry(old).and_modify(insert).or_default()` does not note the first slot of each old count, so this slot stays
in its old bucket of the index. Therefore `check_is_filled` may deny a filled group (`Examples.lean`), and a later fill with a smaller
slot size would underflow; callers use one slot size, and the theorems hold with stale entries.

### Validator (C40–C44) — `lean/Verif/Validator`
`collator/src/validator/impls/std_impl/session.rs`: one validator session as a small-step concurrent system. `validate_block`,
`receive_signature`, `exchange_signatures`, `cancel_until` and `cancel` are tasks; each access to shared memory (slots of signatures, weight,
sealed flag, tree of blocks, cache slots, cancellation) is one step, and the scheduler, the peers' answers, calls and drops of futures are free.
`add_signature` has its five steps (load, check, compare-and-swap, add weight, seal). Specification (`Spec.lean`): `Final` (valid signatures of
different validators with more than two thirds of the weight), `SameSet`, `GivesOut`, `CfgOk` (what `new` makes, `newCfg_ok`). Proof: `Inv` (objects,
live blocks, tasks, no weight counted twice), `Live` (what a cancellation has visited), `Le` (what is never taken back). Parameters: `verify_raw`,
`sign_raw`, seqno of a block. Left out: events, metrics, delays, the semaphore of queries, weak memory order, wrap of `u32` in `seqno + 1 + slots`.
Findings (`Examples.lean`): (1) after `cancel_until` a validation that is past its first check can still register another block of the same seqno and
the exchange gives out its signature before the second check, so the node may sign two blocks of a cancelled seqno; (2) `saturating_mul(2)` makes
the threshold too small when the total weight is above `2^63`.

### Verifier (C45–C56) — `lean/Verif/Verifier`
`consensus/src/dag/verifier.rs` with the point accessors and structure checks of `models/point/{data,info,link}.rs`: `BasicVerifier::verify` (peer
sets, structure, quorums) and `Verifier::validate` (`check_valid`, `check_indirect_links`, `dependency`, `is_proof_ok`, ...). Futures become the list
of their results in the order of arrival (`Run`); dropped rounds and other versions of the author's previous point are results too. Specification
(`Spec.lean`): `World` (which body exists under which id), `Faithful` (what an execution can meet), `Accepted`, `History`, `IsStage`, `LinksTo`. Theorems
about histories are by induction over rounds, with the adversary free to make any points. Assumed: a digest names one body; genesis round > 0.
Left out: signatures of points, certificates (the assertion that a referenced previous point is marked as certified), task cancellation, metrics.
Finding (`Examples.lean`, `anchor_time_may_decrease`): the comment at `dag_location.rs:353-356` ("One cannot include point with the time lesser than
the proven anchor candidate") is not enforced by verification: all points may be valid while a later proof in the chain has a smaller anchor time
than the earlier one (within the clock skew), since the later candidate need not know the earlier proof.

### Producer (C57, C58) — `lean/Verif/Producer`
`consensus/src/dag/producer.rs`, `create` and its helpers (`link_source`, `link`, `anchor_links`, the choice of the role, `get_time`,
`check_prev_point`), against the model of the verifier. Specification (`Spec.lean`): `Ready`, what an honest node has when it makes a point
(accepted dependencies, a quorum, signatures of its previous point, clocks), `Schedule`, `AllValid`. Proof: `create_made` (what a made point is),
the possible roles (`RoleCase`), then each check of `verify` and `validate` in turn. `debug_assert` is left out; the clock is read once.
Assumed: after a loss of its database a node does not witness its own forgotten point of round r-2 (`Ready.wit`).
Findings (`Examples.lean`), both of an honest node that makes an invalid point from valid dependencies: (1) `check_indirect_links` bounds the time of
link targets by the point's time plus skew, while the producer bounds only its direct dependencies, so a proof or trigger of an author whose
clock is ahead by more than one but at most two skews gets in; `Ready.anchorsClock` excludes this. (2) With sticky anchors two proofs may be in
one round; `max_by_key` over a hash map then may prefer the other one to the node's own, and the node makes a regular point after its own
proof, which is rejected (`NotTrigger`); `Ready.soleProof` excludes this.

### Threshold (C59, C60) — `lean/Verif/Threshold`
`consensus/src/dag/threshold.rs`: concurrent `add` (counter, then channel), the task in `reached` (which may be dropped at its await point) and
`get_reached`, one step per access to the channel or the packed counter, which is modelled with its bytes. `DelayQueue` gives out entries whose
deadline has passed; timers may start late (`lag`). Specification (`Spec.lean`): `Legal` (use by callers: one point for an author, as C20 shows;
`get_reached` after `reached`), `Prompt δ`. One monotone clock. `reached_can_finish` is about a run of the task alone, no fairness is modelled.

### Anchors (C61, C62) — `lean/Verif/Anchors`
`collator/src/collator/anchors_cache.rs`: the cache of imported anchors, its history of infos and the transaction with its undo log. C61 by an
invariant (undoing the log gives the first cache). C62 refines a plain queue (`specQueue`) along histories in which anchors come with growing
ids and non-decreasing chain times (`Ordered`). Anchor contents are a tag.

### CumulStats (C63, C64, C65) — `lean/Verif/CumulStats`
`collator/src/internal_queue/types/stats.rs`, `collator/src/collator/statistics/{queue,cumulative}.rs`: the statistics of the internal queue,
with base and transaction layers, the tracked total and the cumulative statistics (three modes of processing, transactions with staged diffs).
A panic is a failure. Specification (`Spec.lean`): all diffs ever added, the last processed positions and what readers took; `Legal` (how
the collator uses it). Proof: one invariant that says which part of a diff is still counted (`pw`), with the state a rollback would give. Not
modelled: loading of ranges from storage (each diff comes as one `apply`), overflow of `u64`. Needed hypotheses, with examples where the code
panics without them: shards do not overlap (after a split or merge `processed_to` of both the parent and a child in one transaction is counted
twice), no counts of zero, readers take no more than was added.

### QueueStateFile (C66, C67) — `lean/Verif/QueueStateFile`
`core/src/storage/persistent_state/queue_state/{writer,reader}.rs`, the collection of the tail in `persistent_state/mod.rs`, the message iterator of
`block-util/src/queue/queue_diff.rs` and the reading loop of `collator/src/storage/mod.rs`, on top of the TL model of C23. Bags of cells are an
interface with stated laws (`Spec.Laws`; a toy instance in `Examples.lean`): the computed size is the size of the encoding, roots decode in order.
Not modelled: compression, cancellation, temporary files. Findings: (1) the writer also closes a chunk at 10 MB but announces only
`ceil(messages / 10000)` chunks, so a tail with heavy messages is saved, without an error, to a file that every reader rejects
(`heavy_queue_state_is_unreadable`, reached in `Examples.lean`); `queue_state_readable_iff` says exactly when. (2) A tail of more than 1000 diffs
is unreadable too. (3) A chunk whose bag has no roots makes the reader loop for ever, if the decoder accepts such a bag (`reading_ends`).
(4) `finish` accepts a reader that stopped inside a diff at the end of a chunk.

### QueueFill (C68, C69) — `lean/Verif/QueueFill`
The three ways a diff gets into the internal queue: the collator's own (`do_collate/mod.rs`, `types/diff.rs`, `types/stats.rs`, `types/router.rs`,
`state/storage.rs`), a received diff (`block-util/src/queue/queue_diff.rs`, `manager/msgs_queue.rs`, cells found by hash) and a saved state
(`storage/mod.rs` `import_from_file`, `storage/transaction.rs`); rebuild of the router (`reset_partition_router_by_stats`). Specification
(`Spec.lean`): the entries the queue must hold, from diffs and cells alone. Hash map iteration is an arbitrary permutation (`Order.Ok`). Proof:
each way gives a batch whose entries are those of the specification (`BatchFor`); `filled_unique` gives agreement. Not modelled: metrics, the
statistics per partition kept for logs, the variable with the last masterchain block id. Findings, proved by example: two destinations with one
account but different anycast give different stored counts (the collator overwrites, the import sums; `anycast_counts_differ`); a received diff
that lists an address in two partitions is applied with the last one and imported with the first (`double_listing_differs`).

### Strider (C70, C71, C72) — `lean/Verif/Strider`
`core/src/block_strider/mod.rs` (`run`, `process_mc_block`, `download_shard_blocks`, `process_shard_blocks`), `block_strider/state.rs` (persistent
state), handles created by `block_saver.rs`, the rule by which the garbage collection removes handles, `block-util/src/block/top_blocks.rs`. A
transition system: tasks of the shards, the prefetch, preparation in the background, garbage collection, stops (errors and crashes), restarts
and loss of recent writes interleave freely. Specification (`Spec.lean`): ancestors of blocks, the history `Covered` of a masterchain block, a valid
continuation (`ValidNext`). Proof: one invariant of stores and tasks (`SInv`), then trace invariants. Not modelled: the download as several
steps (nothing else is committed meanwhile), a manual trigger of the garbage collection beyond the last committed block,
`TempBlockStriderState`, contents of blocks. `WorldOk.heights` is what the garbage collection rule needs; it is proved for shards that are neither
split nor merged (`heights_fixed_shards`) and is a hypothesis otherwise. Finding: if the subscriber does not save blocks, `commit_shard` only warns
and a restart repeats the block (`without_saving_not_once`).

### Providers (C73, C74) — `lean/Verif/Providers`
`core/src/block_strider/provider/mod.rs` (chain, cycle, retry), `futures.rs` (`SelectNonEmptyFut`), and the fallback of
`blockchain_provider.rs`, driven by the calls of the block strider: `get_next_block` once per block, concurrently with `get_block` and
`cleanup_until`. The trace holds what each inner provider is asked and answers. Proof: invariants of state and trace; for select, one poll is a
`findSome?`, then induction on the number of polls. Not modelled: errors of inner providers (they end the strider), `u32` saturation. Findings
(reached in `Examples.lean`): shard blocks may be asked of a provider that did not return their masterchain block: with the cycle, after exhausted
providers in two consecutive calls; with the chain, for the last block of the left one. The fallback is never cleaned while it has every block, so
all its archives are kept.

### BlocksGc (C75, C76, C77) — `lean/Verif/BlocksGc`
`Model.lean`: `remove_blocks` (`core/src/storage/block/blobs/util.rs`) with its write batches and blob removals; every database on the disk after an
effect is in `trace`, the set of crash points. `TailModel.lean`: `DiffTailCache` and the scheduled target (`core/src/storage/gc.rs`).
`SaveModel.lean`: the flags that protect the items of a persistent state while it is saved (`state_applier.rs`), with the collection, crashes and
restarts as interleaved steps. Proof: loop invariant over the ranges written and pending (`Inv.lean`), then the final state and each crash state as
the removal of ranges that hold outdated blocks only; invariant of flags and pending id. Not modelled: removal of archives, waiting of
`get_blocking`, the other two sources of a target (previous key block, previous persistent state), `u32` bounds. Findings as listed in the notes of
the claims (`sibling_lost`, `idle_shard_tail_lost`, `sparse_shard_tail_lost`, `stuck_reachable`, `second_save_unprotected`). A manual trigger with an
exact seqno also cleans the tail cache when the removal failed.

### McTracker (C78) — `lean/Verif/McTracker`
`MinRefMcStateTracker` (`block-util/src/state/min_ref_mc_state.rs`). A step is what happens under one acquisition of the lock, so threads interleave
between the read path and the write path of `insert` and `remove`. Proof: invariant (counter = number of handles, zero counters have a pending
remover, the minimum is that of the keys). Not modelled: overflow of counters.

### ShardStates (C79, C80, C81) — `lean/Verif/ShardStates`
`core/src/storage/shard_state/mod.rs`: stores in the background (tree of cells or only the update), the cache of stores, the search of a load, the
chain of updates, the collection of old states, crashes and restarts; the chain is given by `Env`. A state is a set of cells; an update can be
applied if every cell of the new state is in it, in updates applied before, or in the database. Proof: one invariant (`Inv.lean`): a live result has
its pivot in the database outside the collection's list, a stored block at or above the edge is direct or not a multiple of the step and follows a
stored block. Simplifications: the accumulator of new cells and the hint only choose more direct stores; the connection is stored with the data; no
split or merge; stores of a shard begin in order; a state is taken from the table by a caller only at or above the edge (a collection that has read
the tracker before such a load is a race in the code); the lookup of a root that is in the database is left out. Findings: see notes of the claims
(`double_store_leak`, `fork_hides_pivot`, `lower_step_breaks_loading`).

### Rpc (C82–C87) — `lean/Verif/Rpc`
`rpc/src/state/storage.rs`. Transactions (`TxModel.lean`, `TxSys.lean`): tables as ordered lists of rows, `update` as one batch, `remove_old_transactions`
as a loop over a snapshot, iteration by iteration, with the batches it writes; blocks, iterations of any number of collections, cancellations and
restarts interleave. Proof: loop invariant (`TxInv.lean`), then an invariant of the system (`TxSysProps.lean`). Code hashes (`CodeModel.lean`): flags over
the transactions of an account, operations of a block computed on the tables before it, removal of a shard by bit masks. Specification: `Chain` (what an
executor can do to status and code), `World`. Block listing (`BlockTxs.lean`), row formats (`Codec.lean`). Not modelled: rows with keys of another length,
`known_blocks`/`blocks_by_mc_seqno` and their removal, snapshots held by queries, subscriptions, the flag `TX_GC_RUNNING`. Findings are proved in
`Examples.lean` and listed in the notes of the claims. Other observations: the collection removes block rows only of the top shard blocks of one
masterchain block; the previous blocks of a block after a split or merge are stored with the shard of the block.

### Archives (C88–C92) — `lean/Verif/Archives`
`core/src/storage/block/blobs/mod.rs` (`move_into_archive`, `prepare_archive_id`, `sync_state_after_init`, `remove_outdated_archives`, `get_archive_id`,
`estimate_archive_id`), `task.rs`, `writer.rs`. A step is what is done under one lock or in one write: the choice of the archive id by a call, its batch, start
of a commit, reading of ids, storing of the file, event, the three effects of a collection, start, stop, and the step of the strider to the next masterchain
block. Specification (`Spec.lean`): `arch`, the archive of a masterchain block as a function of the chain, and `Good`. Proof: `prepare_spec` (a call gets `arch`),
recovery as a fold over the events (`Recover.lean`), an invariant of disk and memory kept by all steps (`Inv.lean`, `Step.lean`). Simplifications: blocks are
numbers, ids of archives are `Nat` below `top`; block parts are always found by a commit (blocks are collected after their archive); a masterchain block's calls
end before the next one's begin; an error of a commit is a stop. `Examples.lean` has an executable form of the steps and the findings: a stop between file and
event makes the second start after it fail, two key blocks in a row, a key block alone in a new archive, a collection during a commit. Not modelled: the
compression, the check of block flags at start, notification of subscribers. A collection does not remove `archive_block_ids`.

### ArchiveFile (C93–C95) — `lean/Verif/ArchiveFile`
`block-util/src/archive/{proto,reader,mod}.rs`: the format of a package, `ArchiveReader`, `ArchiveVerifier` (the loop of `write_verify` iteration by iteration,
with the filled part of the buffer), `Archive::new`, `check_mc_blocks_range`. TL constructor ids and `ShardIdent::new` are parameters (`Ext`). Proof: codec laws
(`Common/Codec.lean`); the loop equals a fold over single bytes (`loop_bytes`), so chunks do not matter, then the bytes read so far are described by the
state (`At`). Not modelled: compression, deserialisation of the parts, `u32` wrap in the range check (first 0 and last 2^32-1).

### ExtReader (C96, C97) — `lean/Verif/ExtReader`
`collator/src/collator/messages_reader/externals_reader.rs` (reading into buffers, ranges, offsets), the parts of `messages_reader/mod.rs` that drive it for
externals (group, collection, refill, drop of offsets), `state/ext/*.rs`, the cache of anchors and its reload in `collator/mod.rs`. The buffers of a range are one
value of an abstract type with arbitrary operations; what is collected is an arbitrary function of what the code passes to the collection. C96: an invariant of
histories (`Hist.lean`, `Run.lean`, `Keep.lean`) over a specification of one call (`Read.lean`). C97: what the end of the run fixes is known in each state of it,
by backward induction (`Seg.lean`, `Back.lean`); one call in a run and the same call in a refill go in lockstep (`Lock.lean`); a simulation of the run by the
refill (`Replay.lean`, `Sim*.lean`), from the restart to the offset of the last full collection (`Restart.lean`), to the end (`Final.lean`). Not modelled: internal
messages, metrics, `last_read_to_anchor_chain_time`; the code refills until the offsets of externals and of internals are reached, the model until those of
externals are. A run from the very first block (with no range yet) is not in C97. Findings are in the notes of the claims.

### StateFile (C98–C101) — `lean/Verif/StateFile`
`core/src/storage/persistent_state/shard_state/{writer,reader}.rs`, `core/src/storage/shard_state/{store_state_raw,entries_buffer}.rs`: a stored state is written to
a BOC file, a BOC file is read, checked and turned into rows of `temp_cells`. The hashing of a cell (`finalize_cell`) is a parameter `Hasher` in the proofs and is
written out in `Cell.lean` with SHA-256 and `LevelMask::level` as parameters (`Crypto`); the theorems of `Props.lean` are about that one. Specification
(`Spec.lean`): the cells of a file by recursion on positions, the cells in a table, `NoCollision` (about the cells of the given files only, so that it can hold of a
real hash). Proofs: the stack of the writer as a depth-first visit (`Write.lean`), codec laws (`Bytes.lean`, `File.lean`), an invariant of the import for any file
(`Import.lean`, `Sound.lean`) and one for a written file (`Trip.lean`). Not modelled: compression, progress, cancellation, I/O errors; the value of the checksum.
Findings from reading: `CrcOptReader` of reader.rs does not advance and starts after the magic, so a file with a checksum is refused; the root index of the header is
ignored (the first cell is the root); a cell that is not in shortest form is accepted by the import and makes the writer panic later.

### CellStore, import (C102) — `lean/Verif/CellStore/Import.lean`
`apply_temp_cell` (cell_storage.rs:175-390) as one more operation of the store of C28/C29, so that all theorems about histories include imports. The walk is a walk
of `store_cell_mt` in one order (`ImportTx.asStore`), and the result is the store after a commit, a write and a flush, up to the order in the filter. The clean-up of an
interrupted bootstrap (db_state.rs:103-147) deletes everything and is not modelled; `interrupted_import_breaks` is what happens without it.

### PeerSchedule (C103–C110) — `lean/Verif/PeerSchedule`
`consensus/src/intercom/peer_schedule/{epoch_starts,stateless,stateful,locked,impl_,stats_ranges}.rs` and the entries of the private overlay they change. A step is a
call (each holds the write lock), a change of a peer handle, a step of a resolve task before and after it takes the lock (so a task that was aborted may still deliver
what it had taken); every published snapshot is kept. Specification (`Spec.lean`): a list of epochs with "schedule" and "reach a round", and the same with whole
validator sets; no arrays, no rotation. Proofs: one invariant of both parts (`Inv.lean`), a refinement to the list of epochs (`Props.lean`, `Members.lean`), chains of
epochs (`Rounds.lean`), sorted slots (`Stats.lean`), closure of invariants under the four parts of the calls (`closed_calls` in `Bans.lean`), then `Local.lean`.
Not modelled: metrics, key pairs (only the question whether the key is given), the overflow of rounds, `WeakPeerSchedule` upgrades, the shuffle that makes a subset.
Findings, as theorems in `Examples.lean`: `banned_peer_may_get_broadcasts`, `found_peer_may_stay_unknown`, `reported_peer_may_be_known`.

### AnchorCache (C111–C118) — `lean/Verif/AnchorCache`
`collator/src/mempool/impls/common/cache.rs`, `std_impl/{state_update_queue,session_keeper,adapter_impl,mod}.rs`. Readers and writers of the cache are steps: an
operation changes the data under the lock and owes a notification, which is a step of its own; a reader subscribes, makes an attempt, waits, wakes. Specification
(`Spec.lean`): answers as functions of the list of visible anchors. Proofs: searches in ordered lists (`Props.lean`), an invariant about waiting readers
(`Wake.lean`), a feed as a piece of the pushed history (`Feed.lean`), the queue against "last version of each seqno" (`Updates.lean`), the agreement of pending
updates, expectation and closing point (`Keeper.lean`). Parameters: `overrides` (a strict order; it is in tycho-types) and the aligned start round (ProofLeader
component). Not modelled: overflow of ids, `u32::MAX` as an id, failures of the start of a session, `set_peers`, the set of validators. Findings, as theorems in
`Examples.lean`: `cancelled_switch_keeps_old_future`, `early_switch_keeps_old_future`, `late_anchor_after_the_cut`, `replayed_anchor_breaks_order`.

### ActivePeers (C119–C122) — `lean/Verif/ActivePeers`
`ActivePeers` and the tie break of `network/src/network/connection_manager.rs` and the drop guard of the request handler. A call changes the map under the lock of an
entry and owes the change of the counter and the event, which are steps of their own (`tick`), so calls overlap. Two nodes with a shared set of connections are a `Duo`
(`Duo.lean`). Proofs: one invariant of all histories (`Inv.lean`). Not modelled: QUIC, the lag of a slow event subscriber, the overflow of ids. Findings, as theorems:
`same_direction_diverges`, `events_overtaken`.

### Dialing (C123–C128) — `lean/Verif/Dialing`
The event loop of `ConnectionManager` (connection_manager.rs): requests, incoming connections, results of tasks in any order, cancelled tasks, the delay of callbacks
after a connection closed by the remote, the connectivity check with backoff. Each turn of the loop is one step; answers and callbacks are kept in lists. Proofs: an
invariant that counts callbacks and ties entries to running tasks (`Inv.lean`, `Timers.lean`), then `Props`, `Right`, `Fifo`, `Check`. Not modelled: metrics, the
overflow of sequence numbers, 0-RTT connections, saturation of the number of attempts, reuse of keys of a live delay. Order of task results is a hypothesis of
`own_result` only. Findings, as theorems: `wrong_peer`, `stale_result`.

### KnownPeers (C129–C134) — `lean/Verif/KnownPeers`
`KnownPeers` and its handles (connection_manager.rs:1150-1680). Memory is explicit: inners, wrappers and handles are numbered, reference counts are numbers of handles.
A call is one step, except for the drop of a handle, whose removal of the entry is a step of its own, and temporary references (`peek`). The counter of affinity is a
64-bit number with the ban as its maximum and a subtraction that wraps, as in a release build. Proofs: consistency of the memory (`Inv.lean`), counting of wrappers
(`Aff.lean`, `Counted.lean`), the map against living data (`Kept.lean`, `Steps.lean`), then `Props.lean` and `Bans.lean`. Not modelled: metrics, a registry dropped before its
handles; the check for a ban and the release of the reference in a drop are one step. Findings, as theorems in `Examples.lean`: `rejected_insert_keeps_high`,
`ban_forgotten`, `clone_decrease_bans`, `insert_lost_in_race`, `ban_lost_in_race`, `dead_entry_stays`.

### BlocksCache (C135–C141) — `lean/Verif/BlocksCache`
The cache of the collation manager (`collator/src/manager/blocks_cache.rs`, entries of `types.rs`) and the decision of `commit.rs`. All groups are one table from
(shard, seqno) to entries; an operation is one step; a history is a list of operations. Block contents are opaque, a hash is a number, the masterchain is shard 0.
Specification: `Reach` (subgraph of a master block), lists observed along a history (accepted, added, sent, settled, waiting, unreported). Proofs: the extraction loop
against `Reach` (`Drain.lean`), an invariant of all operations (`Inv.lean`, `Steps.lean`), how an entry came to its place (`Hist.lean`), then `Props`, `Extract`, `Sent`,
`Range`, `Kept`, `Funds`. Assumed of blocks: tops and previous blocks of shard blocks are shard blocks. Not modelled: contents of states and diffs, overflow of sums,
interleaving inside an operation that takes several locks. Findings, as theorems in `Examples.lean`: `validation_matched_by_seqno`, `dangling_range`,
`removed_applied_block`, `uneven_split_order`, `late_candidate_stored`, `removed_funds_stay`.

### Cert (C142–C144) — `lean/Verif/Cert`
The certificates of points (`consensus/src/models/cert.rs`). Each atomic operation on the word of a cert is a step, a traversal is a task with the queues it holds, and
steps of all tasks and callers interleave freely; weak references and drops are represented. Specification: `Path` over published dependencies with a cost of one round
per include and two per witness. Proofs: one invariant with pending work (`Inv.lean`, `Steps.lean`), then `Props`; `Word.lean` proves the bit operations on the packed
16-bit word equal to the record. Not modelled: reused capacities, weaker memory orderings. Finding, as a theorem: `dropped_cuts`.

### BcastFilter (C145–C147) — `lean/Verif/BcastFilter`
The cache of broadcast points (`consensus/src/intercom/broadcast/broadcast_filter.rs`). What happens under the lock of a round is a step; deliveries that a call owes
after it released the lock, the opening of a round by a flush and each author its iteration meets are steps of their own, with callers whose heads may be old. Maps of
authors are numbered, as a flush shares them. Specification: the list of points heard for a cached round since it was created (`log`), `firstBy`, `forkBy`,
`goodAuthors`. Proofs: the entry of an author against the list (`Entry.lean`), agreement of the cache with the lists (`Inv.lean`), then `Props`, `Deliver`, `Kept`. Not
modelled: verification itself (its outcome is an input), logs, overflow of the author counter; `retain` is one step. Findings, as theorems: `third_not_counted`,
`clean_loses`.

### Limiter (C148–C150) — `lean/Verif/Limiter`
The limiter of concurrent downloads (`consensus/src/intercom/dependency/limiter.rs`). What runs under its lock is a step, and so is each call of a semaphore and the drop
of a waiting future; steps of all tasks interleave in any order, and which waiting task a semaphore wakes is left open. `tokio::sync::Semaphore` is modelled by its
documented behaviour (trusted). Proofs: an invariant of accounts (`Inv.lean`: for every round what the map says is what its tasks and permits are; `Steps.lean`: every
step keeps it), then `Props` with a measure of the work left. Not modelled: logs, closing. Finding, as a theorem: `aba_ignores_priority`.

### InputBuffer (C151–C152) — `lean/Verif/InputBuffer`
The buffer of external messages (`consensus/src/engine/input_buffer.rs`). Every call runs under a lock, so a history is a list of calls. Specification: `accepted`
(messages pushed after the first configuration), `total`, prefixes and suffixes. Proofs: the sums and the offset are right (`Inv.lean`), then `Props`. Not modelled:
times, metrics, capacity, overflow of sums. Findings, as theorems: `large_blocks`, `too_large_panics`.

### Bans (C153–C155) — `lean/Verif/Bans`
The bans of the moderator (`consensus/src/moderator/ban/*.rs`, `journal/record_key.rs`, `storage/store.rs` `load_restore`, `impl_.rs`). A step is what runs under the
lock, one item of the scheduler's channel, one message of the writer, a timer that fires, or a restart at any moment (what was not written is lost); an event reads the
clock before it gets the lock, so its record may land before those of bans by hand made meanwhile. Specification: the journal (on disk and on its way) and `banNow`,
`eventsOf`, `tooMany` over it. Proofs: the history of a peer against its list of events (`Hist`), a sound journal and what a start reads from it (`Journal`, `Restore`),
new records keep it sound at every crash point (`Insert`, `Inv`, `Inv2`), the chain of bans between channel and timers (`Chain`), then `Props`. Trusted: `DelayQueue` by
its documentation, clocks that do not go back. Not modelled: deduplication of events, other records of the journal, failures of the disk. Finding: `crash_loses_unwritten`.

### Slasher (C156–C158) — `lean/Verif/Slasher`
The way from observed signatures to accusations: the scope of a block's validation (`slasher-traits/src/validator.rs`), the collector of batches
(`slasher/src/collector/validator_events.rs`, `bc/mod.rs`), the contract (`contracts/src/slasher.tolk`), stored batches (`storage/models.rs`) and the analyzer
(`analyzer.rs`). Specification: `Batch.tells` (a batch tells of a block just these bits), `Faithful`, `Acceptable`, `WellMade`, `weightOf`. Proofs: invariants of a session
(`Collect`) and of the contract (`Contract`), the counts of the analyzer (`Analyze`), and the comparison of rates over the reals (`Wilson`, `Half`). Not modelled: cells,
messages to the contract and their signatures, the pending messages of `ContractSubscription`, floating point, overflow. Findings: `resize_loses`,
`resized_batch_overlaps`, `one_bad_batch_stops_analysis`, `malformed_is_refused` (so the threshold for malformed batches has no effect).

### SplitMerge (C159) — `lean/Verif/SplitMerge`
`calc_split_merge_actions` (`collator/src/utils/shard.rs`), whose error would stop the handling of a state. A shard is its workchain and its bits; the loop is a relation
(`Runs`), so that its end is proved, not assumed. Specification: the order of shards, `Apart`, and what it means to carry actions out (`Does`, `DoesAll`). Proofs: the
loop seen in pairs of checks, by induction over what is left to split (`Lemmas`), then `Props` and `Replay`. `ShardIdent` (from `tycho_types`) is modelled by its
documented behaviour. Findings: `merge_not_listed`, `new_workchain_not_added`, `splits_after_adds`, `overlap_wrong_order`.

### Persistent states being made (C160–C161) — `lean/Verif/PersistentSave`

`Model.lean` follows the key blocks through `ShardStateApplier` (`state_applier.rs`): saving
(`prepare_block`), the swap of the last key block time and the decision, joining the previous task,
`begin_persistent_state_store`, spawning, commit, the task's two effects on disk (files complete;
pending forgotten), failure, and a crash with restart at any point (`Reach`). The disk is the number
of saved key blocks, the number committed, the pending block, the stored states; `begun` and
`started` are history. `Step` contains an (unreachable) orphan-task step so that "at most one task"
is a theorem and not built in. `Spec.lean` says which blocks must have a persistent state (`Wanted`)
and which crashes are harmless. Proofs: three invariants (`RunInv` within a run, `TaskInv`,
`SoundInv`/`FullInv` across crashes). Findings are theorems in `Examples.lean`:
`crash_after_save_loses_state`, `cold_boot_makes_unwanted`, `cold_boot_misses_wanted`. Not modelled:
the contents and the files of the states, the flags protecting blocks from the collectors (in memory
only, so lost by a restart until resumed), shard blocks, the strider's own commit.

### The next collation step (C162–C163) — `lean/Verif/CollationStep`

`Model.lean` is `detect_next_collation_step` (`collator/src/manager/mod.rs`) step for step: the
pushed event, the facts of each shard (a fold over its events), the candidates, the decision, the
statuses and who is resumed, plus `renew_mc_block_latest_chain_time` and what a sync does to the
state. Shards are numbers, the hash map an association list (only the order of the resumed shards
depends on it); the intervals are those of the report. `Spec.lean` says without the fold when a shard
`Agrees`, what "a block with external messages on its newest master block" is, and what a history
is (only collators at work report). `Props.lean`: decision and chain time; `Live.lean`: the invariant
behind `never_stuck`. Not modelled: running the collators, cancellation, the syncs themselves; the set
of active shards and the intervals are constant in a history. Findings: `all_can_wait`,
`gone_shard_stops_master` (`Examples.lean`).

### Broadcaster and collector (C164–C167) — `lean/Verif/Broadcaster`

`Model.lean` is `Broadcaster` (`consensus/src/intercom/broadcast/broadcaster.rs`) function by function
as a state machine whose events are what its `select!` loops wait for; a query can end whenever it is
in flight. An assertion that fails is `none`. The log of sent queries, the list of signals and the
result of `run` are history. `Spec.lean` has pending queries, signed, told, good evidence, the
allowance of queries of an event, what counts as a refusal. `Lemmas`/`Step`: the invariant (`InvX`:
the peers in flight are exactly those of the two sets of futures, the queue is disjoint from them, no
signer is forgotten); `Frame`: the budget of queries; `Hist`: what each step does to the rest.
`Round.lean` adds `CollectorTask` and the channels between the two. Signatures and their check are
parameters; the lag error of the update channel is a no-op and left out; cancellation stops the
machine. Findings (`Examples.lean`): `nonsigners_fail_run`, `signed_and_refused`,
`nonsigner_not_retried`.

### Download of a point (C168–C170) — `lean/Verif/Downloader`

`Model.lean` is `DownloadTask` (`consensus/src/intercom/dependency/downloader.rs`) with its `PeerQueue`
(`peer_queue.rs`) as a state machine whose events are what `run` selects on. A status compares by the
derived order written out (`Status.key`); the map ordered by value is an association list of which the
least status is taken (first of equals). What a peer answers and what parsing gives are part of the
event. A failed `unwrap`/assertion is `none`; the log of queries is history. `Spec.lean`: an answer that
denies the point, a final answer, the state last heard of a peer. `Lemmas`/`Step`: the invariant of a
running download and what each step does; `Run`: what holds of a history. Not modelled: the limiter
before a download starts, the conditions under which a download is wanted, the lag error of the update
channel. Findings (`Examples.lean`): `author_not_first` (against the comment of the code),
`depender_late`, `failed_again`.

### Map ordered by value (C171) — `lean/Verif/OrderedMap`

`Model.lean` is `ValueOrderedMap` (`consensus/src/utils/value_ordered_map.rs`) over any linear orders:
the index map is the list of its entries, `move_index`, `replace_index`, `shift_insert` are list
operations that fail out of range, the binary search is the first index of an entry not less (its
contract on a sorted list; sortedness is proved for every reachable map). `Props.lean`: each call as a
map operation, and `keeps_greatest`. The queue of `Downloader` uses this map; there the least status is
looked up directly (`max_spec` is what justifies it; ties are broken by the key here, by position
there). Finding: `falling`.

### Neighbours of the public overlay (C172–C174) — `lean/Verif/Neighbours`

`Model.lean` is `TrackedStats` with its packed buffer of times (`core/src/overlay_client/neighbour.rs`),
`SelectionIndex`, `RequestHistory` (fine of one peer) and `Neighbours` (`neighbours.rs`): `try_apply_score`
and `update` are two steps each, the second under the lock, with anything between. The compare-and-swap
compares a version (the loader holds the old list, so its address is not used again). Random numbers are
inputs: "with the probability of its weight" is the count of the random numbers choosing a neighbour
(`Chooses`); `choose_multiple` is stated for any keys (`key = u^(1/weight)` is floating point and left out).
`Props.lean`: the invariant and what an update makes of the set (`Updated`); `Main.lean`: the claims. Not
modelled: the bound of the cache of fines, the metrics, `wait_for_peers`. Findings (`Examples.lean`):
`update_brings_back`, `update_drops_good`, `update_adds_twice`, `sorted_spoils`, `many_misses_reliable`,
`no_time_no_bonus`.

### Rate limiter (C175–C177) — `lean/Verif/RateLimit`

`Model.lean` is `util/src/rate_limit.rs` function by function, with its saturations; a check of the whole
limiter is one step (`Reach`: histories of checks with a clock that does not go back), and the claims of one
bucket are modelled again operation by operation (`Conc`: load, compare, exchange, spurious failures, any
clocks; sequentially consistent). `Lemmas.lean`: spans of time (`Within`), what a check makes of a peer.
`Props.lean`: concurrent claims; `Seq.lean`: the rate over dropped states (a virtual arrival time that survives the
dropping); `More.lean`: who keeps to the limit, when to try again; `Cooldown.lean`. Not modelled: checks of one peer
at the same time beyond the claims (the counter of rejections and the cooldown are atomics too; with the counter at 254
the debug assertion could fail there), the hash map of peers under concurrent replacement. Findings
(`Examples.lean`): `cooldown_escaped`, `burst_again`, `rate_rounded`, `too_early`, `first_limit`.

### Lookups in the DHT (C178–C179) — `lean/Verif/Lookup`

`Model.lean` is `find_value` and `find_peers` of `network/src/dht/query.rs` as state machines over the routing table of
`Verif.Dht`: an event is the response of any peer asked. The limit of ten requests at a time is left out (more orders are
allowed than there are), validity of infos and bans are part of the response, the TTL is infinite as in the code.
`Lemmas.lean`: buckets that only grow, who is nearest, whom `schedule` asks; `Props.lean`: C178; `Peers.lean`: C179, with
`Hops` (steps from the first candidates) and `Named` (what came in valid responses) as the specification.
Not modelled: `store_value` of the query, the shared cache of queries. Findings (`Examples.lean`):
`depth_limit_depends_on_order`, `target_never_asked`, `banned_in_result`.

### Shared futures (C180–C181) — `lean/Verif/SharedFut`

`Model.lean` is `Shared` of `util/src/futures/shared.rs`: every atomic operation of a poll (load of the state, permit, second load,
poll of the inner future, write, store, `try_unwrap`, clone) is an event, so polls of any number of handles interleave in
any way, with clones, drops and cancellations between; the inner future is any (value, pending, panic), and may wake the waker of its
last poll. tokio's semaphore is a FIFO queue with one permit handed to the first when released. Memory is sequentially
consistent. `Lemmas.lean` and `Steps.lean`: the invariant (`Inv`), event by event; `Props.lean`: the claims, with a measure for the
end. `WeakShared` is not modelled. Findings (`Examples.lean`): `nobody_last`, `completed_blocks`.

### Shared queries (C182) — `lean/Verif/QueryCache`

`Model.lean` is `QueryCache::run` of `network/src/dht/query.rs`: joining or making a future under the lock of the entry, letting go of
it, and `remove_if` under the lock are steps of any number of calls in any order. What `leave` may be told is what C180 proves of
`Shared`: the last at most once and rightly, but perhaps nobody. `Props.lean`: the claims, with `entry_stays` as the finding.

### Reclaimer (C183) — `lean/Verif/Reclaim`

`Model.lean` is the queue of `util/src/mem/reclaimer.rs`: threads are alike, so the state counts them at each place of the code (with
their values), and each section under the lock, push, steal and notification is a step; `notify_one` wakes any waiter, waiters may
wake for no reason. `Stuck` (no step but new calls and spurious wakes) is the specification of "nobody can move". Not modelled:
the flags that drop in place. Progress is deadlock freedom; `worker_spins` shows that a fair scheduler is needed for more.

### Memory slicer (C184–C185) — `lean/Verif/Slicer`

`Model.lean` is `util/src/mem/slicer.rs` function by function, with the saturating operations written out; a plain subtraction that
would underflow, or a loop that does not end within its fuel, is `none`, which the theorems exclude. The `BTreeMap` of groups is a list
sorted by key, the vector of results a function of the index. The mutex makes calls atomic, so a history is a list of calls.
`Lemmas.lean`: one group (`complete_spec`, `distribute_spec`, `groupLoop_spec`); `Groups.lean`: the groups made from the constraints and
the loop over them; `Props.lean`: `solve_spec`, with `Fits`, `ByRatio` and `ByPriority` as the specification; `History.lean`: the allocations and `conserved`.
Not modelled: the measure of the memory of the machine (any number), serde. Findings (`Examples.lean`): a range without a number in it
is "served" with nothing; the rounding of a group goes to the groups of a lower priority though it is not full.

### Round watches (C186) — `lean/Verif/RoundWatch`

`Model.lean` is `consensus/src/engine/round_watch.rs` over a model of tokio's watch channel (value, version, the version each receiver
has seen); the two calls in `next` are two steps, so a `set_max` may come between. `Props.lean`: the invariant and the claims, with
`top` (greatest of a list, characterised by `top_spec`) and `Rx.last` (what a receiver was last told) as the specification.
