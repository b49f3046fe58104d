{"id": "C01", "title": "Transactional containers roll back exactly", "statement": "For every value built from the transactional containers (value, option, ordered map, hash map, nested arbitrarily): after begin(), any sequence of reads, writes, inserts, removes and in-place mutations of stored values followed by rollback() leaves the container observably equal to what it was at begin(); followed by commit() leaves it equal to what the same operations would have produced without a transaction; and in both cases no transaction is left open.", "quantifier": "all initial contents, all operation sequences, all nesting of containers", "why_tests_cant": "Unit tests fix a handful of short operation sequences; the claim is about every interleaving of insert/remove/replace of the same keys with in-place mutation and every nesting.", "anchors": ["util/src/transactional/mod.rs: Transactional, TransactionGuard", "util/src/transactional/value.rs: TransactionalValue", "util/src/transactional/option.rs: TransactionalOption", "util/src/transactional/btreemap.rs: TransactionalBTreeMap", "util/src/transactional/hashmap.rs: TransactionalHashMap"]}
{"id": "C02", "title": "Streaming median is the median", "statement": "After any sequence of inserted unsigned values the streaming median reports nothing if no value was inserted, the middle element of the sorted sequence if the count is odd, and the floored mean of the two middle elements if it is even (when their sum does not overflow).", "quantifier": "all sequences of inserted values of any length", "why_tests_cant": "Holds for every multiset and every insertion order; tests only sample orders.", "anchors": ["util/src/num/median.rs: StreamingUnsignedMedian"]}
{"id": "C03", "title": "Priority semaphore conserves permits and honours priority", "statement": "In any sequence of acquire (ordinary or priority), try_acquire, cancel, release and close, the number of free permits plus permits held never differs from the number of permits created; a waiter is only woken with a permit; waiters of one class are served first-in-first-out; an ordinary waiter is never served by a release while a priority waiter is queued; after close nobody acquires.", "quantifier": "all sequences of semaphore operations, any number of waiters", "why_tests_cant": "The claim is about every history of arrivals, cancellations and releases.", "anchors": ["util/src/sync/priority_semaphore.rs: PrioritySemaphore"]}
{"id": "C04", "title": "Two quorums share an honest peer", "statement": "For every validator count accepted by the consensus, with f the tolerated fault number derived from it, any two majorities of the validator set share at least f+1 peers (hence at least one honest peer if at most f are faulty), any majority and any reliable minority intersect, and any reliable minority contains an honest peer; counts that do not fit are rejected.", "quantifier": "all validator counts and all pairs of peer sets", "why_tests_cant": "Ranges over all subsets of all validator sets.", "anchors": ["consensus/src/models/peer_count.rs: PeerCount"]}
{"id": "C05", "title": "Committed mempool history contains no duplicates and is causally ordered", "statement": "For every local DAG, every anchor and every set of already committed points, the history emitted with an anchor contains no point twice and no already committed point, contains only points reachable from the anchor through includes/witness links via uncommitted points within the configured depth, contains all of those, ends with the anchor itself, and places every point after all the points it links to that are in the same history.", "quantifier": "all DAGs, anchors, committed sets, shuffles", "why_tests_cant": "Depends on every DAG shape (equivocations, witness links skipping a round, partially committed sub-DAGs) and on every shuffle.", "anchors": ["consensus/src/dag/commit/back.rs: DagBack::gather_uncommitted", "consensus/src/dag/commit/mod.rs: Committer::dequeue_anchor"]}
{"id": "C06", "title": "No point is ever committed twice across anchors", "statement": "Over any run of the committer (any sequence of commits), no point appears in two histories, and once an anchor is committed every point in its history counts as committed for later ones.", "quantifier": "all runs of the committer", "why_tests_cant": "History property over unbounded executions.", "anchors": ["consensus/src/dag/commit/mod.rs: Committer::commit, dequeue_anchor", "consensus/src/dag/commit/back.rs: DagBack"]}
{"id": "C07", "title": "Anchor chain is linked, ordered and independent of the trigger schedule", "statement": "Committing on a trigger yields anchors in strictly increasing round order, each naming as previous anchor exactly the anchor emitted just before it; and committing through any subset of the triggers of one chain in order yields in total the same sequence of anchors as committing only on the last one.", "quantifier": "all proof chains and all subsets of triggers used", "why_tests_cant": "The set of triggers that happen to be ready when the engine commits depends on the schedule; all schedules must give the same output.", "anchors": ["consensus/src/dag/commit/back.rs: DagBack::anchor_chain", "consensus/src/dag/commit/mod.rs: Committer::commit"]}
{"id": "C08", "title": "Anchor stage roles and genesis alignment", "statement": "For every start round the aligned genesis round is a proof round, is never lower than the start round, and exceeds it by less than one wave except for the very first wave; proof rounds and trigger rounds of one wave are consecutive and every wave has exactly one of each.", "quantifier": "all 32-bit rounds where the arithmetic does not overflow", "why_tests_cant": "The unit test samples rounds 0..10.", "anchors": ["consensus/src/dag/proof_leader.rs: ProofLeader::align_genesis, role"]}
{"id": "C09", "title": "Mempool peer statistics merge without double counting", "statement": "However an aggregate is built by in-order additions and merges, no round is counted twice, the filled count is the number of rounds, all rounds lie in its span and every counter is the saturated sum of what was put in; a round is accepted in order exactly when it follows everything counted, two non-empty aggregates merge exactly when their spans do not overlap, and the result of merging two of them does not depend on the order.", "quantifier": "all ways of building aggregates, all pairs of aggregates", "why_tests_cant": "every interleaving of additions and merges and every saturation point would have to be sampled", "anchors": ["consensus/src/models/stats.rs: MempoolPeerStats::add_in_order, merge_with, MempoolPeerCounters::merge"]}
{"id": "C10", "title": "External message deduplication window", "statement": "Fed with non-decreasing rounds, the deduplicator reports a message as unique exactly when the same message was not seen in the preceding configured number of rounds (counting repeated sightings as refreshing the window), regardless of when cleaning is run, and it never forgets a message earlier nor keeps state for longer than the window after cleaning.", "quantifier": "all sequences of (round, message) sightings and cleanings", "why_tests_cant": "The claim ranges over all histories and all cleaning schedules.", "anchors": ["collator/src/mempool/impls/common/deduplicator.rs: Deduplicator"]}
{"id": "C11", "title": "Queue keys: order-preserving encoding and successor", "statement": "The stored encoding of internal-queue keys (message keys, statistics keys, diff keys) decodes back to the same key and sorts bytewise exactly as the keys compare, within one partition and shard; the successor of a key is the least key greater than it.", "quantifier": "all keys", "why_tests_cant": "All 2^320 keys.", "anchors": ["block-util/src/queue/proto.rs: QueueKey", "collator/src/storage/models.rs: ShardsInternalMessagesKey, StatKey, DiffTailKey, DiffInfoKey", "storage-traits/src/stored_value.rs"]}
{"id": "C12", "title": "Queue iteration returns every addressed message once, in order", "statement": "Iterating the internal queue over per-shard ranges for a receiver shard returns exactly the stored messages of the partition whose key lies in the half-open range of their source shard and whose destination belongs to the receiver, each exactly once, in ascending (lt, hash) order across shards.", "quantifier": "all stored contents, ranges and receivers", "why_tests_cant": "Ranges over all stores and all interleavings of the per-shard streams.", "anchors": ["collator/src/internal_queue/state/state_iterator.rs: StateIteratorImpl", "collator/src/internal_queue/state/shard_iterator.rs: ShardIterator", "collator/src/storage/iterator.rs"]}
{"id": "C13", "title": "Applying a queue diff is idempotent and never overwrites", "statement": "Applying the same diff again changes nothing; applying a different diff for the same block is rejected without effect; a diff whose messages do not lie above the commit pointer of its shard is rejected without effect; with the sequence check on a gap in block numbers is rejected without effect.", "quantifier": "all queue states and diffs", "why_tests_cant": "All states and all repetitions, including replays after a crash.", "anchors": ["collator/src/internal_queue/queue.rs: QueueImpl::prepare_diff, apply_diff", "collator/src/internal_queue/state/storage.rs: QueueStateStdImpl"]}
{"id": "C14", "title": "Clearing uncommitted queue state", "statement": "Clearing the uncommitted zone removes every message and diff record above the commit pointer of its shard in the cleared partitions (all of them for top shards without a pointer) and leaves every committed message, statistic and diff unchanged; uncommitted statistics are removed too, except in the boundary case where a diff's greatest message is the immediate successor of the pointer (or the greatest possible key). Clearing after any number of diffs applied on top of the last commit restores exactly the contents before them, and re-applying the same diffs succeeds with the same result.", "quantifier": "all queue states and all sequences of diffs", "why_tests_cant": "All interleavings of apply, commit and clear.", "anchors": ["collator/src/storage/transaction.rs: InternalQueueTransaction::clear_uncommitted, delete", "collator/src/internal_queue/queue.rs: clear_uncommitted_state"]}
{"id": "C15", "title": "Queue commit is monotone and garbage collection is safe", "statement": "Committing with a masterchain block that is not newer than the committed one has no effect; otherwise the pointer of every top block with a recorded diff moves to that diff and the other pointers stay; the masterchain pointer never decreases; nothing but the collector removes a message at or below the commit pointer; and the collector deletes a message only if an earlier effective commit of its partition shows it processed: every committed top block whose diff was recorded and mentions the shard has processed the shard up to that key or further.", "quantifier": "all histories of prepares, writes, drops, commits, clears, collector steps and restarts, in any interleaving the locks permit", "why_tests_cant": "Safety over all histories of commits and asynchronous GC runs.", "anchors": ["collator/src/internal_queue/queue.rs: commit_diff", "collator/src/internal_queue/gc.rs: GcManager, gc_task"]}
{"id": "C16", "title": "Block metadata flags", "statement": "Setting and clearing block flags never disturbs other flags, the masterchain reference number or the generation time; the returned boolean tells exactly whether something changed; the stored form reads back identically; and a block marked as to be kept is never reported as collectable.", "quantifier": "all flag words, all sequences of updates", "why_tests_cant": "All 2^64 words and all update sequences.", "anchors": ["core/src/storage/block_handle/meta.rs: BlockMeta, BlockFlags"]}
{"id": "C17", "title": "A block proof is accepted only with more than two thirds of the weight", "statement": "Signature checking of a block proof succeeds only if the distinct validators of the computed subset that signed hold strictly more than two thirds of the subset's total weight, never because of integer overflow; two proofs accepted for the same subset have signers in common holding more than a third of the weight.", "quantifier": "all validator subsets, weights and signature sets", "why_tests_cant": "All weight assignments including those that overflow.", "anchors": ["block-util/src/block/block_proof_stuff.rs: BlockProofStuff::check_signatures"]}
{"id": "C18", "title": "DHT routing table", "statement": "After any history of additions and evictions the routing table never stores the local peer, never holds two entries for one peer, keeps at most k peers per bucket (all at that bucket's distance) and reports exactly the stored peers as contained; an addition is accepted exactly when the peer is another one that is known, has room, or replaces an expired oldest peer, and loses nobody else. A lookup returns min(count, stored) distinct stored peers: first those nearer to the key than the local peer, then the farther ones by growing distance, last those as far as the local peer. (Plain nearest-first is false of the code; a counterexample is proved.)", "quantifier": "all sequences of table operations with well formed ids, all keys and counts", "why_tests_cant": "All peer id sets and operation histories.", "anchors": ["network/src/dht/routing.rs: RoutingTable, Bucket"]}
{"id": "C19", "title": "Subscription index stays consistent under concurrent calls", "statement": "Under any interleaving of register, subscribe_many, unsubscribe_many, unsubscribe_all and remove_client calls (in which no call locks a client that was removed after its lookup): a client none of whose calls holds its mutex is notified of an address, and lists it, exactly if its last completed event for it was a subscription; notifications name registered clients only, each once; an Ok answer means that all addresses of the call were processed, an error that a prefix was; a client has at most 255 addresses, the numbers of addresses and clients stay within the limits, calls are refused only at a limit; when no call runs, every tracked address has a subscriber and no address id or client id is lost; the calls do not deadlock. Without the restriction the property is false: a call that raced with a removal subscribes whoever got the id.", "quantifier": "all interleavings of all calls by any number of threads, all client and address sets, all limits", "why_tests_cant": "The races between the forward map, the reverse map and the id pools span unboundedly many schedules and histories.", "anchors": ["rpc-subscriptions/src/index/subscriptions.rs: Subscriptions", "rpc-subscriptions/src/manager.rs", "rpc-subscriptions/src/clients/mod.rs", "rpc-subscriptions/src/index/forward/", "rpc-subscriptions/src/index/reverse.rs", "rpc-subscriptions/src/clients/id_pool.rs"]}
{"id": "C20", "title": "A node signs at most one version per author and round", "statement": "Whatever order point versions, signature requests, crashes and restarts arrive in, a node signs only one version of a point per author and round, as long as every restart except the last finds in its storage either no valid version or one marked as the first valid (always true for a single crash at any moment). Over more restarts that condition is needed. In every run, a signature is made only while the node is at the round of the point or the next one, only for a version stored as valid, answers do not change within one life of the node, and no step panics.", "quantifier": "all interleavings of versions, requests, crashes and restarts", "why_tests_cant": "The guarantee ranges over all schedules of racing versions and all crash points.", "anchors": ["consensus/src/intercom/broadcast/signer.rs: Signer", "consensus/src/dag/dag_location.rs: InclusionState", "consensus/src/dag/dag_point_future.rs: new_restore", "consensus/src/models/point_restore.rs: restore_order_asc"]}
{"id": "C21", "title": "Running average is the mean", "statement": "The overflow-safe running average reports nothing without samples, the floored mean of the samples while their total fits in 128 bits, and always a value between the least and the greatest sample.", "quantifier": "all sequences of samples", "why_tests_cant": "the overflow restart happens only for totals above 2^128; the claim quantifies over all sequences", "anchors": ["util/src/num/safe_avg.rs: SafeUnsignedAvg::accum, get_avg_checked"]}
{"id": "C22", "title": "A stored block handle never loses an update", "statement": "A block handle's flags are updated in memory by any number of concurrent tasks, each of which then stores the handle. Whatever the interleaving, the stored record never contains a flag that was not set in memory, once no task is between its update and its store the stored record contains every flag set in memory (apart from the cache collector's removal mark), and the recorded masterchain reference and generation time never change. Merging stored records gives the same bytes in any order and for any grouping.", "quantifier": "every sequence of interleaved updates, stores and cache collections; every list of merge operands", "why_tests_cant": "Depends on every interleaving of updates and stores; a test exercises a few schedules.", "anchors": ["core/src/storage/block_handle/mod.rs", "core/src/storage/block_handle/meta.rs", "core/src/storage/tables.rs: block_handle_merge"]}
{"id": "C23", "title": "A queue diff has exactly one binary form", "statement": "Serialising a well-formed queue diff and reading it back, with any bytes after it, returns the same diff with its hash computed over exactly its own bytes. Conversely every byte string the reader accepts is exactly the serialisation of the diff it returns, so equal diffs have equal bytes and equal hashes, ordered fields have no repetitions, and min message is not above max message. An accepted list of diffs is non-empty, has strictly falling sequence numbers and each diff's previous hash is the hash of the next diff's bytes. Long byte strings read back, are 4-aligned, and never exceed the limit.", "quantifier": "all diffs, all byte strings, any length", "why_tests_cant": "All byte strings: a test cannot rule out a second accepted encoding.", "anchors": ["block-util/src/queue/proto.rs: QueueDiff, processed_to_map, router_partitions_map, messages_list, queue_diffs_list", "block-util/src/tl.rs", "util/src/tl.rs: BigBytesRef"]}
{"id": "C24", "title": "Nodes commit the same sequence", "statement": "Two nodes that follow one chain of anchor proofs from the genesis, learning points in any order and using any subset of triggers, hand out the same anchors with the same histories in the same order: the output of the one that is behind is a prefix of the output of the other.", "quantifier": "all pairs of runs, all DAG views faithful to what authors signed, all shuffles", "why_tests_cant": "it relates two arbitrary executions with different local views, iteration orders of hash maps and trigger schedules", "anchors": ["consensus/src/dag/commit/back.rs gather_uncommitted, anchor_chain", "consensus/src/dag/commit/mod.rs commit"]}
{"id": "C25", "title": "Executable anchors have complete histories, also after a gap", "statement": "An anchor handed out as executable, and every anchor up to deduplicate_rounds below the first executable one, contains every uncommitted point reachable from it within the history depth: nothing is cut off at the bottom of the local DAG, whatever rounds were dropped or removed before.", "quantifier": "all runs of the engine task with any number of gaps", "why_tests_cant": "depends on every interleaving of removals, drops and commits", "anchors": ["consensus/src/dag/commit/mod.rs init, drop_upto, remove_committed", "consensus/src/engine/committer_task.rs"]}
{"id": "C26", "title": "DHT distance", "statement": "The distance of two peer ids is the number of significant bits of their exclusive or: zero exactly for equal ids, at most 256, symmetric, and of the three distances among three ids the two greatest are equal. The random key for a distance is never farther than it, and every id within the distance can be drawn.", "quantifier": "all 32 byte ids, all distances up to 256, all random bytes", "why_tests_cant": "2^256 ids; chunk and mask boundaries.", "anchors": ["network/src/dht/mod.rs: xor_distance, random_key_at_distance"]}
{"id": "C27", "title": "Cell reference counters report what was written", "statement": "Over any history of row allocations, counter batches that keep the documented caller contract (each row once, the old count right) and save-and-load cycles of the snapshot, the count reported for an existing row is the one last written, whatever the tier it is kept in (implicit one, eight bitmaps for 2..=256, hash map above), the total is the number of existing rows, every snapshot loads, and no entry of a deleted row is left behind.", "quantifier": "all histories of allocations, batches of any size and order, and snapshot reloads; all counts below 2^64; any lossless bitmap byte format", "why_tests_cant": "The tiers interact through bit deltas of the old and new count of every row in a batch; tests try a few transitions between tiers, not every pair of counts in every history.", "anchors": ["core/src/storage/shard_state/counters.rs: Counters::get, apply_batch, serialize, deserialize_trusted, CounterBatch, BitDeltas"]}
{"id": "C28", "title": "The cell store holds exactly the cells of the stored trees, with their reference counts", "statement": "After any history of store_cell_mt and remove_cell_mt of cell trees, batch writes, loads, cache evictions, flushes for persistent states and restarts, a cell is stored if and only if it is in a tree that was stored more often than removed; its counter is the number of its uses (as a stored root and as a reference of stored cells); the total of the counters is the number of stored cells; no operation fails; when all trees are removed nothing is left. The result does not depend on the thread schedule of the parallel walks or on the subtrees they were split at.", "quantifier": "all cell DAGs, all histories of operations, all schedules of the parallel walks, all split sets for stores, split sets without repeated subtrees for removals, all fingerprint collisions of the approximate filter", "why_tests_cant": "Counts depend on the sharing in the tree, on which thread meets a shared cell first and on what is in the nursery, filter and cache; a test sees a few trees under a few schedules.", "anchors": ["core/src/storage/shard_state/cell_storage.rs: store_cell_mt, remove_cell_mt, get_raw_idx_for_insert, get_raw_for_delete, add_removes", "core/src/storage/shard_state/cell_nursery.rs: apply_commit, drain_promotable"]}
{"id": "C29", "title": "Stored cells load, and leave the nursery in time", "statement": "While no batch is on its way, loading a hash returns the cell if and only if it is stored; while one is, every stored cell loads unless the batch is about to write it and the cache dropped it. After a store at round r every cell in the nursery is younger than 100 rounds; after the flush of a persistent state save the database itself holds exactly the stored cells and the nursery is empty.", "quantifier": "all histories and schedules of C28, every hash, every point between operations including between a commit and the write of its batch", "why_tests_cant": "Whether a load hits nursery, cache or database depends on the whole history of promotions, evictions and removals.", "anchors": ["core/src/storage/shard_state/cell_storage.rs: load_cell, prepare_persistent_state_save, get_raw", "core/src/storage/shard_state/cell_nursery.rs: drain_promotable"]}
{"id": "C30", "title": "Nursery log records read back exactly, torn ones never", "statement": "Every nursery commit or checkpoint that can be encoded reads back with the same id, inserts and removes whatever bytes follow it, and the reader stops exactly behind it; two different commits never have the same bytes; a record cut at any byte is not accepted; whatever is accepted is preceded by the hash of its length and payload.", "quantifier": "all record ids, all deltas within the field widths, all following bytes, all cut positions, all hash functions of 32 bytes", "why_tests_cant": "The format has nested variable-length lists; tests try a few sizes and cuts, the property is about all of them.", "anchors": ["core/src/storage/shard_state/nursery_persistence/format.rs: encode_record, decode_record, estimate_total_metadata_len"]}
{"id": "C31", "title": "A restart finds the nursery of the last written batch", "statement": "Whatever sequence of commits, checkpoints, crashes at any point (also within a file write) and restarts a node went through, it can be opened, and the nursery then contains exactly the entries produced by the commits whose database batch was written: none is lost, none of an unfinished commit is visible, and each entry is in the round index. While a node is idle its nursery has the same content and its log size is the length of the file.", "quantifier": "all executions: any number of commits, checkpoints at any threshold, crashes between any two steps and after any prefix of a write, restarts that crash again; any snapshot order; any hash function", "why_tests_cant": "Crash points times histories is an unbounded space; a test can only kill at chosen points.", "anchors": ["core/src/storage/shard_state/nursery_persistence/mod.rs: NurseryPersistence::open, append_commit, checkpoint_if_needed, replay_wal, load_checkpoint, load_state", "core/src/storage/shard_state/cell_nursery.rs: apply_commit"]}
{"id": "C32", "title": "Reference-counted cells and archives do not depend on merge grouping", "statement": "For a cell that is referenced and released so that its count never goes below zero, a read finds exactly the number of references, and its data exactly when there is at least one, however RocksDB has grouped and pre-merged the operands. An archive is the concatenation of what was appended, in order, under any grouping.", "quantifier": "all histories of one key within i64, all ways of replacing consecutive operands by their merge any number of times", "why_tests_cant": "Compaction may merge any consecutive group at any time, including groups whose partial sum is negative; a test sees one grouping.", "anchors": ["storage/src/kv/refcount.rs: merge_operator, decode_value_with_rc, strip_refcount, add_positive_refount, encode_negative_refcount", "core/src/storage/tables.rs: archive_data_merge"]}
{"id": "C33", "title": "A stored point status reads back and only ever grows", "statement": "Every stored status reads back as it was. After any sequence of writes of statuses of a point, under any grouping of the merges, the read status is of the highest kind ever written; it has a proof if any of them had, and likewise the other flags of its kind; its anchor flags are the union; its commit is the latest by anchor round and then sequence number; the cause or author is one that was written with that kind.", "quantifier": "all sequences of statuses with fields within their widths, all groupings and orders of merges", "why_tests_cant": "The result must not depend on compaction; tests merge a few values in one way.", "anchors": ["consensus/src/models/point_status/all_stored.rs: PointStatusStored, merge_bytes, read_flags, decode", "consensus/src/models/point_status/committable.rs: CommitHistoryPart", "consensus/src/models/point/link.rs: IndirectLink"]}
{"id": "C34", "title": "Journal point merges count references under any grouping", "statement": "For a journal point whose number of references never goes below zero nor beyond u32, no merge fails however the operands are grouped, and a read finds the number of references, with the bytes of the point if there is at least one.", "quantifier": "all histories of increases and decreases, all groupings", "why_tests_cant": "A group may have a negative sum or no data in it; tests see few groupings.", "anchors": ["consensus/src/moderator/journal/point_ref_count.rs: JournalPoint::merge_bytes, fill_sub", "consensus/src/moderator/storage/tables.rs: journal_points_merge"]}
{"id": "C35", "title": "The moderator journal keeps exactly the points its records refer to", "statement": "In any history of stored event batches and cleaned time ranges no call fails; a point can be read from the journal if and only if a record still in it refers to it as stored, and then its bytes are the point's. Storing adds the record of each stored event, naming each mentioned point once, marked as stored exactly if the point was at hand, already in the journal or in the main database; other records stay. Cleaning removes exactly the records of the time range.", "quantifier": "all sequences of batches (any events, any contents of the main database), time ranges and merges done by RocksDB", "why_tests_cant": "Reference counting across overlapping records, batches and partial merges has unboundedly many histories; a miscount shows only later as a lost or leaked point.", "anchors": ["consensus/src/moderator/journal/batch.rs: batch", "consensus/src/moderator/storage/store.rs: store_records, get_point", "consensus/src/moderator/storage/db.rs: clean_events"]}
{"id": "C36", "title": "The intrusive waiter list behaves as a list", "statement": "In any sequence of push, pop, remove and last calls on any number of lists over shared nodes that keeps the documented contract (a pushed node is in no list; a removed node is in this list or in none), no assertion fails, each call returns what it would on plain lists (pop returns the oldest, remove the node exactly if it is in the list), the links of each list are those of the plain list, and nodes in no list are unlinked.", "quantifier": "all call sequences over any number of nodes and lists", "why_tests_cant": "Pointer surgery has to be right for every position, history and interleaving of lists; a stale link shows only in some later call.", "anchors": ["util/src/util/linked_list.rs: LinkedList::{push_front,pop_back,remove,last}"]}
{"id": "C37", "title": "Filling a message group conserves messages, keeps order and limits, and fills all it may", "statement": "From any buffer and group reachable by the API, a fill ends without a panic; per account the messages moved are a prefix of its buffered ones, appended to the group in order; only expired externals are dropped and nothing is duplicated; blocked accounts get nothing; no slot exceeds the slot size and slots do not exceed the allowed number; an account is in at most one slot; all counters, reported keys and counts are exact; and if a slot is free or has room, no usable message is left that could go there. Appending adds a message behind those of its account.", "quantifier": "all buffers, groups, filters, sets of blocked accounts, slot counts and slot sizes, and all call histories on any number of buffers and one group", "why_tests_cant": "The two-pass fill interacts with partial slots, blocked accounts, expiry and the index left by earlier fills; a lost or reordered message shows only for particular contents.", "anchors": ["collator/src/collator/messages_buffer.rs: MessagesBuffer::{add_message,remove_int_messages_by_accounts,fill_message_group,move_account_messages_to_slot,try_skip_account_msgs}"]}
{"id": "C38", "title": "Rolling back a buffer transaction restores the buffer exactly", "statement": "After any history, begin, any calls (adding, removing, filling, on this and other buffers) and rollback, the buffer equals the one at begin: the same messages in the same order, the same order of accounts, the same counters and chain time bound; rollback never panics, and commit leaves the contents as they are.", "quantifier": "all histories before and all call sequences during the transaction", "why_tests_cant": "Backups are taken lazily at each mutation; one missed path is enough to lose messages, and only after a rollback of a history through that path.", "anchors": ["collator/src/collator/messages_buffer.rs: Transactional for MessagesBuffer, backup_account"]}
{"id": "C39", "title": "Merging message groups and the filled check", "statement": "Two groups can be merged exactly if no account is in both; the merged group is well formed, has the slots of both and every account has the messages it had. A group that reports to be filled has no free slot and no slot with room.", "quantifier": "all well-formed groups", "why_tests_cant": "Slot ids, index and counters must fit for all shapes of both groups and for all later fills.", "anchors": ["collator/src/collator/messages_buffer.rs: Add for MessageGroup, MessageGroup::check_is_filled"]}
{"id": "C40", "title": "A completed validation is final", "statement": "When validate_block returns Complete, the signatures in it are valid for that block, belong to different validators of the session's set, their weights sum to exactly the reported total, and this is more than two thirds of the weight of the whole set.", "quantifier": "every validator set with total weight below 2^63, every schedule of concurrent validations, exchanges, cancellations and peers' answers (valid or not)", "why_tests_cant": "The result depends on races between the scan of slots, spawned queries, incoming exchanges and reuse of cached signatures; tests try a few schedules.", "anchors": ["collator/src/validator/impls/std_impl/session.rs: ValidatorSession::new, validate_block, reuse_signatures, receive_signature, add_signature"]}
{"id": "C41", "title": "Two final blocks share more than a third of the weight", "statement": "For two nodes with the same validator set, any two completed validations have common signers with more than a third of the weight; so if validators that sign two blocks of one seqno have at most a third, two completed validations of one seqno are of the same block.", "quantifier": "every pair of nodes and of their executions, every validator set with total weight below 2^63", "why_tests_cant": "It is about pairs of independent executions and all weight distributions.", "anchors": ["collator/src/validator/impls/std_impl/session.rs: ValidatorSession::new (weight_threshold), validate_block"]}
{"id": "C42", "title": "No equivocation of the own signature", "statement": "A session gives out its own signature (in a reply, a query or a result) for at most one block of a seqno, unless that seqno has been cancelled.", "quantifier": "every sequence of validate_block calls, also concurrent ones for different blocks of the same seqno, every schedule, exchange and cancellation", "why_tests_cant": "Needs the insert into the tree, exchanges and removals to be considered in all interleavings.", "anchors": ["collator/src/validator/impls/std_impl/session.rs: validate_block, exchange_signatures, cancel_until"]}
{"id": "C43", "title": "Stored signatures are valid, kept, and counted once", "statement": "A stored signature of a block is valid, of a validator, and never changes; a block is marked as validated only with stored signatures of more than two thirds of the weight; a validation never fails with 'no more signatures'.", "quantifier": "every schedule of concurrent add_signature calls for the same and different peers", "why_tests_cant": "Compare-and-swap, weight and flag are separate steps that race.", "anchors": ["collator/src/validator/impls/std_impl/session.rs: SessionState::add_signature, validate_block"]}
{"id": "C44", "title": "A cancellation reaches every validation", "statement": "When cancel_until(n) has returned, every validation of a block with seqno up to n that still collects signatures sees the cancellation and stops as Skipped, and a validation that begins or has just registered its block is skipped; after cancel this holds for all blocks.", "quantifier": "every interleaving of validations with any number of cancellations and removals", "why_tests_cant": "A lost cancellation is a validation that hangs in one rare interleaving of insert, iteration and removal.", "anchors": ["collator/src/validator/impls/std_impl/session.rs: cancel_until, cancel, validate_block"]}
{"id": "C45", "title": "Anchor links are true", "statement": "In the history of a point that the mempool accepted (Valid or TransInvalid, with an accepted history), every point names a proof and a trigger, and the named points exist in its own history and are indeed an anchor proof and an anchor trigger (or genesis).", "quantifier": "every set of points whatsoever (any authors, rounds, links and times, including points made by faulty peers), every point in it, and every order and timing of dependency resolution", "why_tests_cant": "A test builds some DAGs; a faulty author can choose any combination of direct and indirect links through includes and witnesses, and the claim needs an induction over the whole history.", "anchors": ["consensus/src/dag/verifier.rs: BasicVerifier::verify, Verifier::validate, check_valid, check_indirect_links", "consensus/src/models/point/data.rs: check_non_genesis_structure, PointRole", "consensus/src/models/point/info.rs: PointInfo"]}
{"id": "C46", "title": "A point names the newest anchor it can see", "statement": "The proof and the trigger named by an accepted point are at least as new as every proof, resp. trigger, in its history; the named rounds never decrease from a dependency to its dependent.", "quantifier": "every set of points whatsoever (any authors, rounds, links and times, including points made by faulty peers), every point in it, and every order and timing of dependency resolution", "why_tests_cant": "The newest anchor may be hidden anywhere in an unbounded history.", "anchors": ["consensus/src/dag/verifier.rs: BasicVerifier::verify, Verifier::validate, check_valid, check_indirect_links", "consensus/src/models/point/data.rs: check_non_genesis_structure, PointRole", "consensus/src/models/point/info.rs: PointInfo"]}
{"id": "C47", "title": "Anchor time is the candidate's time", "statement": "The anchor time of an accepted point equals the anchor time of the proof it names, which is the time of the anchor candidate (or of genesis); points that name the same proof have the same anchor time, and every point is later than the anchor it refers to.", "quantifier": "every set of points whatsoever (any authors, rounds, links and times, including points made by faulty peers), every point in it, and every order and timing of dependency resolution", "why_tests_cant": "Anchor time is inherited along link paths of any length; each hop is checked locally only.", "anchors": ["consensus/src/dag/verifier.rs: BasicVerifier::verify, Verifier::validate, check_valid, check_indirect_links", "consensus/src/models/point/data.rs: check_non_genesis_structure, PointRole", "consensus/src/models/point/info.rs: PointInfo"]}
{"id": "C48", "title": "Time is monotone per author and bounded by history", "statement": "An author's times strictly increase along its chain of points, and no point of an accepted history is later than the point by more than the allowed clock skew per round between them.", "quantifier": "every set of points whatsoever (any authors, rounds, links and times, including points made by faulty peers), every point in it, and every order and timing of dependency resolution", "why_tests_cant": "Times come from other nodes and adversaries; the bound is over histories of any depth.", "anchors": ["consensus/src/dag/verifier.rs: BasicVerifier::verify, Verifier::validate, check_valid, check_indirect_links", "consensus/src/models/point/data.rs: check_non_genesis_structure, PointRole", "consensus/src/models/point/info.rs: PointInfo"]}
{"id": "C49", "title": "Anchor protocol roles", "statement": "An anchor proof is made only by the round's leader and far enough from the proof it chains to; a leader that can must prove; a proof is followed by its author's trigger and a trigger always follows its author's proof; sticky points form runs of consecutive rounds of one author, numbered 0..n below the configured limit, starting after a proof or genesis.", "quantifier": "every set of points whatsoever (any authors, rounds, links and times, including points made by faulty peers), every point in it, and every order and timing of dependency resolution", "why_tests_cant": "Must hold for every adversarial role assignment and run length.", "anchors": ["consensus/src/dag/verifier.rs: BasicVerifier::verify, Verifier::validate, check_valid, check_indirect_links", "consensus/src/models/point/data.rs: check_non_genesis_structure, PointRole", "consensus/src/models/point/info.rs: PointInfo"]}
{"id": "C50", "title": "The chain of proofs has no gaps", "statement": "The proof that an accepted proof chains to is in its history, is an older proof, and is the newest one in that history; from the proof that an accepted point names, chained links lead through older and older proofs to genesis.", "quantifier": "every set of points whatsoever (any authors, rounds, links and times, including points made by faulty peers), every point in it, and every order and timing of dependency resolution", "why_tests_cant": "Induction over unbounded chains; skipping a proof would lose an anchor in commit.", "anchors": ["consensus/src/dag/verifier.rs: BasicVerifier::verify, Verifier::validate, check_valid, check_indirect_links", "consensus/src/models/point/data.rs: check_non_genesis_structure, PointRole", "consensus/src/models/point/info.rs: PointInfo"]}
{"id": "C51", "title": "Trigger and proof agree", "statement": "If an accepted point names a trigger newer than the proof it names (or chains to), the proof is the one of that very trigger.", "quantifier": "every set of points whatsoever (any authors, rounds, links and times, including points made by faulty peers), every point in it, and every order and timing of dependency resolution", "why_tests_cant": "Two links of one point are checked at different dependencies, by different paths.", "anchors": ["consensus/src/dag/verifier.rs: BasicVerifier::verify, Verifier::validate, check_valid, check_indirect_links", "consensus/src/models/point/data.rs: check_non_genesis_structure, PointRole", "consensus/src/models/point/info.rs: PointInfo"]}
{"id": "C52", "title": "Verified points do not panic the node", "statement": "A point that passed the basic verification never makes validation or the link accessors panic, whatever the answers about its dependencies are.", "quantifier": "every point, peer schedule, configuration with genesis above round zero, and every execution of validate", "why_tests_cant": "Points come from the network; the accessors call expect on map lookups.", "anchors": ["consensus/src/dag/verifier.rs: BasicVerifier::verify, Verifier::validate, check_valid, check_indirect_links", "consensus/src/models/point/data.rs: check_non_genesis_structure, PointRole", "consensus/src/models/point/info.rs: PointInfo"]}
{"id": "C53", "title": "The verdict does not depend on the order of arrival", "statement": "Two executions of validate that get the same answers about dependencies in different orders give the same kind of verdict (ill-formed, invalid, transitively invalid, valid) and, when transitively invalid, a root cause of the same round and kind.", "quantifier": "every point and every permutation of the answers, including dropped ones", "why_tests_cant": "Dependencies resolve concurrently in any order; nodes must agree on the verdict.", "anchors": ["consensus/src/dag/verifier.rs: BasicVerifier::verify, Verifier::validate, check_valid, check_indirect_links", "consensus/src/models/point/data.rs: check_non_genesis_structure, PointRole", "consensus/src/models/point/info.rs: PointInfo"]}
{"id": "C54", "title": "Root cause of transitive invalidity", "statement": "A point without faults of its own is valid exactly when no dependency brings an uncertified invalid cause; otherwise its recorded cause is the newest that was brought, and a cause dies out after commit_history_rounds.", "quantifier": "every point and every set of answers", "why_tests_cant": "The cause is passed through chains of points; the newest must win for every interleaving.", "anchors": ["consensus/src/dag/verifier.rs: BasicVerifier::verify, Verifier::validate, check_valid, check_indirect_links", "consensus/src/models/point/data.rs: check_non_genesis_structure, PointRole", "consensus/src/models/point/info.rs: PointInfo"]}
{"id": "C55", "title": "Quorums of points intersect", "statement": "Two verified points of one round include points of more than F common peers; two verified points of one author and round that both prove a previous point carry evidence of at least F common signers besides the author (F as tolerated by the number of scheduled peers).", "quantifier": "every pair of verified points, every peer schedule of any size", "why_tests_cant": "Quorum intersection for all sizes and all subsets of peers.", "anchors": ["consensus/src/dag/verifier.rs: BasicVerifier::verify, Verifier::validate, check_valid, check_indirect_links", "consensus/src/models/point/data.rs: check_non_genesis_structure, PointRole", "consensus/src/models/point/info.rs: PointInfo"]}
{"id": "C56", "title": "No going on after a bad previous point", "statement": "A point without faults of its own never skips its author's first valid or certified previous point, and never goes on when some other version of that previous point is known to be invalid or ill-formed; and every dependency it lists was found.", "quantifier": "every point, every set of versions found at the author's previous location and every order of arrival", "why_tests_cant": "Equivocating authors can produce any versions in any order.", "anchors": ["consensus/src/dag/verifier.rs: BasicVerifier::verify, Verifier::validate, check_valid, check_indirect_links", "consensus/src/models/point/data.rs: check_non_genesis_structure, PointRole", "consensus/src/models/point/info.rs: PointInfo"]}
{"id": "C57", "title": "A node's own points are valid", "statement": "A point that a node makes from accepted dependencies (a quorum of the previous round, witnesses of the round before, a proven previous point or none) passes every verifier's basic verification, is found valid by every verifier that finds its dependencies valid, in whatever order, and its whole history is accepted.", "quantifier": "every round, schedule, set of dependencies in any order, clock reading, payload and history of the node within the stated situation of an honest node", "why_tests_cant": "Producer and verifier are two separate pieces of code that must agree on anchor links, roles and times for every DAG; a disagreement makes an honest node invalid for the network.", "anchors": ["consensus/src/dag/producer.rs: Producer::create, link_source, link, anchor_links, get_time, check_prev_point", "consensus/src/dag/verifier.rs: BasicVerifier::verify, Verifier::validate"]}
{"id": "C58", "title": "Making a point does not panic", "statement": "Producing a point never panics if the node includes its own previous point whenever it remembers one; a lack of evidence or a mismatch is an error.", "quantifier": "every round, schedule, dependencies, clock and last own point of an honest node", "why_tests_cant": "The code expects map lookups and link accessors to succeed for every combination of dependencies.", "anchors": ["consensus/src/dag/producer.rs: Producer::create, link_source, link, anchor_links, get_time, check_prev_point", "consensus/src/dag/verifier.rs: BasicVerifier::verify, Verifier::validate"]}
{"id": "C59", "title": "Collected includes are neither lost nor duplicated", "statement": "Each valid point added to a round's threshold is at any moment in exactly one of: entering the channel, in the channel, ready, delayed, given out, or thrown away because it is more than a year ahead; the published counter agrees with these places when no call is running and never overflows; nothing panics.", "quantifier": "every number of peers, every set of points with any times, every interleaving of adders, the waiting task, its cancellation, clock and timers", "why_tests_cant": "Adders race with the collector, whose future may be dropped at any await; counters are packed in one atomic.", "anchors": ["consensus/src/dag/threshold.rs: Threshold::add, reached, get_reached, count; ThresholdCount"]}
{"id": "C60", "title": "A quorum of points that are in time", "statement": "get_reached gives out points of this round, one for an author, none later than now plus the allowed skew, none twice, and the first time a quorum; of the points added before it began, it leaves back only those whose time has not come; reached always can end once a quorum of points is added.", "quantifier": "every number of peers, every set of points with any times, every interleaving of adders, the waiting task, its cancellation, clock and timers", "why_tests_cant": "Depends on every order of arrivals, clock readings and timer expirations.", "anchors": ["consensus/src/dag/threshold.rs: Threshold::add, reached, get_reached, count; ThresholdCount"]}
{"id": "C61", "title": "A dropped anchors transaction leaves no trace", "statement": "Whatever a transaction on the anchors cache does (taking anchors, cutting off late ones, rolling back), if it ends without a commit the cache is exactly as before it began, including the history of infos and the pending flag; if committed, the cache is as if the operations were done without a transaction.", "quantifier": "every cache contents and every sequence of operations in the transaction, ended at any point", "why_tests_cant": "The undo log must invert every interleaving of pops at the front and cuts at the back.", "anchors": ["collator/src/collator/anchors_cache.rs: AnchorsCache, AnchorsCacheTransaction"]}
{"id": "C62", "title": "The anchors cache is a queue of unread anchors", "statement": "With anchors imported in order, the anchors given out are those of a plain queue of anchors with externals for the shard: in the order of import, each once, minus those taken, cut off or cleared; the pending flag and range check agree with it; the info that a cut would leave is predicted exactly, for any contents.", "quantifier": "every history of imports, reads, cuts and clears", "why_tests_cant": "Flag, deque and history are updated separately in each operation.", "anchors": ["collator/src/collator/anchors_cache.rs: AnchorsCache, AnchorsCacheTransaction"]}
{"id": "C63", "title": "Queue statistics count exactly the unprocessed messages", "statement": "After any history of added diffs, updates of processed positions, reads and transactions the cumulative statistics have not panicked, and for each partition and account they count exactly the messages of all added diffs that the account's shard has not processed yet; remaining counts of own accounts are what was added minus what was read. Iterating gives each account with a non-zero count once and agrees with lookups.", "quantifier": "every legal history of operations of any length, any number of shards, partitions, diffs and accounts, in and out of transactions", "why_tests_cant": "Counts are kept by increments and decrements in two layers with three modes of processing; an error shows only as a drift or a panic after some special order of updates.", "anchors": ["collator/src/collator/statistics/cumulative.rs: CumulativeStatistics", "collator/src/collator/statistics/queue.rs: TrackedQueueStatistics", "collator/src/internal_queue/types/stats.rs: QueueStatistics"]}
{"id": "C64", "title": "Statistics transactions are atomic", "statement": "A transaction on the cumulative statistics that is rolled back leaves all counts, processed positions and the further behaviour as if it had never begun; one that is committed (or is going on) gives the same counts as the same operations without a transaction.", "quantifier": "every history before, inside and after the transaction", "why_tests_cant": "Undo data is spread over staged diffs, new partitions, layered maps and saved totals.", "anchors": ["collator/src/collator/statistics/cumulative.rs: CumulativeStatistics", "collator/src/collator/statistics/queue.rs: TrackedQueueStatistics", "collator/src/internal_queue/types/stats.rs: QueueStatistics"]}
{"id": "C65", "title": "Totals and aggregates agree with the counts", "statement": "The tracked total of remaining messages of the own shard equals the sum of the remaining counts over all partitions and own accounts, and the aggregate over partitions counts all unprocessed messages of each account, after any history.", "quantifier": "every legal history", "why_tests_cant": "The total is a separate atomic counter updated beside the maps and restored from a snapshot.", "anchors": ["collator/src/collator/statistics/cumulative.rs: CumulativeStatistics", "collator/src/collator/statistics/queue.rs: TrackedQueueStatistics", "collator/src/internal_queue/types/stats.rs: QueueStatistics"]}
{"id": "C66", "title": "A saved queue state reads back", "statement": "For every block, the saved queue state contains the block's diff and those of its ancestors, as many as its update record says; a node that knows the block reads back exactly these diffs, each with all its messages in order, provided the writer did not have to close a chunk because of its size; it says exactly when a file is readable.", "quantifier": "every tail of diffs, every number and size of messages", "why_tests_cant": "Chunking, counting, TL framing and the reader's position (diff, message, chunk, root) have to agree for every size of the queue; the failing case needs a queue of more than 10 MB.", "anchors": ["core/src/storage/persistent_state/queue_state/writer.rs: QueueStateWriter::write", "core/src/storage/persistent_state/queue_state/reader.rs: QueueStateReader, QueueDiffReader", "core/src/storage/persistent_state/mod.rs: store_queue_state", "block-util/src/queue/queue_diff.rs: QueueDiffMessagesIter", "collator/src/storage/mod.rs: import_from_file"]}
{"id": "C67", "title": "An imported queue state is determined by the block", "statement": "Whatever bytes a peer sends, if the reader accepts them for the update record of a block, the result is a chain of diffs of the right length with the right newest hash, each diff with exactly the messages it lists; two accepted files give the same result (or a hash collision), and reading ends unless a chunk has no roots.", "quantifier": "every byte string, every update record", "why_tests_cant": "The input is chosen by an adversary.", "anchors": ["core/src/storage/persistent_state/queue_state/writer.rs: QueueStateWriter::write", "core/src/storage/persistent_state/queue_state/reader.rs: QueueStateReader, QueueDiffReader", "core/src/storage/persistent_state/mod.rs: store_queue_state", "block-util/src/queue/queue_diff.rs: QueueDiffMessagesIter", "collator/src/storage/mod.rs: import_from_file"]}
{"id": "C68", "title": "All nodes hold the same internal queue", "statement": "The collator that made a block, a node that applies the queue diff it received with the block, and a node that imports a saved queue state put the same messages, statistics and diff records into the same partitions of their internal queue: every message of a diff in exactly one partition, the one its destination is listed in, else its source, else 0, and statistics that count exactly these messages; the diff does not depend on the iteration order of hash maps.", "quantifier": "every history of collated blocks of a shard, every assignment of partitions, every number of messages, every iteration order of the maps", "why_tests_cant": "The three paths share little code (collator: router and statistics in memory; receiver: cells found by hash; importer: streaming with its own partition lookup) and have to agree on every table for every input.", "anchors": ["collator/src/internal_queue/types/router.rs: PartitionRouter", "collator/src/internal_queue/types/stats.rs: DiffStatistics", "collator/src/internal_queue/types/diff.rs: QueueDiffWithMessages::from_queue_diff", "collator/src/internal_queue/state/storage.rs: write_diff", "collator/src/storage/mod.rs: import_from_file", "collator/src/storage/transaction.rs: InternalQueueTransaction", "collator/src/collator/do_collate/mod.rs: create_prepare_diff_task", "collator/src/manager/msgs_queue.rs", "block-util/src/queue/queue_diff.rs: SerializedQueueDiff", "collator/src/collator/messages_reader/mod.rs: reset_partition_router_by_stats"]}
{"id": "C69", "title": "Accounts leave the crowded partition when, and only when, over the limit", "statement": "After the partition router is rebuilt from statistics, an account with no partition gets the one its own shard's router gave it, or, if no router knows it and all its messages known together exceed the limit, the low-priority partition 1; accounts already routed keep their partition and everything else is unchanged; the result does not depend on iteration order; the default partition is never assigned explicitly.", "quantifier": "every router, statistics of every set of accounts and shards, every order of iteration", "why_tests_cant": "Ordering effects between accounts and between remote shards are invisible in a single run.", "anchors": ["collator/src/internal_queue/types/router.rs: PartitionRouter", "collator/src/internal_queue/types/stats.rs: DiffStatistics", "collator/src/internal_queue/types/diff.rs: QueueDiffWithMessages::from_queue_diff", "collator/src/internal_queue/state/storage.rs: write_diff", "collator/src/storage/mod.rs: import_from_file", "collator/src/storage/transaction.rs: InternalQueueTransaction", "collator/src/collator/do_collate/mod.rs: create_prepare_diff_task", "collator/src/manager/msgs_queue.rs", "block-util/src/queue/queue_diff.rs: SerializedQueueDiff", "collator/src/collator/messages_reader/mod.rs: reset_partition_router_by_stats"]}
{"id": "C70", "title": "Block strider hands blocks over in order", "statement": "Whenever the node gives a shard block to the subscribers, it is a new block of the masterchain block right after the last committed one, it is not committed, all blocks before it are committed or older, and the context (masterchain block, top-block flag, key flags) is right. Whenever it gives a masterchain block, it is the next one and every shard block of its history was handled before. Within a run: prepared before handled, handled (with delayed tasks) before committed, committed before provider cleanup.", "quantifier": "every chain, every interleaving of the shard tasks, prefetching, garbage collection, stops, restarts and loss of recent writes at any point", "why_tests_cant": "depends on the interleaving of background tasks and on where the node stops", "anchors": ["core/src/block_strider/mod.rs run/process_mc_block/download_shard_blocks/process_shard_blocks", "core/src/block_strider/state.rs PersistentBlockStriderState", "core/src/storage/block_handle/mod.rs for_each_key_block/remove handles rule"]}
{"id": "C71", "title": "Block strider processes every block exactly once", "statement": "No shard block of the history of the last committed masterchain block is skipped, whatever stops, data losses and garbage collections happen; without data loss no block is committed twice, the committed masterchain blocks follow one another, and in one run no block is handled twice.", "quantifier": "all executions with any number of stops, restarts, losses and garbage collections", "why_tests_cant": "a skipped or repeated block needs a particular crash point and chain shape", "anchors": ["core/src/block_strider/mod.rs run/process_mc_block/download_shard_blocks/process_shard_blocks", "core/src/block_strider/state.rs PersistentBlockStriderState", "core/src/storage/block_handle/mod.rs for_each_key_block/remove handles rule"]}
{"id": "C72", "title": "Block strider downloads exactly the missing shard blocks and makes progress", "statement": "For a top block exactly the blocks down to the first committed one (or to the one after a split or merge) are downloaded; it works iff there are at most 31 of them (32 if the oldest follows a split or merge). If the downloads work, the masterchain block gets committed and the strider is ready for the next one.", "quantifier": "all chains and stores", "why_tests_cant": "the limit and the ends of the walk are boundary cases of arbitrary long chains", "anchors": ["core/src/block_strider/mod.rs run/process_mc_block/download_shard_blocks/process_shard_blocks", "core/src/block_strider/state.rs PersistentBlockStriderState", "core/src/storage/block_handle/mod.rs for_each_key_block/remove handles rule"]}
{"id": "C73", "title": "Combined block providers are switched and cleaned consistently", "statement": "Chain: before the left provider is exhausted the right one is not used; after that the left one is never asked again, it is told to clean up to the block it lacked when that block is done, and never later. Cycle: an exhausted provider is followed by the other one; shard blocks are asked of the provider that returned their masterchain block, except when two consecutive calls met an exhausted provider. Fallback of the blockchain provider: cleaned only after it lacked a block; hence never while it has every block.", "quantifier": "all executions of the strider calls (prefetch of the next block concurrent with shard blocks and cleanup) for all provider answers", "why_tests_cant": "the exceptional interleavings need exhausted providers in consecutive prefetches", "anchors": ["core/src/block_strider/provider/mod.rs ChainBlockProvider/CycleBlockProvider/RetryBlockProvider", "core/src/block_strider/provider/futures.rs SelectNonEmptyFut", "core/src/block_strider/provider/blockchain_provider.rs fallback and cleanup_until"]}
{"id": "C74", "title": "Selecting and retrying providers lose no block", "statement": "Racing several providers yields the block of the first one to have it (the leftmost on a tie) and reports no block only after all have answered so; retrying returns the first block and gives up after exactly attempts + 1 empty answers.", "quantifier": "all numbers of providers, delays and answers", "why_tests_cant": "ranges over all completion orders", "anchors": ["core/src/block_strider/provider/mod.rs ChainBlockProvider/CycleBlockProvider/RetryBlockProvider", "core/src/block_strider/provider/futures.rs SelectNonEmptyFut", "core/src/block_strider/provider/blockchain_provider.rs fallback and cleanup_until"]}
{"id": "C75", "title": "Blocks garbage collection removes exactly the outdated blocks and survives a crash", "statement": "A collection removes id, connections, handle and data of every block below the target, and nothing of a zerostate, of the target and newer blocks, of the top shard blocks of the target and newer, of key blocks and flagged blocks. Wherever it stops, kept blocks are untouched, a block whose id is gone has neither handle nor data, and the next collection ends as if it had not been interrupted.", "quantifier": "all databases with one block per shard and seqno, targets, batch sizes and crash points", "why_tests_cant": "ranges over all stop points between blob removals and write batches", "anchors": ["core/src/storage/block/blobs/util.rs remove_blocks", "core/src/storage/gc.rs DiffTailCache, blocks_gc", "core/src/block_strider/state_applier.rs begin_persistent_state_store, save_persistent_states, resume_pending_persistent_states"]}
{"id": "C76", "title": "The collection target leaves the queue-diff tails", "statement": "The distance of the target from the newest masterchain block is at least 100, the configured distance, and one more than the longest queue-diff tail of the newest masterchain block and of its shard blocks; so if a shard has a block in every masterchain block of that distance, each diff of its tail is kept.", "quantifier": "all sequences of handled blocks and tail lengths", "why_tests_cant": "ranges over all chains and tail lengths", "anchors": ["core/src/storage/block/blobs/util.rs remove_blocks", "core/src/storage/gc.rs DiffTailCache, blocks_gc", "core/src/block_strider/state_applier.rs begin_persistent_state_store, save_persistent_states, resume_pending_persistent_states"]}
{"id": "C77", "title": "Blocks and states of a persistent state being saved are protected", "statement": "From the moment a persistent state save is recorded until it is taken off the record, also after stops and restarts, no item it needs is collected, unless a completed save released the item. While a save is running it is on record.", "quantifier": "all interleavings of flagging, saving, releasing, garbage collection, new blocks, crashes and restarts", "why_tests_cant": "ranges over all crash points of a background task racing with the collection", "anchors": ["core/src/storage/block/blobs/util.rs remove_blocks", "core/src/storage/gc.rs DiffTailCache, blocks_gc", "core/src/block_strider/state_applier.rs begin_persistent_state_store, save_persistent_states, resume_pending_persistent_states"]}
{"id": "C78", "title": "The tracker of referenced masterchain seqnos never overtakes a handle", "statement": "At every moment, whatever threads create and drop handles, the tracked seqno is not above the seqno of any existing handle; once no drop is half done it is exactly the least seqno of the handles, and none if there are no handles. Zerostates are not tracked. Of two handles, the safe one covers both.", "quantifier": "all interleavings of creating and dropping handles by any number of threads, with the lock released between the read path and the write path", "why_tests_cant": "ranges over all interleavings of concurrent tasks, and over unbounded histories", "anchors": ["block-util/src/state/min_ref_mc_state.rs MinRefMcStateTracker, RefMcStateHandle"]}
{"id": "C79", "title": "A stored shard state can be loaded, and what is loaded is the state asked for", "statement": "A load returns the state of the requested block. Every block at or above the edge of the garbage collection whose store has succeeded or is in progress can be loaded: the search ends in the cache, in a store to wait for, or in the table after at most the configured number of updates, and the updates can be applied whatever the node does meanwhile. A store can always apply its update, also after a restart.", "quantifier": "all interleavings of stores, loads, block removal, garbage collection, crashes and restarts, all chains and choices of states stored as trees", "why_tests_cant": "ranges over all interleavings of concurrent tasks, and over unbounded histories", "anchors": ["core/src/storage/shard_state/mod.rs begin_store_next_state, load_state_ext, load_prev_state_root_no_cache, apply_updates_chain, remove_outdated_states, compute_recent_blocks, ShardStatesCache"]}
{"id": "C80", "title": "The states garbage collection takes nothing that is in use", "statement": "The cells of every state that is cached, being stored or held by a caller stay readable. Only states below the edge are removed, never a zerostate, never one flagged. If no state of a fork is stored, every block from the top blocks of the target on stays loadable.", "quantifier": "all interleavings of stores, holders, collections, crashes and restarts", "why_tests_cant": "ranges over all interleavings of concurrent tasks, and over unbounded histories", "anchors": ["core/src/storage/shard_state/mod.rs begin_store_next_state, load_state_ext, load_prev_state_root_no_cache, apply_updates_chain, remove_outdated_states, compute_recent_blocks, ShardStatesCache", "block-util/src/state/min_ref_mc_state.rs MinRefMcStateTracker, RefMcStateHandle"]}
{"id": "C81", "title": "The tree of each stored state is counted once", "statement": "While the node runs, the tree of each state in the table is stored exactly once and nothing else is: two stores of one block, or a store racing with the collection, do not count cells twice.", "quantifier": "all interleavings of stores, repeated stores and collections of a node that does not stop", "why_tests_cant": "ranges over all interleavings of concurrent tasks, and over unbounded histories", "anchors": ["core/src/storage/shard_state/mod.rs begin_store_next_state, load_state_ext, load_prev_state_root_no_cache, apply_updates_chain, remove_outdated_states, compute_recent_blocks, ShardStatesCache"]}
{"id": "C82", "title": "A transaction looked up by hash or message is the right one, and none that has to be kept is lost", "statement": "A query by transaction hash returns a transaction with this hash that was in an added block, a query by message hash one that was executed with this message, or nothing. A transaction that is not older than the bound of any collection, or is among the newest ones of its account, is found by its hash, by its incoming message and in the list of its account, also while collections run and after any of them was stopped.", "quantifier": "all interleavings of added blocks, running collections, cancellations and restarts", "why_tests_cant": "ranges over all histories, interleavings and interruption points, or over all values", "anchors": ["rpc/src/state/storage.rs update, remove_old_transactions, get_transaction, get_dst_transaction, get_transactions, get_src_transaction"]}
{"id": "C83", "title": "The transactions collection removes exactly the old transactions", "statement": "When it ends, transactions below the bound that are not among the newest ones kept per account are gone with their index entries, and everything else is unchanged; a collection interrupted after any write can be repeated and leaves the same result. It ends if and only if no transaction beyond the kept ones is exactly at the bound.", "quantifier": "all tables, all bounds, all numbers kept per account, all batch sizes, all interruption points", "why_tests_cant": "ranges over all histories, interleavings and interruption points, or over all values", "anchors": ["rpc/src/state/storage.rs update, remove_old_transactions, get_transaction, get_dst_transaction, get_transactions, get_src_transaction"]}
{"id": "C84", "title": "Lists of transactions of an account and the source transaction are exact", "statement": "The list of an account has exactly its stored transactions with logical times in the given inclusive range, in ascending or descending order. The source transaction of a message is the latest one of the account before the time of the message. An account that is always on the blacklist has no transactions.", "quantifier": "all histories and all ranges", "why_tests_cant": "ranges over all histories, interleavings and interruption points, or over all values", "anchors": ["rpc/src/state/storage.rs update, remove_old_transactions, get_transaction, get_dst_transaction, get_transactions, get_src_transaction"]}
{"id": "C85", "title": "Accounts by code hash are exactly those that have the code", "statement": "After any history of blocks and resets of shards the list for a code hash has exactly the accounts with this code, in the order of addresses, each once; pages of any size give the same list. A reset replaces exactly the accounts of the shard.", "quantifier": "all histories of blocks and resets, all shards, all page sizes", "why_tests_cant": "ranges over all histories, interleavings and interruption points, or over all values", "anchors": ["rpc/src/state/storage.rs update_code_hash, remove_code_hashes, reset_accounts, get_accounts_by_code_hash"]}
{"id": "C86", "title": "Pages of transactions of a block give each transaction once", "statement": "Following the cursor forwards from page to page gives the transactions of the block in the order of account and logical time, each once.", "quantifier": "all blocks and all page sizes", "why_tests_cant": "ranges over all histories, interleavings and interruption points, or over all values", "anchors": ["rpc/src/state/storage.rs get_block_transaction_ids"]}
{"id": "C87", "title": "Rows of the RPC storage are read back as written and are ordered as their parts", "statement": "The brief information of a block and the location of a transaction (with the shard restored from the account and the prefix length) are decoded to what was encoded; the byte order of keys is the order of address and logical time, and of code hash and address.", "quantifier": "all values in the ranges of their types", "why_tests_cant": "ranges over all histories, interleavings and interruption points, or over all values", "anchors": ["rpc/src/state/storage.rs BriefBlockInfo, TransactionInfo::from_bytes", "rpc/src/state/tables.rs"]}
{"id": "C88", "title": "Every stored archive has exactly the blocks of its range", "statement": "An archive file holds each part (block, proof, queue diff) of each block of its masterchain range exactly once, nothing else, and nothing of the range is missing. The ranges depend on the chain alone: a new archive begins after a key block (unless that is followed by another key block) and after 100 masterchain blocks, the same on all nodes and after any restart.", "quantifier": "all chains, all interleavings of calls that add blocks, commits and collections, all stop points", "why_tests_cant": "ranges over all chains, interleavings and stop points", "anchors": ["core/src/storage/block/blobs/mod.rs move_into_archive, prepare_archive_id, sync_state_after_init, remove_outdated_archives, get_archive_id, estimate_archive_id", "core/src/storage/block/blobs/task.rs CommitArchiveTask", "core/src/storage/block/blobs/writer.rs ArchiveWriter::finalize"]}
{"id": "C89", "title": "Archives survive a stop of the node at any moment", "statement": "After a stop the node starts again and resumes the commits that were not done; when nothing is in progress every archive that is reported as found has its file. The exception is a stop between the file of an archive and its event.", "quantifier": "all stop points, any number of restarts", "why_tests_cant": "ranges over all chains, interleavings and stop points", "anchors": ["core/src/storage/block/blobs/mod.rs move_into_archive, prepare_archive_id, sync_state_after_init, remove_outdated_archives, get_archive_id, estimate_archive_id", "core/src/storage/block/blobs/task.rs CommitArchiveTask", "core/src/storage/block/blobs/writer.rs ArchiveWriter::finalize"]}
{"id": "C90", "title": "The query for the archive of a block is exact", "statement": "An archive id that is returned for a masterchain block is that of the archive containing the block; it is returned for each block for which a later archive was begun and which was not collected; not found is said only for blocks before the first stored one or collected.", "quantifier": "all histories, all sequence numbers", "why_tests_cant": "ranges over all chains, interleavings and stop points", "anchors": ["core/src/storage/block/blobs/mod.rs move_into_archive, prepare_archive_id, sync_state_after_init, remove_outdated_archives, get_archive_id, estimate_archive_id", "core/src/storage/block/blobs/task.rs CommitArchiveTask", "core/src/storage/block/blobs/writer.rs ArchiveWriter::finalize"]}
{"id": "C91", "title": "The collection of archives keeps the archive of every block from the bound", "statement": "A stored file is neither changed nor removed by any step unless archives up to a later one were collected; a collection with bound u keeps the archives of all blocks from u-1, and the query gives the same answers for them.", "quantifier": "all histories, all bounds", "why_tests_cant": "ranges over all chains, interleavings and stop points", "anchors": ["core/src/storage/block/blobs/mod.rs move_into_archive, prepare_archive_id, sync_state_after_init, remove_outdated_archives, get_archive_id, estimate_archive_id", "core/src/storage/block/blobs/task.rs CommitArchiveTask", "core/src/storage/block/blobs/writer.rs ArchiveWriter::finalize"]}
{"id": "C92", "title": "The estimated archive id is the actual one", "statement": "The id computed from the previous key block alone is the id of the archive of the block, if no two key blocks follow one another and the node began after a key block.", "quantifier": "all chains and blocks", "why_tests_cant": "ranges over all chains, interleavings and stop points", "anchors": ["core/src/storage/block/blobs/mod.rs move_into_archive, prepare_archive_id, sync_state_after_init, remove_outdated_archives, get_archive_id, estimate_archive_id", "core/src/storage/block/blobs/task.rs CommitArchiveTask", "core/src/storage/block/blobs/writer.rs ArchiveWriter::finalize"]}
{"id": "C93", "title": "An archive package is read back as written and only so", "statement": "Reading a package gives exactly the entries it was written from; a package that is read without an error is the encoding of the entries plus less than 8 ignored bytes; different lists of entries have different packages.", "quantifier": "all lists of entries, all byte strings", "why_tests_cant": "ranges over all byte strings and divisions into chunks", "anchors": ["block-util/src/archive/proto.rs ArchiveEntryHeader", "block-util/src/archive/reader.rs ArchiveReader, read_next_entry", "block-util/src/tl.rs block_id"]}
{"id": "C94", "title": "The stream verifier of downloaded archives accepts exactly well-formed packages, whatever the chunks", "statement": "For any division of the bytes into chunks (the first with at least 4 bytes) the verifier accepts if and only if the bytes are a package whose last entry has data; an accepted download is read without an error to its last byte.", "quantifier": "all byte strings and all divisions into chunks", "why_tests_cant": "ranges over all byte strings and divisions into chunks", "anchors": ["block-util/src/archive/reader.rs ArchiveVerifier::write_verify, final_check", "core/src/blockchain_rpc/client.rs download_archive", "core/src/s3/client.rs"]}
{"id": "C95", "title": "An opened archive has exactly the parts of the package", "statement": "A package is opened if and only if it is read without an error and holds no part of a block twice; then the block, proof and queue diff of each id are those of the package and the masterchain blocks are indexed by number. The range check accepts exactly ranges without gaps that are not empty.", "quantifier": "all packages", "why_tests_cant": "ranges over all byte strings and divisions into chunks", "anchors": ["block-util/src/archive/mod.rs Archive::new, check_mc_blocks_range"]}
{"id": "C96", "title": "Each external message is read into the collator exactly once", "statement": "In any history of imports of anchors, groups and blocks, each message of an imported anchor that is for the shard is put into a buffer once at most, in the order of anchors and of messages in an anchor; messages of other shards never are. None is lost: it was put into a buffer, or its anchor is expired, or it is still in the cache ahead of the reading position. An expired message is never put into a buffer, a message gets to the partition that the router names, reading ends, and it stops only when buffers are full or nothing is left.", "quantifier": "all histories, buffer limits, routings, range limits and collections", "why_tests_cant": "ranges over all histories, limits and restart points", "anchors": ["collator/src/collator/messages_reader/externals_reader.rs ExternalsReader, read_externals_into_buffers", "collator/src/collator/messages_reader/mod.rs get_next_message_group, refill_buffers_upto_offsets, collect_messages_for_partition", "collator/src/collator/messages_reader/state/ext", "collator/src/collator/mod.rs import_init_anchors", "collator/src/collator/anchors_cache.rs"]}
{"id": "C97", "title": "A restarted collator gets back the buffers it had", "statement": "A collator that restarts at the end of a block from the stored ranges, offsets and processed positions, with the anchors loaded again, gets back the same ranges with the same buffers, the same offset and processed positions by replaying groups, in finitely many steps, and goes on reading at the same message.", "quantifier": "all runs since all read messages were last collected, over any number of blocks; all buffer operations and collections; any further anchors", "why_tests_cant": "ranges over all histories, limits and restart points", "anchors": ["collator/src/collator/messages_reader/externals_reader.rs ExternalsReader, read_externals_into_buffers", "collator/src/collator/messages_reader/mod.rs get_next_message_group, refill_buffers_upto_offsets, collect_messages_for_partition", "collator/src/collator/messages_reader/state/ext", "collator/src/collator/mod.rs import_init_anchors", "collator/src/collator/anchors_cache.rs"]}
{"id": "C98", "title": "A persistent state file has every cell of the state once, parents first", "statement": "Saving a stored shard state to a file ends after at most two turns for each reference, and the file lists each cell that can be reached from the root exactly once: the root first, each cell before its children, every reference the position of the child.", "quantifier": "all stored states (shared cells included) of less than 2^31 cells and 100 GiB", "why_tests_cant": "ranges over all trees, byte strings and histories", "anchors": ["core/src/storage/persistent_state/shard_state/writer.rs ShardStateWriter, write_rev, deserialize_cell"]}
{"id": "C99", "title": "A saved state file is accepted and gives back the same state", "statement": "The file of a stored state is accepted by the import, for any size of chunks and batches and with or without an expected root, and gives exactly the cells of the state: for each cell the row that was stored (up to the flag of stored hashes), and no other row.", "quantifier": "all stored states of less than 2^31 cells and 100 GiB; all sizes of chunks up to 10000 cells", "why_tests_cant": "ranges over all trees, byte strings and histories", "anchors": ["core/src/storage/persistent_state/shard_state/writer.rs ShardStateWriter, write_rev, deserialize_cell", "core/src/storage/persistent_state/shard_state/reader.rs ShardStateReader", "core/src/storage/shard_state/store_state_raw.rs StoreStateContext preprocess, finalize, finalize_cell, final_check", "core/src/storage/shard_state/entries_buffer.rs"]}
{"id": "C100", "title": "Any accepted state file is a whole tree with the expected root", "statement": "Whatever bytes are given to the import: if it accepts them, the root hash is the expected one and that of the first cell of the file; every row it stores is that of a cell of the file under the hash computed from its content and children; the children of every row are stored; and nothing is stored that cannot be reached from the root (unless the file itself has a collision of hashes).", "quantifier": "all byte strings, sizes of chunks and batches", "why_tests_cant": "ranges over all trees, byte strings and histories", "anchors": ["core/src/storage/persistent_state/shard_state/reader.rs ShardStateReader", "core/src/storage/shard_state/store_state_raw.rs StoreStateContext preprocess, finalize, finalize_cell, final_check", "core/src/storage/shard_state/entries_buffer.rs"]}
{"id": "C101", "title": "Two accepted state files with the same root are the same state", "statement": "Two files, from different sources and in a different order of cells, that are accepted with the same root hash give the same hashes, and under each the same content and the same children, unless the two files together have a collision of hashes.", "quantifier": "all pairs of byte strings", "why_tests_cant": "ranges over all trees, byte strings and histories", "anchors": ["core/src/storage/persistent_state/shard_state/reader.rs ShardStateReader", "core/src/storage/shard_state/store_state_raw.rs StoreStateContext preprocess, finalize, finalize_cell, final_check", "core/src/storage/shard_state/entries_buffer.rs"]}
{"id": "C102", "title": "Importing a state counts references exactly", "statement": "Importing a tree into a store that may already have some of its cells ends, writes each missing cell once, and leaves the store as if the tree had been stored: exactly the cells of the trees stored and not removed, with counts that are their numbers of uses; it can be mixed with stores, removals, flushes and restarts in any order.", "quantifier": "all histories, trees that share cells, sizes of batches", "why_tests_cant": "ranges over all trees, byte strings and histories", "anchors": ["core/src/storage/shard_state/cell_storage.rs apply_temp_cell", "core/src/storage/shard_state/mod.rs store_state_file, store_state_bytes"]}
{"id": "C103", "title": "The peers in charge of a round are those of its epoch", "statement": "After any history of calls to the peer schedule no call panics, and the ordered list, the set and the map of states of any round have exactly the peers of the newest known epoch (the scheduled one or one of the last three) that starts not later than the round. The local key may produce, include or witness a point exactly if the node is a peer of the rounds concerned.", "quantifier": "all histories of init, set_peers, apply_scheduled, bans, resolutions in any order; all rounds", "why_tests_cant": "ranges over all histories of calls and interleavings with the resolve tasks", "anchors": ["consensus/src/intercom/peer_schedule/impl_.rs PeerSchedule", "consensus/src/intercom/peer_schedule/stateless.rs PeerScheduleStateless", "consensus/src/intercom/peer_schedule/epoch_starts.rs EpochStarts"]}
{"id": "C104", "title": "The peers of a round do not change", "statement": "If later calls schedule epochs only for later rounds (stale ones are ignored), the peers in charge of a round stay the same list until they are forgotten; a different non-empty list is never given.", "quantifier": "all histories, all continuations, all rounds", "why_tests_cant": "ranges over all histories of calls and interleavings with the resolve tasks", "anchors": ["consensus/src/intercom/peer_schedule/impl_.rs PeerSchedule", "consensus/src/intercom/peer_schedule/stateless.rs PeerScheduleStateless", "consensus/src/intercom/peer_schedule/epoch_starts.rs EpochStarts"]}
{"id": "C105", "title": "All nodes that follow the chain agree on the peers of a round", "statement": "A node that starts at any epoch and is given neighbouring epochs of the same chain, with repetitions, late calls and any other calls between, answers for a round of a known epoch with the subset of that epoch, or nothing if it is forgotten; the last three epochs are not forgotten.", "quantifier": "all chains of epochs, starting points, interleavings, rounds", "why_tests_cant": "ranges over all histories of calls and interleavings with the resolve tasks", "anchors": ["consensus/src/intercom/peer_schedule/impl_.rs PeerSchedule", "consensus/src/intercom/peer_schedule/stateless.rs PeerScheduleStateless", "consensus/src/intercom/peer_schedule/epoch_starts.rs EpochStarts"]}
{"id": "C106", "title": "Snapshots read without a lock are consistent", "statement": "Each snapshot ever published has the same peers in the set and in the ordered list of each round, and a scheduled epoch in the future of the current one.", "quantifier": "all histories, all snapshots published in between, all rounds", "why_tests_cant": "ranges over all histories of calls and interleavings with the resolve tasks", "anchors": ["consensus/src/intercom/peer_schedule/impl_.rs PeerSchedule", "consensus/src/intercom/peer_schedule/stateless.rs PeerScheduleStateless", "consensus/src/intercom/peer_schedule/epoch_starts.rs EpochStarts"]}
{"id": "C107", "title": "Exactly the validators that are not banned are members of the overlay and are served", "statement": "A peer is a member of the private overlay if and only if it is a validator of the last three epochs or of the known next set and is not banned; the check of uploads accepts exactly the peers of the scheduled and last three subsets that are not banned.", "quantifier": "all histories, all peers", "why_tests_cant": "ranges over all histories of calls and interleavings with the resolve tasks", "anchors": ["consensus/src/intercom/peer_schedule/impl_.rs PeerSchedule", "consensus/src/intercom/peer_schedule/stateless.rs PeerScheduleStateless", "consensus/src/intercom/peer_schedule/epoch_starts.rs EpochStarts", "consensus/src/intercom/peer_schedule/locked.rs PeerScheduleLocked", "consensus/src/intercom/peer_schedule/stateful.rs PeerScheduleStateful"]}
{"id": "C108", "title": "A banned peer is not used until its ban is lifted", "statement": "From the ban of a validator on, whatever happens (switches of epochs, new validator sets, late resolutions), until its ban is lifted, it is not in the overlay, its uploads are refused, it is resolved in no round; and, if it was reachable in the current or scheduled subset when banned, it gets no broadcasts.", "quantifier": "all histories before, all histories after without the removal of the ban", "why_tests_cant": "ranges over all histories of calls and interleavings with the resolve tasks", "anchors": ["consensus/src/intercom/peer_schedule/impl_.rs PeerSchedule", "consensus/src/intercom/peer_schedule/stateless.rs PeerScheduleStateless", "consensus/src/intercom/peer_schedule/epoch_starts.rs EpochStarts", "consensus/src/intercom/peer_schedule/locked.rs PeerScheduleLocked", "consensus/src/intercom/peer_schedule/stateful.rs PeerScheduleStateful"]}
{"id": "C109", "title": "Statistics are counted within one epoch, by rank of validator index", "statement": "If statistics of an anchor are counted since a round, the anchor and all rounds up to the largest lag after it belong to one epoch that starts at that round, and the other way round; the slot of a peer is the number of peers of the subset with a smaller validator index.", "quantifier": "all histories, anchors, lags, subsets with different peers and indices", "why_tests_cant": "ranges over all histories of calls and interleavings with the resolve tasks", "anchors": ["consensus/src/intercom/peer_schedule/stats_ranges.rs StatsRanges", "consensus/src/intercom/peer_schedule/stateless.rs set_next_peers"]}
{"id": "C110", "title": "The local peer is not asked, unresolved validators are waited for, leavers are reported", "statement": "The local peer is never resolved or a receiver of broadcasts; a validator that is not banned and whose address is unknown is always waited for, and used in every round it takes part in when the resolve task gets to it; a validator that leaves all known sets is reported to be forgotten.", "quantifier": "all histories, all peers", "why_tests_cant": "ranges over all histories of calls and interleavings with the resolve tasks", "anchors": ["consensus/src/intercom/peer_schedule/impl_.rs PeerSchedule", "consensus/src/intercom/peer_schedule/stateless.rs PeerScheduleStateless", "consensus/src/intercom/peer_schedule/epoch_starts.rs EpochStarts", "consensus/src/intercom/peer_schedule/locked.rs PeerScheduleLocked", "consensus/src/intercom/peer_schedule/stateful.rs PeerScheduleStateful"]}
{"id": "C111", "title": "Requests for anchors are answered exactly", "statement": "For every state of an ordered anchor cache and every request: by id, the visible anchor with that id is given; 'does not exist' is said exactly if it is not there but a later visible one is; otherwise the call waits. For the next anchor: the first visible anchor after a known one is given exactly if it is linked to it (or starts a history); an unknown previous one gives 'does not exist'; a missing link gives an error; otherwise the call waits.", "quantifier": "all cache contents in order, all closing points, all requested ids", "why_tests_cant": "ranges over all histories, interleavings and contents", "anchors": ["collator/src/mempool/impls/common/cache.rs Cache"]}
{"id": "C112", "title": "The collator gets the anchors without gaps", "statement": "In any history of pushes in order, closings, reopenings with or without dropping data and clean-ups up to the reader's place, a reader that asks for one anchor and then for the next one again and again gets a contiguous piece of the pushed history, is never told 'does not exist' or an error, and its next request gives the anchor that follows in the history unless there is none or it is closed.", "quantifier": "all histories of operations of the mempool side and the reader", "why_tests_cant": "ranges over all histories, interleavings and contents", "anchors": ["collator/src/mempool/impls/common/cache.rs Cache"]}
{"id": "C113", "title": "Closing hides exactly the future, dropping removes exactly what was hidden", "statement": "A closed cache answers every request as if anchors after the closing point were not there; opening with drop keeps all those answers and removes exactly those anchors; opening without drop gives the answers of the whole cache.", "quantifier": "all ordered caches, closing points, requests", "why_tests_cant": "ranges over all histories, interleavings and contents", "anchors": ["collator/src/mempool/impls/common/cache.rs Cache"]}
{"id": "C114", "title": "A known anchor is never replaced, and a fork is an error", "statement": "Pushing an anchor with a known id never changes the cache; it succeeds exactly if author, time, list of externals and (if given) the link are the same, and is an error otherwise.", "quantifier": "all caches, all pairs of anchors with the same id", "why_tests_cant": "ranges over all histories, interleavings and contents", "anchors": ["collator/src/mempool/impls/common/cache.rs Cache"]}
{"id": "C115", "title": "No reader sleeps on an answer", "statement": "In any interleaving of any number of readers with the operations of writers and their separate notifications: once all operations have returned, a reader that waits while there is an answer to its request has been notified: it wakes, tries again and returns that answer.", "quantifier": "all interleavings, any number of readers", "why_tests_cant": "ranges over all histories, interleavings and contents", "anchors": ["collator/src/mempool/impls/common/cache.rs Cache"]}
{"id": "C116", "title": "The mempool is told of signed blocks only, in order, once, by the last version", "statement": "In any history of state updates and signatures there is no error; what is passed on has growing seqnos (only the initial state may repeat) not above the highest signed one; a signature passes on exactly the last version of every block it makes signed; a late update is passed on at once exactly if it is signed and newer than all passed on.", "quantifier": "all histories of pushes and signatures in any order", "why_tests_cant": "ranges over all histories, interleavings and contents", "anchors": ["collator/src/mempool/impls/std_impl/state_update_queue.rs StateUpdateQueue"]}
{"id": "C117", "title": "A switch of genesis closes the anchors first and cuts them at its start", "statement": "In any history the cache is closed exactly while a switch is expected and is opened by the first signed block at or above the expected seqno. If the collator keeps its mind, it is closed exactly while an unsigned update overrides the running genesis, at the start round of the new one; and an update or signature either changes neither the session nor the anchors or switches to the overriding genesis and leaves exactly the anchors up to its start.", "quantifier": "all histories of updates, signatures, anchors and clean-ups; all strict orders of genesis", "why_tests_cant": "ranges over all histories, interleavings and contents", "anchors": ["collator/src/mempool/impls/std_impl/session_keeper.rs StdSessionKeeper", "collator/src/mempool/impls/std_impl/adapter_impl.rs MempoolAdapterStdImpl", "collator/src/mempool/impls/std_impl/mod.rs process_state_update"]}
{"id": "C118", "title": "Only signed blocks decide the genesis", "statement": "After any history the mempool runs on the genesis given by the signed blocks passed on one after another: the configured or first one, replaced by each that overrides it; without such a block it does not run.", "quantifier": "all histories of updates, signatures, anchors and clean-ups; all strict orders of genesis", "why_tests_cant": "ranges over all histories, interleavings and contents", "anchors": ["collator/src/mempool/impls/std_impl/session_keeper.rs StdSessionKeeper", "collator/src/mempool/impls/std_impl/adapter_impl.rs MempoolAdapterStdImpl", "collator/src/mempool/impls/std_impl/mod.rs process_state_update"]}
{"id": "C119", "title": "Simultaneous dials end with one connection", "statement": "Both nodes decide a tie between connections dialed by different nodes the same way. If two nodes dial each other, the one with the larger id once and the other any number of times, then in every interleaving the connection dialed by the larger one is never closed by either side and stays the active one on each side from the moment it was added; so both talk over the same connection.", "quantifier": "all pairs of node ids, all interleavings of additions and handler ends on both sides", "why_tests_cant": "ranges over all histories, interleavings and contents", "anchors": ["network/src/network/connection_manager.rs ActivePeers", "network/src/network/connection_manager.rs simultaneous_dial_tie_breaking", "network/src/network/request_handler.rs InboundRequestHandler"]}
{"id": "C120", "title": "A connection is active or closed", "statement": "After any history every offered connection is the active one of its peer or was closed by this node, and never both; a peer has at most one active connection, and it is with that peer. What adding returns is the active connection. The end of a handler removes its own connection and not a newer one of the same peer.", "quantifier": "all histories and interleavings of additions, removals and handler ends", "why_tests_cant": "ranges over all histories, interleavings and contents", "anchors": ["network/src/network/connection_manager.rs ActivePeers", "network/src/network/connection_manager.rs simultaneous_dial_tie_breaking", "network/src/network/request_handler.rs InboundRequestHandler"]}
{"id": "C121", "title": "Count and events of active peers are exact", "statement": "The counter is never below the number of active peers, never underflows, and is exact when no call is in progress; in total a subscriber hears 'new' once more than 'lost' for a connected peer and equally often otherwise; if calls do not overlap, the last event tells the truth.", "quantifier": "all interleavings of calls, split at the lock, the counter and the event", "why_tests_cant": "ranges over all histories, interleavings and contents", "anchors": ["network/src/network/connection_manager.rs ActivePeers", "network/src/network/connection_manager.rs simultaneous_dial_tie_breaking", "network/src/network/request_handler.rs InboundRequestHandler"]}
{"id": "C122", "title": "No connection outlives the handlers", "statement": "When the last request handler has ended there is no active peer: the assertion at shutdown never fails.", "quantifier": "all histories and interleavings", "why_tests_cant": "ranges over all histories, interleavings and contents", "anchors": ["network/src/network/connection_manager.rs ActivePeers", "network/src/network/connection_manager.rs simultaneous_dial_tie_breaking", "network/src/network/request_handler.rs InboundRequestHandler"]}
{"id": "C123", "title": "Every request to connect is answered exactly once", "statement": "After any history each callback is either kept in exactly one place or was answered exactly once; a kept one waits for a running task or an expiration; when all tasks have ended and expirations fired, all were answered; the result of a task reaches all callbacks of its address, at once or, if the remote closed the connection, with the delay; the delay never ends early.", "quantifier": "all histories of requests, incoming connections, checks, task ends in any order, cancellations, expirations and changes of active peers", "why_tests_cant": "ranges over all histories, interleavings and contents", "anchors": ["network/src/network/connection_manager.rs ConnectionManager", "network/src/network/connection_manager.rs DelayedCallbacksQueue", "network/src/network/connection_manager.rs DialBackoffState", "network/src/network/mod.rs Network::connect"]}
{"id": "C124", "title": "The connection manager never panics", "statement": "None of its assertions about dropped callbacks, missing expirations or missing entries can fail.", "quantifier": "all histories as in C123", "why_tests_cant": "ranges over all histories, interleavings and contents", "anchors": ["network/src/network/connection_manager.rs ConnectionManager", "network/src/network/connection_manager.rs DelayedCallbacksQueue", "network/src/network/connection_manager.rs DialBackoffState", "network/src/network/mod.rs Network::connect"]}
{"id": "C125", "title": "The connection is with the peer asked for", "statement": "If every address belongs to one peer, each connection handed to a callback is with the peer the callback was for.", "quantifier": "all histories with consistent addresses", "why_tests_cant": "ranges over all histories, interleavings and contents", "anchors": ["network/src/network/connection_manager.rs ConnectionManager", "network/src/network/connection_manager.rs DelayedCallbacksQueue", "network/src/network/connection_manager.rs DialBackoffState", "network/src/network/mod.rs Network::connect"]}
{"id": "C126", "title": "A pending connection is ended by its own task", "statement": "If the tasks of an address end in the order they were started, a pending connection is ended by the result of its own latest task only, and the result of a task that was not abandoned is never thrown away.", "quantifier": "all histories in which results of an address come in order", "why_tests_cant": "ranges over all histories, interleavings and contents", "anchors": ["network/src/network/connection_manager.rs ConnectionManager", "network/src/network/connection_manager.rs DelayedCallbacksQueue", "network/src/network/connection_manager.rs DialBackoffState", "network/src/network/mod.rs Network::connect"]}
{"id": "C127", "title": "The connectivity check dials whom it should", "statement": "A check keeps the number of running tasks within the limit and dials only known peers of high affinity, other than this node, not connected, not being dialed, out of backoff. After k failures in a row, the last one seen at t, the peer is not dialed before t + min(max, k*step); after a success there is no backoff.", "quantifier": "all histories, all sets of known peers", "why_tests_cant": "ranges over all histories, interleavings and contents", "anchors": ["network/src/network/connection_manager.rs ConnectionManager", "network/src/network/connection_manager.rs DelayedCallbacksQueue", "network/src/network/connection_manager.rs DialBackoffState", "network/src/network/mod.rs Network::connect"]}
{"id": "C128", "title": "Who is let in", "statement": "A banned peer is always turned away, a known one never for want of room, an unknown one exactly at the limit of active connections; one let in runs its handshake unless it loses the tie against a pending dial.", "quantifier": "all states and incoming connections", "why_tests_cant": "ranges over all histories, interleavings and contents", "anchors": ["network/src/network/connection_manager.rs ConnectionManager", "network/src/network/connection_manager.rs DelayedCallbacksQueue", "network/src/network/connection_manager.rs DialBackoffState", "network/src/network/mod.rs Network::connect"]}
{"id": "C129", "title": "Affinity is what the handles say", "statement": "In every history in which affinity is never decreased through a handle that has clones: a peer has affinity Never exactly if it was banned, and otherwise High exactly if there is a living handle with affinity or an insertion with affinity was rejected as outdated.", "quantifier": "all histories of insertions, clones, upgrades, drops, changes of affinity and bans", "why_tests_cant": "ranges over all histories, interleavings and contents", "anchors": ["network/src/network/connection_manager.rs KnownPeers", "network/src/network/connection_manager.rs KnownPeerHandle", "network/src/network/connection_manager.rs KnownPeerInner", "network/src/network/connection_manager.rs WeakKnownPeerHandle"]}
{"id": "C130", "title": "One record per peer", "statement": "In every history without calls that race with a removal of the same peer, the registry leads to the data of every living handle: handles of one peer share their data, and the registry gives the same info, affinity and ban as the handle.", "quantifier": "all histories and interleavings of the two parts of a drop with other calls", "why_tests_cant": "ranges over all histories, interleavings and contents", "anchors": ["network/src/network/connection_manager.rs KnownPeers", "network/src/network/connection_manager.rs KnownPeerHandle", "network/src/network/connection_manager.rs KnownPeerInner", "network/src/network/connection_manager.rs WeakKnownPeerHandle"]}
{"id": "C131", "title": "A ban lasts as long as the record", "statement": "A ban takes effect at once. A banned peer stays banned until its last handle is dropped; a peer banned while it has no handle stays banned forever.", "quantifier": "all histories as in C130", "why_tests_cant": "ranges over all histories, interleavings and contents", "anchors": ["network/src/network/connection_manager.rs KnownPeers", "network/src/network/connection_manager.rs KnownPeerHandle", "network/src/network/connection_manager.rs KnownPeerInner", "network/src/network/connection_manager.rs WeakKnownPeerHandle"]}
{"id": "C132", "title": "Insertions and updates are answered exactly", "statement": "After any history an insertion is refused as banned exactly if the registry calls the peer banned and as outdated exactly if a newer info is known (and outdated ones are not allowed); otherwise it gives a new handle of the asked kind and the registry knows the newer of both infos; a refusal changes no info. The same for updates through a handle and for further handles of a known peer.", "quantifier": "all reachable states, all infos and options", "why_tests_cant": "ranges over all histories, interleavings and contents", "anchors": ["network/src/network/connection_manager.rs KnownPeers", "network/src/network/connection_manager.rs KnownPeerHandle", "network/src/network/connection_manager.rs KnownPeerInner", "network/src/network/connection_manager.rs WeakKnownPeerHandle"]}
{"id": "C133", "title": "Info about a peer only gets newer", "statement": "No step of any history makes the info of a handle older.", "quantifier": "all histories, all steps", "why_tests_cant": "ranges over all histories, interleavings and contents", "anchors": ["network/src/network/connection_manager.rs KnownPeers", "network/src/network/connection_manager.rs KnownPeerHandle", "network/src/network/connection_manager.rs KnownPeerInner", "network/src/network/connection_manager.rs WeakKnownPeerHandle"]}
{"id": "C134", "title": "A peer is known as long as someone cares", "statement": "When no drop is in progress the registry contains exactly the peers with a living handle, the banned ones, and those banned when their last handle was dropped.", "quantifier": "all histories as in C130 without calls that hold a temporary reference across a drop", "why_tests_cant": "ranges over all histories, interleavings and contents", "anchors": ["network/src/network/connection_manager.rs KnownPeers", "network/src/network/connection_manager.rs KnownPeerHandle", "network/src/network/connection_manager.rs KnownPeerInner", "network/src/network/connection_manager.rs WeakKnownPeerHandle"]}
{"id": "C135", "title": "Storing blocks in the manager's cache is answered exactly", "statement": "After any history: storing a block from the chain never fails; it is skipped exactly if a block of its shard at its height or above was accepted before or was taken out with its master block; otherwise it is in the cache afterwards as an applied block, and the answer says whether an own candidate was at its place and whether it was the same block. Storing an own candidate fails exactly if an own candidate is there, reports a mismatch exactly if a different chain block is there (and then replaces nothing), and touches no other place.", "quantifier": "all histories of stores, validation results, pops, commits, clean-ups and removals; all blocks", "why_tests_cant": "ranges over all histories, block graphs and contents", "anchors": ["collator/src/manager/blocks_cache.rs BlocksCache", "collator/src/manager/blocks_cache.rs store_collated", "collator/src/manager/blocks_cache.rs store_received", "collator/src/manager/types.rs BlockCacheEntry"]}
{"id": "C136", "title": "Chain blocks are accepted in order and only they count as applied", "statement": "In every history the blocks accepted from the chain have strictly growing seqnos per shard, and every cached block that counts as applied is the one that was accepted at its height.", "quantifier": "all histories", "why_tests_cant": "ranges over all histories, block graphs and contents", "anchors": ["collator/src/manager/blocks_cache.rs BlocksCache", "collator/src/manager/blocks_cache.rs store_collated", "collator/src/manager/blocks_cache.rs store_received", "collator/src/manager/types.rs BlockCacheEntry"]}
{"id": "C137", "title": "The range of applied master blocks can be synced", "statement": "The reported range is absent exactly if no applied master block waits, ends at the last waiting one and contains all of them; if master blocks arrive one after another it contains nothing else; and if moreover no commit of an own candidate runs ahead of a received block and no applied own block is removed, every seqno in it is a cached, applied master block.", "quantifier": "all histories", "why_tests_cant": "ranges over all histories, block graphs and contents", "anchors": ["collator/src/manager/blocks_cache.rs BlocksCache", "collator/src/manager/blocks_cache.rs store_collated", "collator/src/manager/blocks_cache.rs store_received", "collator/src/manager/types.rs BlockCacheEntry", "collator/src/manager/blocks_cache.rs get_last_collated_block_and_applied_mc_queue_range"]}
{"id": "C138", "title": "Taking a master block takes exactly its subgraph", "statement": "Popping gives the lowest applied master block from the given seqno on (or fails exactly if there is none) and says whether it was the last one; committing gives the block cached at the seqno. The shard blocks given with it are exactly the cached ones that reference it and are reachable from its updated tops over previous blocks, each once; exactly the visited places are emptied; without splits inside the subgraph they come in chain order. Peeking agrees with popping.", "quantifier": "all histories, all shapes of the shard graph", "why_tests_cant": "ranges over all histories, block graphs and contents", "anchors": ["collator/src/manager/blocks_cache.rs BlocksCache", "collator/src/manager/blocks_cache.rs store_collated", "collator/src/manager/blocks_cache.rs store_received", "collator/src/manager/types.rs BlockCacheEntry", "collator/src/manager/blocks_cache.rs pop_front_applied_mc_block_subgraph", "collator/src/manager/blocks_cache.rs peek_front_applied_mc_block_subgraph", "collator/src/manager/blocks_cache.rs extract_mc_block_subgraph"]}
{"id": "C139", "title": "Only validated own blocks are handed to the node, once", "statement": "A commit hands blocks to the node exactly if the master block cached at the seqno is an own candidate that was validated and was not received from the chain; then it hands over the master block and the not received own shard blocks of its subgraph. It commits queue diffs exactly if the block is applied, never both. A handed over master block was stored as candidate and a validation for its seqno completed afterwards; no candidate is handed over more often than it was added.", "quantifier": "all histories", "why_tests_cant": "ranges over all histories, block graphs and contents", "anchors": ["collator/src/manager/commit.rs commit_valid_master_block", "collator/src/manager/commit.rs send_block_to_sync", "collator/src/manager/blocks_cache.rs BlocksCache", "collator/src/manager/blocks_cache.rs store_collated", "collator/src/manager/blocks_cache.rs store_received", "collator/src/manager/types.rs BlockCacheEntry"]}
{"id": "C140", "title": "The last collated master block is truly own", "statement": "The reported last collated master block was collated and stored by this node, and no different block is cached at its seqno; after a mismatch it is below the mismatched block, or below the master block that references the mismatched shard block; a master block just stored is the last one unless a higher one is.", "quantifier": "all histories", "why_tests_cant": "ranges over all histories, block graphs and contents", "anchors": ["collator/src/manager/blocks_cache.rs BlocksCache", "collator/src/manager/blocks_cache.rs store_collated", "collator/src/manager/blocks_cache.rs store_received", "collator/src/manager/types.rs BlockCacheEntry", "collator/src/manager/blocks_cache.rs get_last_collated_block_id"]}
{"id": "C141", "title": "Funds of shard blocks are reported once", "statement": "The top shard blocks for the next master block are, per shard, the highest cached block collated by this node that the master block references; the fees and created amount reported with it are the sums over all own blocks of the shard stored since the last report or reset, each counted once, and the value flow is that of the last of them.", "quantifier": "all histories, all requests with distinct shards", "why_tests_cant": "ranges over all histories, block graphs and contents", "anchors": ["collator/src/manager/blocks_cache.rs BlocksCache", "collator/src/manager/blocks_cache.rs store_collated", "collator/src/manager/blocks_cache.rs store_received", "collator/src/manager/types.rs BlockCacheEntry", "collator/src/manager/blocks_cache.rs get_top_shard_blocks_info_for_mc_block"]}
{"id": "C142", "title": "Certification reaches exactly the points below evidence, in any order", "statement": "Let points be linked to their dependencies and certified in any order, by any number of threads whose traversals interleave in any way. A point is reported certified only if it was certified directly or lies at most the configured number of history rounds below such a point over links known by then; once every traversal is over, every such point, reached over points that were not dropped, is reported certified. The final answer does not depend on the order of operations, and every traversal ends.", "quantifier": "all graphs of points, all sequences of operations, all interleavings of traversal steps, drops of points", "why_tests_cant": "ranges over all graphs and all interleavings", "anchors": ["consensus/src/models/cert.rs Cert", "consensus/src/models/cert.rs certify", "consensus/src/models/cert.rs set_deps", "consensus/src/models/cert.rs WeakCert"]}
{"id": "C143", "title": "Direct proof is remembered and certification never gets weaker", "statement": "A point is reported to have a proof exactly if one was given for it; the height up to which it is certified never decreases, in any execution.", "quantifier": "all executions", "why_tests_cant": "ranges over all graphs and all interleavings", "anchors": ["consensus/src/models/cert.rs Cert", "consensus/src/models/cert.rs certify", "consensus/src/models/cert.rs set_deps", "consensus/src/models/cert.rs WeakCert", "consensus/src/models/cert.rs has_proof"]}
{"id": "C144", "title": "The packed certification word is equal to its parts", "statement": "Height and flags share one atomic word: reading the height, raising it (also after a failed exchange because another thread changed the word), setting and testing flags have exactly the effect they would have on separate variables.", "quantifier": "all words, heights, flags, races of two updates", "why_tests_cant": "ranges over all graphs and all interleavings", "anchors": ["consensus/src/models/cert.rs Cert", "consensus/src/models/cert.rs certify", "consensus/src/models/cert.rs set_deps", "consensus/src/models/cert.rs WeakCert", "consensus/src/models/cert.rs CertHeight"]}
{"id": "C145", "title": "A round is reported as reached exactly at the reliable minority", "statement": "Whatever calls, flushes and clean-ups interleave: receiving a broadcast reports that its round is reached exactly if the round is ahead of the caller's head, the point makes one more author with a well-formed point among its first two different points, and the number of such authors is now the reliable minority of the round's peers, or is below it and the point carries evidence. So whenever a cached round has that many authors, the call that completed it reported it unless its caller was there already; the report is made at most once without evidence.", "quantifier": "all histories, all points, authors, heads, validator counts", "why_tests_cant": "ranges over all interleavings of receiving calls, flushes and clean-ups", "anchors": ["consensus/src/intercom/broadcast/broadcast_filter.rs BroadcastFilter", "consensus/src/intercom/broadcast/broadcast_filter.rs add_check_threshold", "consensus/src/intercom/broadcast/broadcast_filter.rs flush_to_dag", "consensus/src/intercom/broadcast/broadcast_filter.rs clean"]}
{"id": "C146", "title": "The broadcast cache keeps two points per author and reports repetitions and forks exactly", "statement": "Of each author a cached round keeps exactly the first point and the first different one, no matter how many are sent; a call that fails verification, is of an unknown author or too old changes nothing; repetitions are reported from the fourth on with their number; equivocation is reported exactly if the author's first point differs, with its digest; asking whether a peer's point is there is answered exactly; after a clean-up only rounds of its window are left.", "quantifier": "all histories", "why_tests_cant": "ranges over all interleavings of receiving calls, flushes and clean-ups", "anchors": ["consensus/src/intercom/broadcast/broadcast_filter.rs BroadcastFilter", "consensus/src/intercom/broadcast/broadcast_filter.rs add_check_threshold", "consensus/src/intercom/broadcast/broadcast_filter.rs flush_to_dag", "consensus/src/intercom/broadcast/broadcast_filter.rs clean", "consensus/src/intercom/broadcast/broadcast_filter.rs has_point"]}
{"id": "C147", "title": "No cached broadcast is lost on the way to the DAG", "statement": "A flush, with calls running at the same time, delivers to the DAG every point kept when it starts of every round from the bottom to the head that the DAG has, in historical order of rounds, and does not panic; a point that comes while a round is being flushed or later is delivered by the flush or by its own call, unless a clean-up removes the round from under the flush; a round leaves the cache only outside a clean-up's window, below the bottom, or with its points delivered. All that is delivered was received in a verified call for that round, from that author, with that outcome.", "quantifier": "all histories and interleavings, heads old and new", "why_tests_cant": "ranges over all interleavings of receiving calls, flushes and clean-ups", "anchors": ["consensus/src/intercom/broadcast/broadcast_filter.rs BroadcastFilter", "consensus/src/intercom/broadcast/broadcast_filter.rs add_check_threshold", "consensus/src/intercom/broadcast/broadcast_filter.rs flush_to_dag", "consensus/src/intercom/broadcast/broadcast_filter.rs clean"]}
{"id": "C148", "title": "The limiter never lets in more than its permits and never loses one, whoever is cancelled", "statement": "With any number of concurrent tasks entering for any rounds, leaving, and being cancelled at any moment while they wait, never more tasks are inside than the limiter has permits; the free permits, those on their way to a task and those of tasks inside always add up to that number; and none of the assertions and counters of the limiter ever panics.", "quantifier": "every number of permits from 1 to 65535, every interleaving of the locked sections and semaphore calls of any number of tasks, every choice of the waiting task the semaphore wakes, every cancellation", "why_tests_cant": "ranges over all interleavings and cancellation points of any number of tasks", "anchors": ["consensus/src/intercom/dependency/limiter.rs Limiter::enter", "consensus/src/intercom/dependency/limiter.rs get_waiter", "consensus/src/intercom/dependency/limiter.rs cancel_inflight", "consensus/src/intercom/dependency/limiter.rs exit", "consensus/src/intercom/dependency/limiter.rs Waiter::acquire", "consensus/src/intercom/dependency/limiter.rs LimiterGuard::drop"]}
{"id": "C149", "title": "No task waits at the limiter forever, and an idle limiter is as new", "statement": "A task waits only while all permits are in use or on their way; while any call is not over, some task inside or about to run can take a step, every such step brings the calls nearer to their end, and so they all get in and leave; and when no task is inside or about to run, nobody waits, all permits are free, and no round is remembered.", "quantifier": "as for C148; steps of the tasks themselves in any order", "why_tests_cant": "ranges over all interleavings and cancellation points of any number of tasks", "anchors": ["consensus/src/intercom/dependency/limiter.rs Limiter::enter", "consensus/src/intercom/dependency/limiter.rs get_waiter", "consensus/src/intercom/dependency/limiter.rs cancel_inflight", "consensus/src/intercom/dependency/limiter.rs exit", "consensus/src/intercom/dependency/limiter.rs Waiter::acquire", "consensus/src/intercom/dependency/limiter.rs LimiterGuard::drop"]}
{"id": "C150", "title": "A permit given back goes to the highest waiting round", "statement": "When a task leaves, the waiting task that gets its permit is of the highest round among all waiting tasks, and a task of the highest remembered round that waits is such that one of its round gets it; a task that comes when the limiter has a free permit does not overtake anybody that waits.", "quantifier": "as for C148; every task that leaves", "why_tests_cant": "ranges over all interleavings and cancellation points of any number of tasks", "anchors": ["consensus/src/intercom/dependency/limiter.rs Limiter::enter", "consensus/src/intercom/dependency/limiter.rs get_waiter", "consensus/src/intercom/dependency/limiter.rs cancel_inflight", "consensus/src/intercom/dependency/limiter.rs exit", "consensus/src/intercom/dependency/limiter.rs Waiter::acquire", "consensus/src/intercom/dependency/limiter.rs LimiterGuard::drop"]}
{"id": "C151", "title": "External messages leave the input buffer in order, once per good round, and again after a failed one", "statement": "What a fetch returns is the longest front part of the buffered messages that fits a batch. A fetch for fresh messages confirms what the last fetch returned: none of it is ever returned again; a fetch after a failed round returns again all that the last one returned and that is still buffered. If nothing more is pushed and all messages fit a batch, fresh fetches return everything left, once and in order. A message larger than a batch blocks everything behind it until it is evicted.", "quantifier": "every history of pushes, fetches and configuration changes; messages of every size", "why_tests_cant": "ranges over all histories of calls and all sizes", "anchors": ["consensus/src/engine/input_buffer.rs InputBuffer::push", "consensus/src/engine/input_buffer.rs InputBuffer::fetch", "consensus/src/engine/input_buffer.rs InputBuffer::apply_config", "consensus/src/engine/input_buffer.rs InputBufferData::add", "consensus/src/engine/input_buffer.rs commit_offset"]}
{"id": "C152", "title": "No external message is lost silently by the input buffer", "statement": "The buffer always holds the latest accepted messages in their order, their sizes fit the configured buffer after every push, and a push drops as few of the oldest as it needs; every accepted message is buffered, was returned by a fetch, or was dropped by a push for which there was no room. No call panics as long as no pushed message is larger than the configured buffer; one that is takes the node down.", "quantifier": "as for C151", "why_tests_cant": "ranges over all histories of calls and all sizes", "anchors": ["consensus/src/engine/input_buffer.rs InputBuffer::push", "consensus/src/engine/input_buffer.rs InputBuffer::fetch", "consensus/src/engine/input_buffer.rs InputBuffer::apply_config", "consensus/src/engine/input_buffer.rs InputBufferData::add", "consensus/src/engine/input_buffer.rs commit_offset"]}
{"id": "C153", "title": "A bad event bans its peer exactly if there were too many of its kind in its window, restarts or not", "statement": "When the moderator handles an event of a peer, the peer is banned for the configured duration from the event on exactly if, with this one, more events of that kind by that peer lie in the configured window than are tolerated; events recorded before restarts count; no other peer's ban changes, and the event is recorded.", "quantifier": "every valid configuration, every history of events, bans and unbans by hand, timers, writes, restarts and crashes, every interleaving of user calls with the handling of an event", "why_tests_cant": "ranges over all histories, interleavings and crash points", "anchors": ["consensus/src/moderator/ban/peer_events.rs EventHistory::maybe_ban_until", "consensus/src/moderator/ban/current_bans.rs", "consensus/src/moderator/ban/cache.rs", "consensus/src/moderator/ban/core.rs BanCore", "consensus/src/moderator/ban/state.rs", "consensus/src/moderator/journal/record_key.rs", "consensus/src/moderator/storage/store.rs load_restore", "consensus/src/moderator/impl_.rs"]}
{"id": "C154", "title": "A peer is banned exactly until the latest end of its bans since it was last unbanned, the network agrees, and no ban lasts forever", "statement": "At every moment a peer's ban ends at the latest end among its bans since it was last unbanned; the peer schedule bans exactly these peers; a ban is never shortened; it is lifted only by the user, at or after its end, or at a restart; the user's ban holds at once, and the user's unban, when its turn comes, lifts the ban unless a longer one was set after it was asked for; whenever the scheduler has caught up, which it can always do, the timer of a ban that is over lifts it; none of the moderator's asserts can fail.", "quantifier": "every valid configuration, every history as for C153, every order of the items in the channel between bans and timers", "why_tests_cant": "ranges over all histories, interleavings and crash points", "anchors": ["consensus/src/moderator/ban/peer_events.rs EventHistory::maybe_ban_until", "consensus/src/moderator/ban/current_bans.rs", "consensus/src/moderator/ban/cache.rs", "consensus/src/moderator/ban/core.rs BanCore", "consensus/src/moderator/ban/state.rs", "consensus/src/moderator/journal/record_key.rs", "consensus/src/moderator/storage/store.rs load_restore", "consensus/src/moderator/impl_.rs"]}
{"id": "C155", "title": "A restart brings back exactly the stored bans", "statement": "After a restart or crash the bans are exactly those the stored journal tells of that are not over; if everything was written they are exactly the bans from before; no ban is made up or written twice; records of events go to disk together with the ban they lead to; what the cleaner deletes is never missed by a later start; nothing stored is lost.", "quantifier": "every valid configuration, every history and every crash point between messages to the disk", "why_tests_cant": "ranges over all histories, interleavings and crash points", "anchors": ["consensus/src/moderator/ban/peer_events.rs EventHistory::maybe_ban_until", "consensus/src/moderator/ban/current_bans.rs", "consensus/src/moderator/ban/cache.rs", "consensus/src/moderator/ban/core.rs BanCore", "consensus/src/moderator/ban/state.rs", "consensus/src/moderator/journal/record_key.rs", "consensus/src/moderator/storage/store.rs load_restore", "consensus/src/moderator/impl_.rs"]}
{"id": "C156", "title": "A validator reports just the signatures it saw, each block once, and all of them", "statement": "The listener of a block's validation is told exactly once: of the signatures received before the commit, valid or invalid for each validator of the session, or that the block was skipped. Every batch a session sends tells of validated blocks only, with exactly the bits reported for each validator, is not empty, and no block is in two batches. While the batch size stays and the blocks come in order, every validated block is in a batch that is sent, and the batches have that size and do not overlap. The collector does not panic.", "quantifier": "every list of calls on a scope; every session, batch size and list of validated and skipped blocks and changes of the batch size", "why_tests_cant": "ranges over all histories, inputs and weights", "anchors": ["slasher-traits/src/validator.rs BlockValidationScope", "slasher/src/collector/validator_events.rs SessionState", "slasher/src/bc/mod.rs BlocksBatch"]}
{"id": "C157", "title": "The contract lets in only batches the analysis can use, and one of each block from a validator", "statement": "A batch is accepted exactly if it is from a validator of the set, starts after that validator's earlier batches, has the configured size, tells of blocks that are made and not too old, and has two bits for each block and different known validators. So stored batches are never overwritten, those of one validator tell of different blocks, all can be read again, and the analysis of them neither fails nor finds one malformed.", "quantifier": "every list of messages to the contract, every change of the batch size", "why_tests_cant": "ranges over all histories, inputs and weights", "anchors": ["contracts/src/slasher.tolk handleBlocksBatchMessage, validateBlocksBatch", "slasher/src/storage/models.rs StoredBlocksBatch", "slasher/src/storage/mod.rs", "slasher/src/analyzer.rs analyze_vset"]}
{"id": "C158", "title": "A node is accused only by validators of more than two thirds of the weight, each of which saw it sign too little", "statement": "The analysis accuses a node exactly if it is another node and observers of more than two thirds of the weight accuse it (or it sent too many malformed batches), so validators of at most two thirds of the weight cannot make an accusation alone. An observer accuses by its own batches only, after enough sampled blocks; a sampled block is one it committed and that, with it, validators of more than two thirds of the weight signed. It accuses only nodes whose rate of signatures is at most the configured part of the middle rate, so at most half of the others; a node that signs nothing is accused when the middle node signs enough.", "quantifier": "every set of stored batches, weights and configurations", "why_tests_cant": "ranges over all histories, inputs and weights", "anchors": ["slasher/src/analyzer.rs analyze_vset, wilson_upper_bound"]}
{"id": "C159", "title": "The split actions between two sets of shards exist, are exactly the needed ones, and can be carried out in their order", "statement": "For every set of present and of wanted shards (not both empty) the actions are found without an error. If present shards do not overlap they are exactly a split of each shard that is a present shard or below one and above a wanted one, each once and ancestors first; carried out in this order each is possible, and then every wanted shard in or below a present one is there and none is left above a wanted one. From no shards, every wanted one is added.", "quantifier": "all lists of shards of all workchains, in any order", "why_tests_cant": "ranges over all sets of shards of any depth", "anchors": ["collator/src/utils/shard.rs calc_split_merge_actions", "collator/src/manager/state_update_handler.rs apply_split_merge_actions"]}
{"id": "C160", "title": "A node makes a persistent state of exactly the right key blocks", "statement": "A running node makes a persistent state of a key block exactly when its time lies in another 131072-second interval than that of the key block processed before it (the last one on disk for the first of a run). Over any history of crashes no persistent state is made of a block that does not have to have one, and when no crash falls between saving such a key block and remembering it as pending, every block that has to have one gets it or is still pending.", "quantifier": "all chains of key blocks with any times, all interleavings of block processing and background tasks, all crash points", "why_tests_cant": "ranges over all crash points and interleavings", "anchors": ["core/src/block_strider/state_applier.rs try_save_persistent_states", "core/src/block_strider/state_applier.rs ShardStateApplier::new_ext", "block-util/src/block/block_stuff.rs BlockStuff::compute_is_persistent"]}
{"id": "C161", "title": "A persistent state once begun is not lost, and they are made one at a time", "statement": "Over any history of crashes each persistent state ever begun is completely stored or is the one remembered as pending; at most one is being made at any moment and nobody overwrites the memory of an unfinished one; after a restart the pending one is made again before any block is processed; as long as no task failed all states begun can be completed.", "quantifier": "all chains of key blocks, all interleavings of block processing and background tasks, all crash points", "why_tests_cant": "ranges over all crash points and interleavings", "anchors": ["core/src/block_strider/state_applier.rs resume_pending_persistent_states", "core/src/block_strider/state_applier.rs begin_persistent_state_store", "core/src/storage/node_state/mod.rs set_pending_persistent_state_id"]}
{"id": "C162", "title": "A master block is collated exactly when every shard agrees, at a reported chain time", "statement": "After each report of a collator a master block is to be collated exactly if every active shard agrees: it asked for one, or one is forced for all, or the minimal interval has passed for it while it waits and some shard has processed external messages or run out of messages, or the maximal interval has passed. Its chain time is that of a reported anchor, later than the last master block if the master's anchors are, and respects the minimal (without external messages the maximal) interval unless a block was asked for. Afterwards all requests are settled and only reports of later anchors stay.", "quantifier": "all states, sets of shards, reports and intervals", "why_tests_cant": "ranges over all histories of reports", "anchors": ["collator/src/manager/mod.rs CollationManager::detect_next_collation_step"]}
{"id": "C163", "title": "The collators never all wait for each other", "statement": "Over every history of reports and syncs some active collator is at work, a shard waits for the master only while the master is at work, a shard ready for a master block stays ready until it is collated, and the answer names exactly the collators to set to work. Conditions: the maximal interval is not below the minimal one, and no shard reports a block on a newer master block while an older report of a block with external messages is remembered.", "quantifier": "all histories of reports and syncs of any number of shards", "why_tests_cant": "ranges over all histories of reports", "anchors": ["collator/src/manager/mod.rs CollationManager::detect_next_collation_step", "collator/src/manager/sync.rs reset_collation_sync_status"]}
{"id": "C164", "title": "The broadcaster never panics and never floods a peer", "statement": "Whatever order answers, timer ticks, status changes and peer updates come in, no assertion of the broadcaster fires; a peer has at most one query pending; queries go only to peers that are not lost and signatures are asked of signers only; over any history a peer is sent at most two queries for the start and each return plus three for each attempt.", "quantifier": "all histories of events of a broadcaster", "why_tests_cant": "ranges over all interleavings of answers, ticks, signals and peer updates", "anchors": ["consensus/src/intercom/broadcast/broadcaster.rs Broadcaster::run, run_continue, match_attempt, match_broadcast_result, match_signature_result, match_peer_updates"]}
{"id": "C165", "title": "No signer is forgotten while signatures are gathered", "statement": "A signer that was sent the point and is not lost always has a query pending, waits for the next attempt, has refused or has signed; every attempt except the first asks all who wait, and one that then reports the point missing is sent it at once; when the attempt counter wraps the point goes to every signer not lost and refusals are forgotten; a returning peer is sent the point at once.", "quantifier": "all histories of events of a broadcaster", "why_tests_cant": "ranges over all interleavings of answers, ticks, signals and peer updates", "anchors": ["consensus/src/intercom/broadcast/broadcaster.rs Broadcaster::run, run_continue, match_attempt, match_broadcast_result, match_signature_result, match_peer_updates"]}
{"id": "C166", "title": "The evidence of a point and the signals about it are sound", "statement": "The result of a run holds valid signatures of distinct signers other than the author, each given in answer to a request; success is signalled at most once, exactly when enough attempts were made, 2F others have signed and fewer than F+1 refuse, and the result then holds at least 2F signatures; failure is signalled only after F+1 distinct peers gave answers that count as refusals, and ends the run.", "quantifier": "all histories of events of a broadcaster", "why_tests_cant": "ranges over all interleavings of answers, ticks, signals and peer updates", "anchors": ["consensus/src/intercom/broadcast/broadcaster.rs Broadcaster::run, run_continue, match_attempt, match_broadcast_result, match_signature_result, match_peer_updates", "broadcaster.rs Broadcaster::should_finish"]}
{"id": "C167", "title": "A round ends as ready only with both halves done, and is never stuck", "statement": "A collector ends as ready only if enough broadcasts were collected and the own point has 2F valid signatures, and at once when both hold; as failed only after F+1 refusals; because of rounds exactly when the consensus passed the next round or the top known anchor reached the current one. While it works, its tick leads to a new attempt that the broadcaster can see; after it ended the broadcaster can end with the evidence gathered.", "quantifier": "all interleavings of a collector and a broadcaster", "why_tests_cant": "ranges over all interleavings of answers, ticks, signals and peer updates", "anchors": ["consensus/src/intercom/broadcast/collector.rs CollectorTask::run, is_ready, should_fail, match_watched_rounds"]}
{"id": "C168", "title": "What a download of a point gives is sound and prompt", "statement": "A download gives up as soon as, and only if, 2F different validators of the next round have answered that they do not have the point (an empty, malformed or wrong answer counts; the author, if outside, does not), so if fewer than 2F ever deny it, it is never given up. A point it gives is the wanted one, parsed with good signatures from some peer's answer, and is verified just if the verifier accepted it; the wanted point ends the download at once. A point from broadcast came by broadcast.", "quantifier": "all histories of a download", "why_tests_cant": "ranges over all interleavings of answers, ticks and peer updates", "anchors": ["consensus/src/intercom/dependency/downloader.rs DownloadTask::run, download_random, current_peers, match_peer_updates", "consensus/src/intercom/dependency/peer_queue.rs PeerQueue, PeerStatus"]}
{"id": "C169", "title": "A download asks the right peers, once each, and never panics", "statement": "No order of answers, peer updates, dependers and ticks makes a download panic; a peer has at most one query or unparsed answer at a time and at most F+1 queries are pending; peers asked are validators of the next round or the author, known to be resolved, and gave no final answer before; after n ticks a peer was asked at most n+1 times.", "quantifier": "all histories of a download, with fewer than 2^32 ticks for the last clause", "why_tests_cant": "ranges over all interleavings of answers, ticks and peer updates", "anchors": ["consensus/src/intercom/dependency/downloader.rs DownloadTask::run, download_random, current_peers, match_peer_updates", "consensus/src/intercom/dependency/peer_queue.rs PeerQueue, PeerStatus"]}
{"id": "C170", "title": "A download does not stall", "statement": "While it runs more than n-2F validators of the next round gave no final answer, namely those that did not deny the point, and an answer with bytes is always being parsed. At a tick peers are asked until as many queries are pending as the attempt allows, or else every resolved peer without final answer is waited for or was asked since the last tick. Asked next is a ready peer whenever there is one: the least recently asked, then the one that failed least, then one that depends on the point.", "quantifier": "all histories of a download with fewer than 2^32 ticks; all tables of peers", "why_tests_cant": "ranges over all interleavings of answers, ticks and peer updates", "anchors": ["consensus/src/intercom/dependency/downloader.rs DownloadTask::run, download_random, current_peers, match_peer_updates", "consensus/src/intercom/dependency/peer_queue.rs PeerQueue, PeerStatus"]}
{"id": "C171", "title": "The map ordered by value is a map, and keeps the greatest entries", "statement": "For every order of keys and values and every sequence of calls: no call panics; the map never exceeds its bound; upsert replaces the value of a present key just if the caller's test says so, inserts a new key while there is room, and when full refuses it exactly if it is below everything kept, else drops the least entry and says which; all other keys keep their values; max is the greatest entry by value and key; remove removes; collecting takes the last value of each key and leaves no room. Offered entries with different keys, the map ends up with the greatest of them, as many as it may keep.", "quantifier": "all linear orders of keys and values, all sequences of calls, all bounds", "why_tests_cant": "ranges over all orders, sequences of calls and bounds", "anchors": ["consensus/src/utils/value_ordered_map.rs ValueOrderedMap upsert, get, remove, max, from_iter, UpsertResult"]}
{"id": "C172", "title": "A neighbour is chosen with the probability of its weight", "statement": "For every reachable set of neighbours: the index chooses only among the present neighbours; of the random numbers below the total exactly as many choose a neighbour as its weight is (16 to 144); with a history of fines, as many as the weight less the fine, but at least 1, and nothing underflows. The weights are those of the selection scores when the set was last stored. Asked for several, it draws those with the greatest keys, as many as asked for or all, each once, and gives those of them that may be taken.", "quantifier": "all histories of requests, punishments, clean-ups and updates, interleaved; all random numbers, fines and keys", "why_tests_cant": "ranges over all histories, interleavings and random numbers", "anchors": ["core/src/overlay_client/neighbours.rs Neighbours choose, choose_multiple, try_apply_score, update, get_sorted_neighbours; SelectionIndex; RequestHistory", "core/src/overlay_client/neighbour.rs TrackedStats, PackedSmaBuffer"]}
{"id": "C173", "title": "Clean-ups and updates of the neighbours", "statement": "For every interleaving of requests, punishments, clean-ups and updates: there are never more neighbours than allowed and never two of a peer. A clean-up keeps exactly the reliable ones not expired, stores nothing if the set was stored anew meanwhile, and notifies waiters iff the set shrank. An update keeps the good ones, except one of the worst if there is no room; adds new ones, of peers that were not neighbours, while there is room; and notifies waiters iff it changed what it loaded.", "quantifier": "all interleavings, all sets and offers of neighbours, all times", "why_tests_cant": "ranges over all histories, interleavings and random numbers", "anchors": ["core/src/overlay_client/neighbours.rs Neighbours choose, choose_multiple, try_apply_score, update, get_sorted_neighbours; SelectionIndex; RequestHistory", "core/src/overlay_client/neighbour.rs TrackedStats, PackedSmaBuffer"]}
{"id": "C174", "title": "Scores of neighbours", "statement": "For every history of requests: scores stay within 128; a neighbour may be chosen iff its score is at least 16, or at least 32 if the last four requests with a known outcome failed; its weight is then its score, less 16 after four failures, plus 1 to 16 iff the score is at least 120 and the average time at most 160 ms. The average is that of the last four times if the first of them is not zero. Fifteen failures in a row make anyone unreliable, fourteen do not make the best so; one malicious answer does. Fines double from 1 to at most 16 and halve with each useful answer.", "quantifier": "all histories of requests and answers", "why_tests_cant": "ranges over all histories, interleavings and random numbers", "anchors": ["core/src/overlay_client/neighbours.rs Neighbours choose, choose_multiple, try_apply_score, update, get_sorted_neighbours; SelectionIndex; RequestHistory", "core/src/overlay_client/neighbour.rs TrackedStats, PackedSmaBuffer"]}
{"id": "C175", "title": "The rate limiter keeps to the rate, and lets through who keeps to it", "statement": "For every history of checks by any peers, with a clock that does not go back: in any span of time no more requests of a peer in a class are allowed than the burst and one for each interval (the least number of milliseconds that keeps to the rate), although states of silent peers are dropped, provided they are kept for the time of a burst. A peer whose requests keep to the limits of all classes is never rejected, whatever others do. Claims on one bucket at the same time, in any interleaving of their atomic operations, with spurious failures and any clocks, keep to the limit too; one is rejected only if at that moment a new claim would be, and one that must try again saw another granted.", "quantifier": "all histories of checks, all limits, all interleavings of the atomic operations of claims", "why_tests_cant": "ranges over all histories, spans of time and interleavings", "anchors": ["util/src/rate_limit.rs RateLimiter::check, RateLimiterInner, PeerLimiter, AtomicBucket, RateLimitConfig, TrafficLimit"]}
{"id": "C176", "title": "The time a rejection gives is right", "statement": "If states are kept for the cooldown and for the time of a burst: whatever is checked in between, a request of the peer in the class before the time given by a rejection is rejected as well. If the cooldown is no shorter than the interval: one at that time or later is allowed, if the peer asked for nothing in between.", "quantifier": "all histories of checks before and in between, all times", "why_tests_cant": "ranges over all histories, spans of time and interleavings", "anchors": ["util/src/rate_limit.rs RateLimiter::check, RateLimiterInner, PeerLimiter, AtomicBucket, RateLimitConfig, TrafficLimit"]}
{"id": "C177", "title": "Cooldown", "statement": "A peer is put into cooldown only when its last requests, as many as configured, were all rejected, and then for the configured time from now, which the verdict says; out of cooldown every rejection counts and a request that is allowed clears the count. In cooldown every request of any class is rejected till the end, which neither prolongs it nor counts, as long as the peer is not silent for the time states are kept. The count never reaches what the code asserts it does not.", "quantifier": "all histories of checks, all configurations", "why_tests_cant": "ranges over all histories, spans of time and interleavings", "anchors": ["util/src/rate_limit.rs RateLimiter::check, RateLimiterInner, PeerLimiter, AtomicBucket, RateLimitConfig, TrafficLimit"]}
{"id": "C178", "title": "A search for a value in the DHT ends, asks each peer once and returns only valid values", "statement": "For every set of first candidates and every behaviour of the peers asked (any responses, errors, timeouts, in any order): no peer is asked twice, neither the peer itself nor the peer whose id is the key is asked, and at most 256 * max_k peers are asked, so no peers can keep the search from ending. A value is returned exactly when a peer asked sent it and it is valid, at the first such. Nothing is returned only after all asked have answered; then each usable peer named validly in a response (or a first candidate), but itself and the one whose id is the key, has answered, or max_k different peers no farther from the key have.", "quantifier": "all first candidates, all responses in all orders", "why_tests_cant": "ranges over all responses of adversarial peers in all orders", "anchors": ["network/src/dht/query.rs Query::new, find_value, find_peers, retain_candidate", "network/src/dht/routing.rs HandlesRoutingTable"]}
{"id": "C179", "title": "A search for peers in the DHT ends, keeps to its depth and returns the newest infos", "statement": "For every set of first candidates and every behaviour of the peers asked: the search never fails, asks no peer twice, neither itself nor the target, and at most 256 * max_k; each peer asked is reached from the first candidates by at most depth steps from a peer to one it named. The result has exactly the peers named in valid infos, but the peer itself, each with a valid info that was received and than which no received one is newer. Without a depth, when the search ends each usable peer named (or a first candidate) has answered, or max_k different peers no farther from the target have.", "quantifier": "all first candidates, all responses in all orders, all depths", "why_tests_cant": "ranges over all responses of adversarial peers in all orders", "anchors": ["network/src/dht/query.rs Query::new, find_value, find_peers, retain_candidate", "network/src/dht/routing.rs HandlesRoutingTable"]}
{"id": "C180", "title": "A shared future is polled by one at a time and gives all the same output", "statement": "For every interleaving of the atomic operations of the polls of any number of clones of a shared future, with clones made, dropped, cancelled and upgraded from weak handles at any moment, and any behaviour of the inner future: the inner future is polled by one clone at a time and never after it completed or panicked; all polls that return give its output, each clone at most once; at most one is told that it was the last, and then no other is left; after a panic nobody gets a result and it is not polled; none of the states the code calls unreachable is reached.", "quantifier": "all interleavings of any number of clones, all behaviours of the inner future", "why_tests_cant": "ranges over all interleavings of atomic operations, wakes and cancellations", "anchors": ["util/src/futures/shared.rs Shared, poll_impl, Inner::take_or_clone_output, WeakSharedHandle::upgrade, Drop of the permit", "network/src/dht/query.rs QueryCache::run"]}
{"id": "C181", "title": "No clone of a shared future sleeps for ever", "statement": "For every interleaving as before: a task that sleeps in a poll of a clone either polled the inner future last, which has its waker and is not complete, or is in the queue for the permit, of which the holder is alive, and is awake, in a poll, completed but not dropped, or sleeps on the inner future itself with its waker registered. A wake of the inner future wakes the holder of the permit, whoever was cancelled before. A holder dropped hands the permit to the first in the queue and wakes it. Once the inner future has completed, the clones there are take at most six steps each until all are dropped.", "quantifier": "all interleavings of any number of clones, cancelled at any moment", "why_tests_cant": "ranges over all interleavings of atomic operations, wakes and cancellations", "anchors": ["util/src/futures/shared.rs Shared, poll_impl, Inner::take_or_clone_output, WeakSharedHandle::upgrade, Drop of the permit", "network/src/dht/query.rs QueryCache::run"]}
{"id": "C182", "title": "Queries for one key share one request", "statement": "For every history of calls for any keys, in any interleaving of joining, completing, being cancelled and removing entries: all calls for one key that are waiting have the same future and calls for different keys different ones; a call for a key that others wait for starts nothing and joins them, one for a key nobody waits for starts exactly one new future. The entry of a future someone waits for is never removed or replaced. If the last of a future is always told so, the cache is empty once all calls have ended and removed their entries.", "quantifier": "all histories of calls, cancellations and removals, all interleavings", "why_tests_cant": "ranges over all interleavings of calls and cancellations", "anchors": ["network/src/dht/query.rs QueryCache::run, Guard, on_drop"]}
{"id": "C183", "title": "The reclaimer drops every value once and nobody waits in vain", "statement": "For any number of threads that enqueue, any number of workers and any capacity, at least one, in every interleaving of the sections under the lock, pushes, steals, notifications and spurious wakes: every value given is at exactly one place, with a thread that enqueues it, in the queue, with a worker or dropped, so none is lost or dropped twice; no more values than the capacity are counted, pushed or stolen and not yet uncounted; the assertion in the worker never fails; and whenever no thread can take a step any more, all values given have been dropped, no thread waits for room and all workers sleep.", "quantifier": "all interleavings of any number of threads, all capacities", "why_tests_cant": "ranges over all interleavings of any number of threads", "anchors": ["util/src/mem/reclaimer.rs Reclaimer::drop, Inner::enqueue, Inner::pop, Inner::worker_loop"]}
{"id": "C184", "title": "Memory is divided within the constraints and by priority", "statement": "For every list of constraints made by the constructors, with sums of minimums and of ratios in u64, and every amount available: alloc_constraints and its overflowing form never fail, underflow or loop for ever. If the minimums fit, each constraint is given, in its place, a size from its minimum to its maximum, the sum of the sizes is not more than was available and is taken from it; for each priority there is one amount per unit of ratio such that every constraint of it has its minimum and its share, rounded down and cut at its maximum; and (below 2^48 bytes) where a constraint did not get its maximum, all the constraints of a lower priority and the rest together got less than a byte per constraint of its priority and a 65536th of a byte per unit of their ratios above their minimums. If the minimums do not fit, alloc_constraints takes nothing and names their sum; the overflowing form gives the minimums, takes all there is and names exactly what is missing.", "quantifier": "all lists of constraints, all amounts of memory", "why_tests_cant": "ranges over all inputs and histories", "anchors": ["util/src/mem/slicer.rs MemorySlicerGuard::alloc_constraints, overflowing_alloc_constraints, solve_constraints, MemoryConstraint::exact, range"]}
{"id": "C185", "title": "A slicer of memory and those made from it give exactly their capacity", "statement": "For every history of calls, with any arguments, on a slicer and on the slicers made from it by subdividing: no call panics or underflows, and what was given to callers and what is still available in all the slicers is exactly the capacity. An allocation in a range (that holds a number) gives the greatest amount of the range that is available, and none only if no amount of the range is; an allocation by ratio gives that share of what is available, rounded down.", "quantifier": "all histories of calls, all arguments", "why_tests_cant": "ranges over all inputs and histories", "anchors": ["util/src/mem/slicer.rs MemorySlicer::new, alloc_fixed, alloc_ratio, alloc_in_range, subdivide, subdivide_ratio, subdivide_in_range"]}
{"id": "C186", "title": "A watch of rounds holds the greatest and no receiver misses it", "statement": "For every interleaving of calls of any number of senders and receivers, with receivers made at any moment: get returns the greatest of all rounds set (or zero); set_max returns true exactly when its round is greater than all set before; what next returns to one receiver is each time greater than before and than the value when the receiver was made, is a round that was set, and is the greatest set when it returns; next returns at once if a greater round than the receiver knows from next or from its creation was set, sleeps only if there is none, and fails only if there is none and all senders are gone.", "quantifier": "all interleavings of any number of senders and receivers", "why_tests_cant": "ranges over all interleavings and histories", "anchors": ["consensus/src/engine/round_watch.rs RoundWatch::set_max, get, receiver, RoundWatcher::next, get"]}
