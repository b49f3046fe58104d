{
 "claims": [
  {
   "property": "C01",
   "status": "proved",
   "theorems": [
    "Tycho.Transactional.rollback_restores",
    "Tycho.Transactional.commit_equals_plain_run",
    "Tycho.Transactional.reads_are_plain",
    "Tycho.Transactional.tx_open_exactly_inside",
    "Tycho.Transactional.guards_keep_committed_sections"
   ],
   "note": "Every nesting of value/option/map/derived struct. Whole-value replacement through a raw &mut to an element (bypassing the container API) is outside the modelled operations."
  },
  {
   "property": "C02",
   "status": "proved",
   "theorems": [
    "Tycho.Median.median_is_median",
    "Tycho.Median.median_even_exact",
    "Tycho.Median.median_overflow_understates"
   ],
   "note": "Even case: floored mean when the two middle values do not overflow together; the saturated behaviour above that is in median_overflow_understates."
  },
  {
   "property": "C03",
   "status": "proved",
   "theorems": [
    "Tycho.Semaphore.permits_conserved",
    "Tycho.Semaphore.held_le",
    "Tycho.Semaphore.no_free_permit_while_waiting",
    "Tycho.Semaphore.pending_waits_or_woken",
    "Tycho.Semaphore.waiters_alive",
    "Tycho.Semaphore.served_in_order",
    "Tycho.Semaphore.priority_first",
    "Tycho.Semaphore.closed_gives_nothing",
    "Tycho.Semaphore.never_panics"
   ],
   "note": "For any number of callers, at the granularity of compare-exchanges and critical sections, including the wake list limit and stale reads inside poll."
  },
  {
   "property": "C04",
   "status": "proved",
   "theorems": [
    "Tycho.PeerCount.accepted_sizes",
    "Tycho.PeerCount.sizes_fit",
    "Tycho.PeerCount.majorities_overlap",
    "Tycho.PeerCount.majorities_share_honest",
    "Tycho.PeerCount.majority_meets_minority",
    "Tycho.PeerCount.minority_has_honest",
    "Tycho.PeerCount.majority_has_honest_minority",
    "Tycho.PeerCount.others_with_author_are_majority",
    "Tycho.PeerCount.majority_available_iff"
   ],
   "note": "All accepted sizes 3..=253, any sets."
  },
  {
   "property": "C05",
   "status": "proved",
   "theorems": [
    "Tycho.Commit.commit_history",
    "Tycho.Commit.run_contiguous"
   ],
   "note": "Stated per anchor of a successful commit in any reachable state; digests are assumed to name their author."
  },
  {
   "property": "C06",
   "status": "proved",
   "theorems": [
    "Tycho.Commit.committed_once",
    "Tycho.Commit.committed_stays_out"
   ],
   "note": "Over any run of any calls, including failing ones, gaps and view changes."
  },
  {
   "property": "C07",
   "status": "proved",
   "theorems": [
    "Tycho.Commit.anchors_increase",
    "Tycho.Commit.anchors_linked",
    "Tycho.Commit.schedule_independent",
    "Tycho.Commit.task_schedule_independent"
   ],
   "note": "Order holds for all runs; links across calls assume that the useful triggers belong to one chain of proofs; schedules are compared for the committer and for the engine task that removes committed rounds."
  },
  {
   "property": "C08",
   "status": "proved",
   "theorems": [
    "Tycho.ProofLeader.wave_roles",
    "Tycho.ProofLeader.proof_then_trigger",
    "Tycho.ProofLeader.alignGenesis_least",
    "Tycho.ProofLeader.alignGenesis_close",
    "Tycho.ProofLeader.alignGenesis_defined",
    "Tycho.ProofLeader.alignGenesis_idem",
    "Tycho.ProofLeader.leader_only_at_proof",
    "Tycho.ProofLeader.candidate_of_proof_round",
    "Tycho.ProofLeader.leader_defined"
   ],
   "note": "Random generator is a parameter."
  },
  {
   "property": "C09",
   "status": "proved",
   "theorems": [
    "Tycho.Stats.built_counts_each_round_once",
    "Tycho.Stats.add_accepted_iff",
    "Tycho.Stats.merge_accepted_iff",
    "Tycho.Stats.merge_comm",
    "Tycho.Stats.merge_assoc",
    "Tycho.Stats.merge_with_empty_not_symmetric"
   ],
   "note": "Aggregates with no rounds are the exception to order independence (merge_with_empty_not_symmetric)."
  },
  {
   "property": "C10",
   "status": "proved",
   "theorems": [
    "Tycho.Dedup.dedup_window",
    "Tycho.Dedup.dedup_clean_bounds_state"
   ],
   "note": "Window of at least one round, rounds from 1."
  },
  {
   "property": "C100",
   "status": "proved",
   "theorems": [
    "Tycho.StateFile.state_file_sound",
    "Tycho.StateFile.state_file_checksum",
    "Tycho.StateFile.state_file_stored_hashes",
    "Tycho.StateFile.state_file_pruned"
   ],
   "note": "collision-freeness is assumed of the cells of the file only; the checksum is a parameter. Findings: see DESIGN.md (the checksum reader never advances)"
  },
  {
   "property": "C101",
   "status": "proved",
   "theorems": [
    "Tycho.StateFile.state_file_unique"
   ],
   "note": ""
  },
  {
   "property": "C102",
   "status": "proved",
   "theorems": [
    "Tycho.CellStore.import_adds",
    "Tycho.CellStore.run_sound",
    "Tycho.CellStore.run_progress"
   ],
   "note": "nursery flushed before, as the callers do; a crash in the middle is covered only by the deletion of everything at bootstrap (interrupted_import_breaks shows that it cannot be repeated otherwise)"
  },
  {
   "property": "C103",
   "status": "proved",
   "theorems": [
    "Tycho.PeerSchedule.schedule_never_panics",
    "Tycho.PeerSchedule.peers_for_round",
    "Tycho.PeerSchedule.key_use"
   ],
   "note": "rounds are natural numbers (Round::next panics at the maximum of u32)"
  },
  {
   "property": "C104",
   "status": "proved",
   "theorems": [
    "Tycho.PeerSchedule.peers_of_round_stable"
   ],
   "note": ""
  },
  {
   "property": "C105",
   "status": "proved",
   "theorems": [
    "Tycho.PeerSchedule.nodes_agree_on_peers"
   ],
   "note": "hypothesis: the first epoch given starts after genesis, as init is called"
  },
  {
   "property": "C106",
   "status": "proved",
   "theorems": [
    "Tycho.PeerSchedule.snapshots_are_whole"
   ],
   "note": ""
  },
  {
   "property": "C107",
   "status": "proved",
   "theorems": [
    "Tycho.PeerSchedule.overlay_members_exact",
    "Tycho.PeerSchedule.uploads_served_exactly"
   ],
   "note": ""
  },
  {
   "property": "C108",
   "status": "proved",
   "theorems": [
    "Tycho.PeerSchedule.banned_peer_not_used",
    "Tycho.PeerSchedule.banned_peer_gets_no_broadcasts",
    "Tycho.PeerSchedule.banned_peer_may_get_broadcasts"
   ],
   "note": "witness banned_peer_may_get_broadcasts: a peer that is only in the previous subset when banned keeps getting broadcasts"
  },
  {
   "property": "C109",
   "status": "proved",
   "theorems": [
    "Tycho.PeerSchedule.stats_of_one_epoch",
    "Tycho.PeerSchedule.slot_is_rank"
   ],
   "note": ""
  },
  {
   "property": "C11",
   "status": "proved",
   "theorems": [
    "Tycho.QueueKey.stored_keys_read_back",
    "Tycho.QueueKey.stored_keys_injective",
    "Tycho.QueueKey.stored_order",
    "Tycho.QueueKey.scan_stays_inside",
    "Tycho.QueueKey.successor",
    "Tycho.QueueKey.halfOpen_same_keys",
    "Tycho.QueueKey.halfOpen_loses_max",
    "Tycho.QueueKey.lt_interval",
    "Tycho.QueueKey.min_le_key_le_max",
    "Tycho.QueueKey.key_trichotomy",
    "Tycho.QueueKey.blockId_reads_back_alone"
   ],
   "note": "Keys as lt + 32 hash bytes; the maximal key is its own successor and is lost by the half-open conversion (shown)."
  },
  {
   "property": "C110",
   "status": "proved",
   "theorems": [
    "Tycho.PeerSchedule.local_peer_not_used",
    "Tycho.PeerSchedule.unresolved_validator_waited",
    "Tycho.PeerSchedule.gone_peers_reported",
    "Tycho.PeerSchedule.found_peer_may_stay_unknown",
    "Tycho.PeerSchedule.reported_peer_may_be_known"
   ],
   "note": "witnesses: found_peer_may_stay_unknown (a resolution lost when the resolve task is restarted), reported_peer_may_be_known"
  },
  {
   "property": "C111",
   "status": "proved",
   "theorems": [
    "Tycho.AnchorCache.by_id_exact",
    "Tycho.AnchorCache.next_exact"
   ],
   "note": ""
  },
  {
   "property": "C112",
   "status": "proved",
   "theorems": [
    "Tycho.AnchorCache.reader_gets_the_chain",
    "Tycho.AnchorCache.replayed_anchor_breaks_order"
   ],
   "note": "hypotheses: new anchors come with growing ids and links to the end of the history, clean-up and closing not before the reader; witness replayed_anchor_breaks_order: an anchor that was cleaned up and comes again after a recovery is put at the end"
  },
  {
   "property": "C113",
   "status": "proved",
   "theorems": [
    "Tycho.AnchorCache.closed_hides_the_rest"
   ],
   "note": ""
  },
  {
   "property": "C114",
   "status": "proved",
   "theorems": [
    "Tycho.AnchorCache.anchor_never_replaced"
   ],
   "note": ""
  },
  {
   "property": "C115",
   "status": "proved",
   "theorems": [
    "Tycho.AnchorCache.no_lost_wakeup"
   ],
   "note": ""
  },
  {
   "property": "C116",
   "status": "proved",
   "theorems": [
    "Tycho.AnchorCache.updates_in_order",
    "Tycho.AnchorCache.sign_returns_exactly",
    "Tycho.AnchorCache.push_returns_exactly"
   ],
   "note": ""
  },
  {
   "property": "C117",
   "status": "proved",
   "theorems": [
    "Tycho.AnchorCache.closed_iff_expected",
    "Tycho.AnchorCache.closed_at_the_new_start",
    "Tycho.AnchorCache.switch_drops_the_old_future",
    "Tycho.AnchorCache.cancelled_switch_keeps_old_future",
    "Tycho.AnchorCache.early_switch_keeps_old_future",
    "Tycho.AnchorCache.late_anchor_after_the_cut"
   ],
   "note": "witnesses where the condition on the collator fails: a switch cancelled and decided again, or queued before the first session, is not cut; late_anchor_after_the_cut: the cache is opened before the old session is stopped"
  },
  {
   "property": "C118",
   "status": "proved",
   "theorems": [
    "Tycho.AnchorCache.genesis_from_signed_blocks"
   ],
   "note": "overrides is a parameter (strict order); the ensures on a configured genesis and peer sets are assumed to hold"
  },
  {
   "property": "C119",
   "status": "proved",
   "theorems": [
    "Tycho.ActivePeers.tie_agreed",
    "Tycho.ActivePeers.dials_converge",
    "Tycho.ActivePeers.dials_same",
    "Tycho.ActivePeers.same_direction_diverges"
   ],
   "note": "same_direction_diverges: two connections dialed by the same node, added in different orders, end with none"
  },
  {
   "property": "C12",
   "status": "proved",
   "theorems": [
    "Tycho.QueueIter.iterator_created_iff",
    "Tycho.QueueIter.iteration_sound",
    "Tycho.QueueIter.iteration_complete",
    "Tycho.QueueIter.position_exact",
    "Tycho.QueueIter.run_msgs_uniq"
   ],
   "note": "The position theorem goes beyond the statement: current_position separates returned from unreturned messages after any number of calls."
  },
  {
   "property": "C120",
   "status": "proved",
   "theorems": [
    "Tycho.ActivePeers.active_or_closed",
    "Tycho.ActivePeers.add_returns_active",
    "Tycho.ActivePeers.ended_removes_own"
   ],
   "note": ""
  },
  {
   "property": "C121",
   "status": "proved",
   "theorems": [
    "Tycho.ActivePeers.counter_exact",
    "Tycho.ActivePeers.events_balanced",
    "Tycho.ActivePeers.events_truthful",
    "Tycho.ActivePeers.events_overtaken"
   ],
   "note": "events_overtaken: with overlapping calls the last event can be wrong, since events are sent after the lock is released"
  },
  {
   "property": "C122",
   "status": "proved",
   "theorems": [
    "Tycho.ActivePeers.no_handler_no_peer"
   ],
   "note": ""
  },
  {
   "property": "C123",
   "status": "proved",
   "theorems": [
    "Tycho.Dialing.callback_once",
    "Tycho.Dialing.waiting_has_cause",
    "Tycho.Dialing.all_answered",
    "Tycho.Dialing.result_reaches",
    "Tycho.Dialing.expiration_answers"
   ],
   "note": ""
  },
  {
   "property": "C124",
   "status": "proved",
   "theorems": [
    "Tycho.Dialing.never_panics"
   ],
   "note": ""
  },
  {
   "property": "C125",
   "status": "proved",
   "theorems": [
    "Tycho.Dialing.right_peer",
    "Tycho.Dialing.wrong_peer"
   ],
   "note": "wrong_peer: without the condition a request for one peer is answered with the connection of another"
  },
  {
   "property": "C126",
   "status": "proved",
   "theorems": [
    "Tycho.Dialing.own_result",
    "Tycho.Dialing.stale_result"
   ],
   "note": "stale_result: out of order, the result of an abandoned attempt ends a later one"
  },
  {
   "property": "C127",
   "status": "proved",
   "theorems": [
    "Tycho.Dialing.check_dials",
    "Tycho.Dialing.backoff_grows"
   ],
   "note": ""
  },
  {
   "property": "C128",
   "status": "proved",
   "theorems": [
    "Tycho.Dialing.admission"
   ],
   "note": ""
  },
  {
   "property": "C129",
   "status": "proved",
   "theorems": [
    "Tycho.KnownPeers.affinity_exact",
    "Tycho.KnownPeers.rejected_insert_keeps_high",
    "Tycho.KnownPeers.clone_decrease_bans"
   ],
   "note": "rejected_insert_keeps_high: a rejected insertion leaves affinity high; clone_decrease_bans: decreasing through a cloned handle ends in a ban nobody made (release build)"
  },
  {
   "property": "C13",
   "status": "proved",
   "theorems": [
    "Tycho.Queue.apply_twice",
    "Tycho.Queue.apply_conflict",
    "Tycho.Queue.apply_below_pointer",
    "Tycho.Queue.apply_below_pointer_error",
    "Tycho.Queue.apply_gap",
    "Tycho.Queue.apply_effect",
    "Tycho.Queue.apply_statistics",
    "Tycho.Queue.recorded_diff_is_final",
    "Tycho.Queue.run_wf"
   ],
   "note": "Statements per call for every database, plus recorded_diff_is_final over all histories with restarts."
  },
  {
   "property": "C130",
   "status": "proved",
   "theorems": [
    "Tycho.KnownPeers.handles_agree",
    "Tycho.KnownPeers.insert_lost_in_race"
   ],
   "note": "insert_lost_in_race: an insertion between the two parts of a drop loses its entry"
  },
  {
   "property": "C131",
   "status": "proved",
   "theorems": [
    "Tycho.KnownPeers.ban_takes",
    "Tycho.KnownPeers.ban_lasts",
    "Tycho.KnownPeers.ban_forever",
    "Tycho.KnownPeers.ban_forgotten",
    "Tycho.KnownPeers.ban_lost_in_race"
   ],
   "note": "ban_forgotten: the ban of a peer with handles is forgotten with the last handle; ban_lost_in_race: a ban between the two parts of a drop is lost"
  },
  {
   "property": "C132",
   "status": "proved",
   "theorems": [
    "Tycho.KnownPeers.insert_exact",
    "Tycho.KnownPeers.update_exact",
    "Tycho.KnownPeers.make_exact"
   ],
   "note": ""
  },
  {
   "property": "C133",
   "status": "proved",
   "theorems": [
    "Tycho.KnownPeers.created_monotone"
   ],
   "note": ""
  },
  {
   "property": "C134",
   "status": "proved",
   "theorems": [
    "Tycho.KnownPeers.known_iff",
    "Tycho.KnownPeers.dead_entry_stays"
   ],
   "note": "dead_entry_stays: a temporary reference held across the last drop leaves an entry that leads nowhere"
  },
  {
   "property": "C135",
   "status": "proved",
   "theorems": [
    "Tycho.BlocksCache.received_never_fails",
    "Tycho.BlocksCache.received_result",
    "Tycho.BlocksCache.collated_result",
    "Tycho.BlocksCache.received_skipped_iff",
    "Tycho.BlocksCache.Examples.late_candidate_stored"
   ],
   "note": "late_candidate_stored: an own candidate is stored at a height that was accepted and taken out before"
  },
  {
   "property": "C136",
   "status": "proved",
   "theorems": [
    "Tycho.BlocksCache.accepted_increasing",
    "Tycho.BlocksCache.applied_is_accepted"
   ],
   "note": ""
  },
  {
   "property": "C137",
   "status": "proved",
   "theorems": [
    "Tycho.BlocksCache.range_bounds",
    "Tycho.BlocksCache.range_exact",
    "Tycho.BlocksCache.range_is_cached",
    "Tycho.BlocksCache.Examples.dangling_range",
    "Tycho.BlocksCache.Examples.removed_applied_block"
   ],
   "note": "dangling_range, removed_applied_block: without the hypotheses the range contains seqnos of blocks that are not cached"
  },
  {
   "property": "C138",
   "status": "proved",
   "theorems": [
    "Tycho.BlocksCache.pop_front_exact",
    "Tycho.BlocksCache.extract_exact",
    "Tycho.BlocksCache.parents_first",
    "Tycho.BlocksCache.peek_agrees_with_pop",
    "Tycho.BlocksCache.Examples.uneven_split_order"
   ],
   "note": "uneven_split_order: after an uneven split inside the subgraph the order is not the chain order"
  },
  {
   "property": "C139",
   "status": "proved",
   "theorems": [
    "Tycho.BlocksCache.commit_exact",
    "Tycho.BlocksCache.commit_sends_or_commits",
    "Tycho.BlocksCache.sent_was_validated",
    "Tycho.BlocksCache.sent_at_most_once",
    "Tycho.BlocksCache.Examples.validation_matched_by_seqno"
   ],
   "note": "validation_matched_by_seqno: a validation of a different block of the same seqno is enough"
  },
  {
   "property": "C14",
   "status": "proved",
   "theorems": [
    "Tycho.Queue.clear_messages",
    "Tycho.Queue.clear_tails",
    "Tycho.Queue.clear_statistics",
    "Tycho.Queue.clear_diffs",
    "Tycho.Queue.clear_pointers",
    "Tycho.Queue.linked_apply",
    "Tycho.Queue.linked_delete",
    "Tycho.Queue.clear_undoes_applies",
    "Tycho.Queue.reapply_after_clear",
    "Tycho.Queue.clear_statistics_edge",
    "Tycho.Queue.clear_leaves_other_partitions"
   ],
   "note": "Boundary cases clear_statistics_edge and clear_leaves_other_partitions are proved to be as described."
  },
  {
   "property": "C140",
   "status": "proved",
   "theorems": [
    "Tycho.BlocksCache.last_collated_consistent",
    "Tycho.BlocksCache.mismatch_forgets",
    "Tycho.BlocksCache.stored_is_last"
   ],
   "note": ""
  },
  {
   "property": "C141",
   "status": "proved",
   "theorems": [
    "Tycho.BlocksCache.top_shards_exact",
    "Tycho.BlocksCache.Examples.removed_funds_stay"
   ],
   "note": "removed_funds_stay: the funds of a removed candidate stay until they are reset"
  },
  {
   "property": "C142",
   "status": "proved",
   "theorems": [
    "Tycho.Cert.certified_sound",
    "Tycho.Cert.certified_complete",
    "Tycho.Cert.certified_iff",
    "Tycho.Cert.order_does_not_matter",
    "Tycho.Cert.certified_window",
    "Tycho.Cert.traversals_end",
    "Tycho.Cert.Examples.dropped_cuts"
   ],
   "note": "dropped_cuts: a dropped point between evidence and its history cuts the propagation"
  },
  {
   "property": "C143",
   "status": "proved",
   "theorems": [
    "Tycho.Cert.has_proof_iff",
    "Tycho.Cert.height_grows"
   ],
   "note": ""
  },
  {
   "property": "C144",
   "status": "proved",
   "theorems": [
    "Tycho.Cert.unmask_height",
    "Tycho.Cert.raise_packed",
    "Tycho.Cert.raise_retry",
    "Tycho.Cert.or_flags_packed",
    "Tycho.Cert.test_flags_packed"
   ],
   "note": ""
  },
  {
   "property": "C145",
   "status": "proved",
   "theorems": [
    "Tycho.BcastFilter.threshold_exact",
    "Tycho.BcastFilter.threshold_reported",
    "Tycho.BcastFilter.minority_fixed",
    "Tycho.BcastFilter.Examples.third_not_counted"
   ],
   "note": "third_not_counted: after two ill-formed points of an author a good third one is not counted"
  },
  {
   "property": "C146",
   "status": "proved",
   "theorems": [
    "Tycho.BcastFilter.kept_exact",
    "Tycho.BcastFilter.unheard_ignored",
    "Tycho.BcastFilter.duplicates_exact",
    "Tycho.BcastFilter.equivocation_exact",
    "Tycho.BcastFilter.has_point_iff",
    "Tycho.BcastFilter.clean_window"
   ],
   "note": ""
  },
  {
   "property": "C147",
   "status": "proved",
   "theorems": [
    "Tycho.BcastFilter.flush_delivers",
    "Tycho.BcastFilter.flush_in_order",
    "Tycho.BcastFilter.flush_never_panics",
    "Tycho.BcastFilter.opened_delivered",
    "Tycho.BcastFilter.removed_was_served",
    "Tycho.BcastFilter.delivered_was_heard",
    "Tycho.BcastFilter.Examples.clean_loses"
   ],
   "note": "clean_loses: a clean-up that removes a captured round during a flush can lose a point"
  },
  {
   "property": "C148",
   "status": "proved",
   "theorems": [
    "Tycho.Limiter.at_most",
    "Tycho.Limiter.permits_kept",
    "Tycho.Limiter.never_panics"
   ],
   "note": ""
  },
  {
   "property": "C149",
   "status": "proved",
   "theorems": [
    "Tycho.Limiter.waits_only_if_full",
    "Tycho.Limiter.no_deadlock",
    "Tycho.Limiter.every_step_counts",
    "Tycho.Limiter.all_served",
    "Tycho.Limiter.quiet_is_empty"
   ],
   "note": ""
  },
  {
   "property": "C15",
   "status": "proved",
   "theorems": [
    "Tycho.Queue.commit_old",
    "Tycho.Queue.commit_effect",
    "Tycho.Queue.commit_missing",
    "Tycho.Queue.gc_safe",
    "Tycho.Queue.gc_removes",
    "Tycho.Queue.committed_zone_frozen",
    "Tycho.Queue.mc_pointer_monotone",
    "Tycho.Queue.gc_skips_unrecorded_top",
    "Tycho.Queue.shard_pointer_can_regress",
    "Tycho.Queue.gc_statistics_edge"
   ],
   "note": "gc_skips_unrecorded_top shows that the restriction to top blocks with a recorded diff is needed; shard_pointer_can_regress that only the masterchain pointer is monotone."
  },
  {
   "property": "C150",
   "status": "proved",
   "theorems": [
    "Tycho.Limiter.highest_first",
    "Tycho.Limiter.leaving_lets_in",
    "Tycho.Limiter.no_overtaking",
    "Tycho.Limiter.aba_ignores_priority"
   ],
   "note": "aba_ignores_priority: the permit of a cancelled task may go to its own round although a higher one waits"
  },
  {
   "property": "C151",
   "status": "proved",
   "theorems": [
    "Tycho.InputBuffer.fetch_longest",
    "Tycho.InputBuffer.confirmed_is_gone",
    "Tycho.InputBuffer.failed_round_repeats",
    "Tycho.InputBuffer.repeat_keeps",
    "Tycho.InputBuffer.drains",
    "Tycho.InputBuffer.large_blocks"
   ],
   "note": "large_blocks: a message between batch and buffer size stops all externals of the node until evicted"
  },
  {
   "property": "C152",
   "status": "proved",
   "theorems": [
    "Tycho.InputBuffer.buffer_is_tail",
    "Tycho.InputBuffer.buffer_bounded",
    "Tycho.InputBuffer.push_evicts_least",
    "Tycho.InputBuffer.nothing_lost",
    "Tycho.InputBuffer.conf_exact",
    "Tycho.InputBuffer.never_panics",
    "Tycho.InputBuffer.too_large_panics"
   ],
   "note": "too_large_panics: shown on a concrete history"
  },
  {
   "property": "C153",
   "status": "proved",
   "theorems": [
    "Tycho.Bans.ban_iff_too_many"
   ],
   "note": ""
  },
  {
   "property": "C154",
   "status": "proved",
   "theorems": [
    "Tycho.Bans.ban_is_longest",
    "Tycho.Bans.network_agrees",
    "Tycho.Bans.never_shorter",
    "Tycho.Bans.lifted_only_when",
    "Tycho.Bans.manual_ban_holds",
    "Tycho.Bans.unban_lifts",
    "Tycho.Bans.ban_ends",
    "Tycho.Bans.scheduler_drains",
    "Tycho.Bans.never_panics"
   ],
   "note": "DelayQueue is modelled by its documented behaviour; its limit of about 2.2 years is not represented although the configuration allows up to 4"
  },
  {
   "property": "C155",
   "status": "proved",
   "theorems": [
    "Tycho.Bans.restart_reads_disk",
    "Tycho.Bans.restart_keeps",
    "Tycho.Bans.restart_makes_nothing_up",
    "Tycho.Bans.clean_unseen",
    "Tycho.Bans.restored_bans",
    "Tycho.Bans.disk_grows",
    "Tycho.Bans.crash_loses_unwritten"
   ],
   "note": "a ban that has not reached the disk is lost by a crash (crash_loses_unwritten); the clock is taken not to go back over a restart"
  },
  {
   "property": "C156",
   "status": "proved",
   "theorems": [
    "Tycho.Slasher.told_once",
    "Tycho.Slasher.sent_is_observed",
    "Tycho.Slasher.sent_once",
    "Tycho.Slasher.all_sent",
    "Tycho.Slasher.ranges_disjoint"
   ],
   "note": "a change of the batch size loses the batch being filled (resize_loses) and may make a batch overlap one already sent, which the contract refuses (resized_batch_overlaps)"
  },
  {
   "property": "C157",
   "status": "proved",
   "theorems": [
    "Tycho.Slasher.accepted_next",
    "Tycho.Slasher.accepted_well_made",
    "Tycho.Slasher.accepted_readable",
    "Tycho.Slasher.accepted_analyzed"
   ],
   "note": "signatures of messages and cells are not modelled"
  },
  {
   "property": "C158",
   "status": "proved",
   "theorems": [
    "Tycho.Slasher.accused_iff",
    "Tycho.Slasher.minority_cannot_accuse",
    "Tycho.Slasher.never_self",
    "Tycho.Slasher.sampled_iff",
    "Tycho.Slasher.counts_exact",
    "Tycho.Slasher.valid_le_samples",
    "Tycho.Slasher.counts_local",
    "Tycho.Slasher.accuses_slow",
    "Tycho.Slasher.at_most_half",
    "Tycho.Slasher.fast_not_slow",
    "Tycho.Slasher.upper_half_not_slow",
    "Tycho.Slasher.silent_is_slow"
   ],
   "note": "the comparison of rates is over the reals, not floating point; the rest leaves it open"
  },
  {
   "property": "C159",
   "status": "proved",
   "theorems": [
    "Tycho.SplitMerge.never_fails",
    "Tycho.SplitMerge.fails_empty",
    "Tycho.SplitMerge.splits_exactly",
    "Tycho.SplitMerge.carries_over",
    "Tycho.SplitMerge.adds_exactly"
   ],
   "note": "merges and new workchains beside others are never listed (merge_not_listed, new_workchain_not_added); from no shards the splits listed after the adds are of shards that are not there (splits_after_adds)"
  },
  {
   "property": "C16",
   "status": "proved",
   "theorems": [
    "Tycho.BlockMeta.addFlags_effect",
    "Tycho.BlockMeta.removeFlags_effect",
    "Tycho.BlockMeta.addFlags_reports_change",
    "Tycho.BlockMeta.removeFlags_reports_change",
    "Tycho.BlockMeta.withData_reads_back",
    "Tycho.BlockMeta.stored_form",
    "Tycho.BlockMeta.updates_act_on_flags",
    "Tycho.BlockMeta.flags_distinct",
    "Tycho.BlockMeta.retained_iff",
    "Tycho.BlockMeta.gc_keeps_iff",
    "Tycho.BlockMeta.hasPart_iff"
   ],
   "note": "Flags, packed word, stored form, retention and cache gc decision."
  },
  {
   "property": "C160",
   "status": "proved",
   "theorems": [
    "Tycho.PersistentSave.started_iff",
    "Tycho.PersistentSave.stored_wanted",
    "Tycho.PersistentSave.made_iff"
   ],
   "note": "findings: crash_after_save_loses_state (a crash between saving a key block and the decision: its state is never made), cold_boot_makes_unwanted and cold_boot_misses_wanted (newer key blocks on disk after a cold boot)"
  },
  {
   "property": "C161",
   "status": "proved",
   "theorems": [
    "Tycho.PersistentSave.begun_stored_or_pending",
    "Tycho.PersistentSave.one_at_a_time",
    "Tycho.PersistentSave.resumed_after_restart",
    "Tycho.PersistentSave.all_can_complete"
   ],
   "note": ""
  },
  {
   "property": "C162",
   "status": "proved",
   "theorems": [
    "Tycho.CollationStep.collates_iff",
    "Tycho.CollationStep.time_reported",
    "Tycho.CollationStep.time_grows",
    "Tycho.CollationStep.intervals_kept",
    "Tycho.CollationStep.after_collate"
   ],
   "note": ""
  },
  {
   "property": "C163",
   "status": "proved",
   "theorems": [
    "Tycho.CollationStep.never_stuck",
    "Tycho.CollationStep.ready_agrees",
    "Tycho.CollationStep.waits_for_working_master",
    "Tycho.CollationStep.last_one_collates",
    "Tycho.CollationStep.who_goes_on"
   ],
   "note": "findings: all_can_wait (a shard ahead of a forced master block can leave all collators waiting), gone_shard_stops_master (states of shards without a session are never removed)"
  },
  {
   "property": "C164",
   "status": "proved",
   "theorems": [
    "Tycho.Broadcaster.no_panic",
    "Tycho.Broadcaster.one_query",
    "Tycho.Broadcaster.queries_bounded",
    "Tycho.Broadcaster.lost_iff",
    "Tycho.Broadcaster.sent_to_present"
   ],
   "note": ""
  },
  {
   "property": "C165",
   "status": "proved",
   "theorems": [
    "Tycho.Broadcaster.not_forgotten",
    "Tycho.Broadcaster.attempt_asks_all",
    "Tycho.Broadcaster.wrap_sends_all",
    "Tycho.Broadcaster.return_told",
    "Tycho.Broadcaster.missing_point_sent"
   ],
   "note": "finding nonsigner_not_retried; signed_and_refused"
  },
  {
   "property": "C166",
   "status": "proved",
   "theorems": [
    "Tycho.Broadcaster.evidence_good",
    "Tycho.Broadcaster.evidence_of_others",
    "Tycho.Broadcaster.ok_means",
    "Tycho.Broadcaster.ok_when",
    "Tycho.Broadcaster.ok_sent",
    "Tycho.Broadcaster.err_means",
    "Tycho.Broadcaster.err_ends",
    "Tycho.Broadcaster.one_signal"
   ],
   "note": "finding nonsigners_fail_run: malformed answers of peers that are no signers count as refusals"
  },
  {
   "property": "C167",
   "status": "proved",
   "theorems": [
    "Tycho.Broadcaster.ready_means",
    "Tycho.Broadcaster.failed_means",
    "Tycho.Broadcaster.ends_when_ready",
    "Tycho.Broadcaster.round_goes_on",
    "Tycho.Broadcaster.rounds_end"
   ],
   "note": ""
  },
  {
   "property": "C168",
   "status": "proved",
   "theorems": [
    "Tycho.Downloader.notFound_sound",
    "Tycho.Downloader.notFound_prompt",
    "Tycho.Downloader.never_given_up",
    "Tycho.Downloader.point_sound",
    "Tycho.Downloader.point_ends"
   ],
   "note": ""
  },
  {
   "property": "C169",
   "status": "proved",
   "theorems": [
    "Tycho.Downloader.no_panic",
    "Tycho.Downloader.pending_bound",
    "Tycho.Downloader.asked_once",
    "Tycho.Downloader.asked_who"
   ],
   "note": ""
  },
  {
   "property": "C17",
   "status": "proved",
   "theorems": [
    "Tycho.BlockProof.checkSignatures_iff",
    "Tycho.BlockProof.accepted_signatures_have_quorum",
    "Tycho.BlockProof.two_accepted_share_a_third",
    "Tycho.BlockProof.weightless_subset_accepts_nothing",
    "Tycho.BlockProof.preCheck_agrees",
    "Tycho.BlockProof.accepted_by_key_block",
    "Tycho.BlockProof.accepted_by_master_state",
    "Tycho.BlockProof.key_chain_trusted",
    "Tycho.BlockProof.proof_link_unsigned"
   ],
   "note": "tycho_types' check_signatures is a parameter with contract SoundSignatureCheck (weight of distinct signers); subset computation is a parameter. Covers check_with_prev_key_block_proof, check_with_master_state, chains of key blocks."
  },
  {
   "property": "C170",
   "status": "proved",
   "theorems": [
    "Tycho.Downloader.running_left",
    "Tycho.Downloader.left_iff",
    "Tycho.Downloader.tick_asks",
    "Tycho.Downloader.take_best"
   ],
   "note": "findings author_not_first, depender_late, failed_again"
  },
  {
   "property": "C171",
   "status": "proved",
   "theorems": [
    "Tycho.OrderedMap.upsert_spec",
    "Tycho.OrderedMap.bounded",
    "Tycho.OrderedMap.max_spec",
    "Tycho.OrderedMap.remove_spec",
    "Tycho.OrderedMap.fromIter_spec",
    "Tycho.OrderedMap.keeps_greatest"
   ],
   "note": "with falling updates the kept entries need not be the greatest ever offered: falling"
  },
  {
   "property": "C172",
   "status": "proved",
   "theorems": [
    "Tycho.Neighbours.chosen_by_weight",
    "Tycho.Neighbours.chosen_by_present",
    "Tycho.Neighbours.choose_many"
   ],
   "note": "findings: sorted_spoils (get_sorted_neighbours, unused, spoils the index), many_misses_reliable"
  },
  {
   "property": "C173",
   "status": "proved",
   "theorems": [
    "Tycho.Neighbours.set_bounded",
    "Tycho.Neighbours.set_kept",
    "Tycho.Neighbours.update_begins",
    "Tycho.Neighbours.update_ends",
    "Tycho.Neighbours.clean_begins",
    "Tycho.Neighbours.clean_ends",
    "Tycho.Neighbours.version_grows"
   ],
   "note": "findings: update_brings_back (an update at work brings back a neighbour just removed), update_drops_good, update_adds_twice"
  },
  {
   "property": "C174",
   "status": "proved",
   "theorems": [
    "Tycho.Neighbours.scores_bounded",
    "Tycho.Neighbours.history_aux",
    "Tycho.Neighbours.selection_spec",
    "Tycho.Neighbours.average_of_four",
    "Tycho.Neighbours.failures_in_a_row",
    "Tycho.Neighbours.successes_in_a_row",
    "Tycho.Neighbours.malicious",
    "Tycho.Neighbours.fine_spec"
   ],
   "note": "finding: no_time_no_bonus"
  },
  {
   "property": "C175",
   "status": "proved",
   "theorems": [
    "Tycho.RateLimit.rate_kept",
    "Tycho.RateLimit.interval_spec",
    "Tycho.RateLimit.within_rate",
    "Tycho.RateLimit.conforming_allowed",
    "Tycho.RateLimit.granted_within",
    "Tycho.RateLimit.rejected_rightly",
    "Tycho.RateLimit.round_ends",
    "Tycho.RateLimit.retry_progress"
   ],
   "note": "findings: burst_again (states kept too short), rate_rounded (501..999 a second are served as 500), first_limit"
  },
  {
   "property": "C176",
   "status": "proved",
   "theorems": [
    "Tycho.RateLimit.retry_not_earlier",
    "Tycho.RateLimit.retry_in_time"
   ],
   "note": "the conditions on the configuration are needed: cooldown_escaped, too_early"
  },
  {
   "property": "C177",
   "status": "proved",
   "theorems": [
    "Tycho.RateLimit.cooldown_begins",
    "Tycho.RateLimit.in_cooldown",
    "Tycho.RateLimit.counting",
    "Tycho.RateLimit.no_panic"
   ],
   "note": "finding: cooldown_escaped (a silent peer escapes a cooldown longer than the time states are kept)"
  },
  {
   "property": "C178",
   "status": "proved",
   "theorems": [
    "Tycho.Lookup.find_value_asks",
    "Tycho.Lookup.find_value_found",
    "Tycho.Lookup.find_value_none",
    "Tycho.Lookup.find_value_goes_on"
   ],
   "note": "distance is the place of the highest differing bit, as in the code; finding: target_never_asked"
  },
  {
   "property": "C179",
   "status": "proved",
   "theorems": [
    "Tycho.Lookup.find_peers_no_panic",
    "Tycho.Lookup.find_peers_asks",
    "Tycho.Lookup.find_peers_result",
    "Tycho.Lookup.find_peers_exhausted"
   ],
   "note": "findings: depth_limit_depends_on_order (a lowered depth is not passed on), banned_in_result"
  },
  {
   "property": "C18",
   "status": "proved",
   "theorems": [
    "Tycho.Dht.local_never_stored",
    "Tycho.Dht.stored_once",
    "Tycho.Dht.bucket_bound",
    "Tycho.Dht.contains_iff",
    "Tycho.Dht.add_answer",
    "Tycho.Dht.add_effect",
    "Tycho.Dht.add_refused",
    "Tycho.Dht.closest_length",
    "Tycho.Dht.closest_sound",
    "Tycho.Dht.closest_order",
    "Tycho.Dht.closest_progress",
    "Tycho.Dht.closest_not_nearest_first"
   ],
   "note": "closest is proved to follow the visit order of the code; nearest-first is refuted by Tycho.Dht.closest_not_nearest_first"
  },
  {
   "property": "C180",
   "status": "proved",
   "theorems": [
    "Tycho.SharedFut.inner_polled_alone",
    "Tycho.SharedFut.output_stays",
    "Tycho.SharedFut.results",
    "Tycho.SharedFut.poisoned",
    "Tycho.SharedFut.no_unreachable"
   ],
   "note": "sequentially consistent; finding: nobody_last (two that take the output at once are both not the last)"
  },
  {
   "property": "C181",
   "status": "proved",
   "theorems": [
    "Tycho.SharedFut.no_lost_wakeup",
    "Tycho.SharedFut.wake_reaches",
    "Tycho.SharedFut.handed_on",
    "Tycho.SharedFut.after_completion",
    "Tycho.SharedFut.all_complete"
   ],
   "note": "WeakShared is not modelled; finding: completed_blocks (a completed clone that is kept keeps the permit)"
  },
  {
   "property": "C182",
   "status": "proved",
   "theorems": [
    "Tycho.QueryCache.one_in_flight",
    "Tycho.QueryCache.call",
    "Tycho.QueryCache.entry_kept",
    "Tycho.QueryCache.no_leak"
   ],
   "note": "finding: entry_stays (two that let go at once are both not the last: the entry stays till the key is asked for again)"
  },
  {
   "property": "C183",
   "status": "proved",
   "theorems": [
    "Tycho.Reclaim.kept",
    "Tycho.Reclaim.bounded",
    "Tycho.Reclaim.no_deadlock"
   ],
   "note": "the flags of the thread (drop in place) are not modelled; finding: worker_spins"
  },
  {
   "property": "C184",
   "status": "proved",
   "theorems": [
    "Tycho.Slicer.solve_spec",
    "Tycho.Slicer.allocConstraints_spec",
    "Tycho.Slicer.overflowingAlloc_spec",
    "Tycho.Slicer.exact_valid",
    "Tycho.Slicer.range_valid"
   ],
   "note": "the vector result is a function of the index; u64 sums that overflow are left out by Valid"
  },
  {
   "property": "C185",
   "status": "proved",
   "theorems": [
    "Tycho.Slicer.conserved",
    "Tycho.Slicer.allocInRange_spec",
    "Tycho.Slicer.allocRatio_spec"
   ],
   "note": "snapshot, which copies the available amount on purpose, is not one of the calls"
  },
  {
   "property": "C186",
   "status": "proved",
   "theorems": [
    "Tycho.RoundWatch.get_greatest",
    "Tycho.RoundWatch.setMax_true",
    "Tycho.RoundWatch.next_grows",
    "Tycho.RoundWatch.next_newest",
    "Tycho.RoundWatch.next_misses_none"
   ],
   "note": "tokio's watch channel is modelled as a value with a version"
  },
  {
   "property": "C19",
   "status": "proved",
   "theorems": [
    "Tycho.Subs.notify_exact",
    "Tycho.Subs.notify_quiet",
    "Tycho.Subs.notify_owner",
    "Tycho.Subs.notify_nodup",
    "Tycho.Subs.list_exact",
    "Tycho.Subs.tracked_bound",
    "Tycho.Subs.clients_bound",
    "Tycho.Subs.quiet_addresses",
    "Tycho.Subs.quiet_clients",
    "Tycho.Subs.subscribe_done",
    "Tycho.Subs.unsubscribe_done",
    "Tycho.Subs.purge_done",
    "Tycho.Subs.step_want",
    "Tycho.Subs.refused_only_when_full",
    "Tycho.Subs.progress",
    "Tycho.Subs.stale_call_misdirects"
   ],
   "note": "Executions without calls on removed clients (the property's restriction); stale_call_misdirects shows it is needed. Address-side theorems hold in every execution."
  },
  {
   "property": "C20",
   "status": "proved",
   "theorems": [
    "Tycho.Signing.signs_one_version",
    "Tycho.Signing.signs_one_version_clean",
    "Tycho.Signing.signs_one_version_one_restart",
    "Tycho.Signing.signs_one_version_fix",
    "Tycho.Signing.signs_in_window",
    "Tycho.Signing.signs_stored_valid",
    "Tycho.Signing.answer_irreversible",
    "Tycho.Signing.reject_is_final",
    "Tycho.Signing.respond_window",
    "Tycho.Signing.never_panics",
    "Tycho.Signing.two_restarts_sign_two_versions"
   ],
   "note": "The full statement over arbitrarily many restarts is false of the code: two_restarts_sign_two_versions is the counterexample, and the code's own comment in acquire_restore accepts signing forks after a stall. Proved: for runs whose restarts, except the last, are clean; in particular for any single crash."
  },
  {
   "property": "C21",
   "status": "partial",
   "theorems": [
    "Tycho.Median.avg_exact_partial",
    "Tycho.Median.avg_overflow_exceeds_all_samples"
   ],
   "note": "Exact while the total fits. The last clause (between least and greatest sample) is false of the code: the restart after overflow counts old average + new sample as one sample; negation proved with a witness."
  },
  {
   "property": "C22",
   "status": "proved",
   "theorems": [
    "Tycho.BlockMeta.mergeOp_is_or",
    "Tycho.BlockMeta.merge_order_irrelevant",
    "Tycho.BlockMeta.stored_follows_memory",
    "Tycho.BlockMeta.stored_keeps_seqno"
   ],
   "note": "Atomic word operations are single steps; RocksDB merge applies operands in some order."
  },
  {
   "property": "C23",
   "status": "proved",
   "theorems": [
    "Tycho.QueueDiffTl.diff_reads_back",
    "Tycho.QueueDiffTl.accepted_diff_is_canonical",
    "Tycho.QueueDiffTl.one_encoding_per_diff",
    "Tycho.QueueDiffTl.accepted_diff_no_repetition",
    "Tycho.QueueDiffTl.accepted_diff_list_is_chain",
    "Tycho.QueueDiffTl.diff_list_reads_back",
    "Tycho.QueueDiffTl.big_bytes_read_back",
    "Tycho.QueueDiffTl.big_bytes_bounded",
    "Tycho.QueueDiffTl.big_bytes_padding_unchecked"
   ],
   "note": "ShardIdent::new and the file hash are parameters. Byte strings are shown not to be canonical (padding unchecked)."
  },
  {
   "property": "C24",
   "status": "proved",
   "theorems": [
    "Tycho.Commit.nodes_agree",
    "Tycho.Commit.nodes_same_histories"
   ],
   "note": "Both nodes start at the genesis, have no gap and no failing commit; ids name contents; one chain of proofs."
  },
  {
   "property": "C25",
   "status": "proved",
   "theorems": [
    "Tycho.Commit.executable_complete"
   ],
   "note": "For runs as the engine makes them; a start after a gap must not be within the history depth above the genesis (see finding c in DESIGN)."
  },
  {
   "property": "C26",
   "status": "proved",
   "theorems": [
    "Tycho.Dht.xorDistance_eq",
    "Tycho.Dht.xorDistance_zero",
    "Tycho.Dht.xorDistance_le",
    "Tycho.Dht.xorDistance_comm",
    "Tycho.Dht.xorDistance_triangle",
    "Tycho.Dht.xorDistance_of_ne",
    "Tycho.Dht.xorDistance_of_eq",
    "Tycho.Dht.randomKeyAt_le",
    "Tycho.Dht.randomKeyAt_onto"
   ],
   "note": ""
  },
  {
   "property": "C27",
   "status": "proved",
   "theorems": [
    "Tycho.Counters.counters_agree",
    "Tycho.Counters.no_leftovers",
    "Tycho.Counters.prepareOrder_sorted",
    "Tycho.Counters.reload_repr"
   ],
   "note": "Refinement of the tiered store to a map, over all histories with the caller contract; snapshot round trip for any lossless bitmap format; the debug assertion on order."
  },
  {
   "property": "C28",
   "status": "proved",
   "theorems": [
    "Tycho.CellStore.run_sound",
    "Tycho.CellStore.run_progress",
    "Tycho.CellStore.all_removed",
    "Tycho.CellStore.schedule_independent"
   ],
   "note": "Removals are proved for split sets whose subtrees occur once in the removed tree; delayed_removal_leaks shows that the code leaks cells otherwise."
  },
  {
   "property": "C29",
   "status": "proved",
   "theorems": [
    "Tycho.CellStore.run_sound",
    "Tycho.CellStore.store_promotes",
    "Tycho.CellStore.flush_persists"
   ],
   "note": "Readers are assumed not to load cells that a pending batch deletes; read_of_deleted_cell_stays, stale_row_is_reused and promoted_cell_disappears_for_a_while show the windows."
  },
  {
   "property": "C30",
   "status": "proved",
   "theorems": [
    "Tycho.NurseryWal.record_round_trip",
    "Tycho.NurseryWal.record_injective",
    "Tycho.NurseryWal.record_torn",
    "Tycho.NurseryWal.record_hash"
   ],
   "note": "Byte-exact record format; hash is any 32-byte function."
  },
  {
   "property": "C31",
   "status": "proved",
   "theorems": [
    "Tycho.NurseryWal.restart_recovers",
    "Tycho.NurseryWal.running_nursery",
    "Tycho.NurseryWal.stage_possible",
    "Tycho.NurseryWal.applyCommit_get",
    "Tycho.NurseryWal.applyCommit_isSome"
   ],
   "note": "Crash of the process at any step or within a file write; batch atomic; no power loss."
  },
  {
   "property": "C32",
   "status": "proved",
   "theorems": [
    "Tycho.Merge.refcount_regroup",
    "Tycho.Merge.mergeRc_stored",
    "Tycho.Merge.archive_regroup",
    "Tycho.Merge.mergeArchive_stored"
   ],
   "note": "All groupings of merge operands; block handles are covered by C22."
  },
  {
   "property": "C33",
   "status": "proved",
   "theorems": [
    "Tycho.Merge.status_round_trip",
    "Tycho.Merge.status_merge_meaning",
    "Tycho.Merge.status_regroup",
    "Tycho.Merge.status_regroup_eq",
    "Tycho.Merge.status_perm",
    "Tycho.Merge.cause_depends_on_grouping"
   ],
   "note": "Which of several causes of the same kind remains depends on the grouping (cause_depends_on_grouping)."
  },
  {
   "property": "C34",
   "status": "proved",
   "theorems": [
    "Tycho.Merge.journal_point_regroup"
   ],
   "note": ""
  },
  {
   "property": "C35",
   "status": "proved",
   "theorems": [
    "Tycho.Journal.journal_keeps_points",
    "Tycho.Journal.journal_store_records",
    "Tycho.Journal.journal_clean_records"
   ],
   "note": "Assumes event keys are new, a point's bytes are determined by its key, events carry a point at most once."
  },
  {
   "property": "C36",
   "status": "proved",
   "theorems": [
    "Tycho.IntrusiveList.intrusive_list_correct",
    "Tycho.IntrusiveList.rep_walk"
   ],
   "note": "all call sequences that keep the documented contract, any number of lists on one heap"
  },
  {
   "property": "C37",
   "status": "proved",
   "theorems": [
    "Tycho.MsgBuffer.fill_correct",
    "Tycho.MsgBuffer.history_from_init",
    "Tycho.MsgBuffer.addMessage_appends",
    "Tycho.MsgBuffer.removeAccounts_drops"
   ],
   "note": "fill_correct for every buffer and group, history_from_init for all histories (several buffers, one group, transactions)."
  },
  {
   "property": "C38",
   "status": "proved",
   "theorems": [
    "Tycho.MsgBuffer.rollback_exact",
    "Tycho.MsgBuffer.commit_keeps"
   ],
   "note": "Exact equality of the buffer after rollback, for all histories."
  },
  {
   "property": "C39",
   "status": "proved",
   "theorems": [
    "Tycho.MsgBuffer.addGroup_correct",
    "Tycho.MsgBuffer.isFilled_sound"
   ],
   "note": "Converse of the filled check fails because of stale index entries (see DESIGN.md)."
  },
  {
   "property": "C40",
   "status": "proved",
   "theorems": [
    "Tycho.Validator.complete_final",
    "Tycho.Validator.Final.mem",
    "Tycho.Validator.newCfg_ok"
   ],
   "note": "saturating threshold above 2^63 is excluded by hypothesis (finding in Examples)"
  },
  {
   "property": "C41",
   "status": "proved",
   "theorems": [
    "Tycho.Validator.finals_intersect",
    "Tycho.Validator.complete_agree"
   ],
   "note": ""
  },
  {
   "property": "C42",
   "status": "proved",
   "theorems": [
    "Tycho.Validator.no_equivocation"
   ],
   "note": "the exception for cancelled seqnos is real, see the finding in Examples"
  },
  {
   "property": "C43",
   "status": "proved",
   "theorems": [
    "Tycho.Validator.stored_kept",
    "Tycho.Validator.validated_weight",
    "Tycho.Validator.never_exhausted",
    "Tycho.Validator.waits_for_rest"
   ],
   "note": ""
  },
  {
   "property": "C44",
   "status": "proved",
   "theorems": [
    "Tycho.Validator.cancel_reaches",
    "Tycho.Validator.cancel_skips",
    "Tycho.Validator.cancel_reaches_all"
   ],
   "note": ""
  },
  {
   "property": "C45",
   "status": "proved",
   "theorems": [
    "Tycho.Verifier.anchor_links_lead_to_anchors"
   ],
   "note": "Model of verify and validate as functions of the point and the answers in their order of arrival; World, Accepted and History are in Verifier/Spec.lean."
  },
  {
   "property": "C46",
   "status": "proved",
   "theorems": [
    "Tycho.Verifier.named_anchor_is_newest",
    "Tycho.Verifier.named_anchor_round_monotone"
   ],
   "note": "Model of verify and validate as functions of the point and the answers in their order of arrival; World, Accepted and History are in Verifier/Spec.lean."
  },
  {
   "property": "C47",
   "status": "proved",
   "theorems": [
    "Tycho.Verifier.anchor_time_is_candidate_time",
    "Tycho.Verifier.point_later_than_its_anchor",
    "Tycho.Verifier.same_proof_same_anchor_time"
   ],
   "note": "Model of verify and validate as functions of the point and the answers in their order of arrival; World, Accepted and History are in Verifier/Spec.lean."
  },
  {
   "property": "C48",
   "status": "proved",
   "theorems": [
    "Tycho.Verifier.author_time_strictly_increases",
    "Tycho.Verifier.history_time_bound"
   ],
   "note": "Model of verify and validate as functions of the point and the answers in their order of arrival; World, Accepted and History are in Verifier/Spec.lean."
  },
  {
   "property": "C49",
   "status": "proved",
   "theorems": [
    "Tycho.Verifier.proof_is_followed_by_trigger",
    "Tycho.Verifier.trigger_follows_proof",
    "Tycho.Verifier.proof_by_leader",
    "Tycho.Verifier.leader_must_prove",
    "Tycho.Verifier.sticky_runs"
   ],
   "note": "Model of verify and validate as functions of the point and the answers in their order of arrival; World, Accepted and History are in Verifier/Spec.lean."
  },
  {
   "property": "C50",
   "status": "proved",
   "theorems": [
    "Tycho.Verifier.chained_proof_is_newest",
    "Tycho.Verifier.proof_chain_reaches_genesis"
   ],
   "note": "Model of verify and validate as functions of the point and the answers in their order of arrival; World, Accepted and History are in Verifier/Spec.lean."
  },
  {
   "property": "C51",
   "status": "proved",
   "theorems": [
    "Tycho.Verifier.trigger_matches_proof",
    "Tycho.Verifier.trigger_matches_chained_proof"
   ],
   "note": "Model of verify and validate as functions of the point and the answers in their order of arrival; World, Accepted and History are in Verifier/Spec.lean."
  },
  {
   "property": "C52",
   "status": "proved",
   "theorems": [
    "Tycho.Verifier.validate_no_panic",
    "Tycho.Verifier.accessors_no_panic"
   ],
   "note": "Model of verify and validate as functions of the point and the answers in their order of arrival; World, Accepted and History are in Verifier/Spec.lean."
  },
  {
   "property": "C53",
   "status": "proved",
   "theorems": [
    "Tycho.Verifier.verdict_order_independent"
   ],
   "note": "Model of verify and validate as functions of the point and the answers in their order of arrival; World, Accepted and History are in Verifier/Spec.lean."
  },
  {
   "property": "C54",
   "status": "proved",
   "theorems": [
    "Tycho.Verifier.verdict_root_cause",
    "Tycho.Verifier.trans_invalid_expires"
   ],
   "note": "Model of verify and validate as functions of the point and the answers in their order of arrival; World, Accepted and History are in Verifier/Spec.lean."
  },
  {
   "property": "C55",
   "status": "proved",
   "theorems": [
    "Tycho.Verifier.includes_quorums_intersect",
    "Tycho.Verifier.two_proven_points_need_double_signers"
   ],
   "note": "Model of verify and validate as functions of the point and the answers in their order of arrival; World, Accepted and History are in Verifier/Spec.lean."
  },
  {
   "property": "C56",
   "status": "proved",
   "theorems": [
    "Tycho.Verifier.skipped_previous_point",
    "Tycho.Verifier.dependencies_found"
   ],
   "note": "Model of verify and validate as functions of the point and the answers in their order of arrival; World, Accepted and History are in Verifier/Spec.lean."
  },
  {
   "property": "C57",
   "status": "proved",
   "theorems": [
    "Tycho.Producer.produced_point_verified",
    "Tycho.Producer.produced_point_valid",
    "Tycho.Producer.produced_point_accepted"
   ],
   "note": "The situation of an honest node is Producer/Spec.lean Ready; Examples.lean shows instances, and why anchorsClock and soleProof are needed (findings)."
  },
  {
   "property": "C58",
   "status": "proved",
   "theorems": [
    "Tycho.Producer.create_no_panic"
   ],
   "note": "The situation of an honest node is Producer/Spec.lean Ready; Examples.lean shows instances, and why anchorsClock and soleProof are needed (findings)."
  },
  {
   "property": "C59",
   "status": "proved",
   "theorems": [
    "Tycho.Threshold.threshold_no_panic",
    "Tycho.Threshold.threshold_conserves",
    "Tycho.Threshold.threshold_counts"
   ],
   "note": "Small-step concurrent model; Legal (Threshold/Spec.lean) states how callers use it."
  },
  {
   "property": "C60",
   "status": "proved",
   "theorems": [
    "Tycho.Threshold.get_reached_result",
    "Tycho.Threshold.get_reached_complete",
    "Tycho.Threshold.reached_can_finish"
   ],
   "note": "Small-step concurrent model; Legal (Threshold/Spec.lean) states how callers use it."
  },
  {
   "property": "C61",
   "status": "proved",
   "theorems": [
    "Tycho.Anchors.anchors_rollback_restores",
    "Tycho.Anchors.anchors_commit_applies"
   ],
   "note": "Transactions and the cache modelled operation by operation; specQueue is the specification."
  },
  {
   "property": "C62",
   "status": "proved",
   "theorems": [
    "Tycho.Anchors.anchors_cache_is_queue",
    "Tycho.Anchors.last_info_at_ct_predicts",
    "Tycho.Anchors.last_info_is_last_import"
   ],
   "note": "Transactions and the cache modelled operation by operation; specQueue is the specification."
  },
  {
   "property": "C63",
   "status": "proved",
   "theorems": [
    "Tycho.CumulStats.cumulative_counts_exact",
    "Tycho.CumulStats.view_agrees"
   ],
   "note": "Statistics modelled function by function; Spec.lean is the specification (sum over all diffs); legal use: disjoint shards, positions do not go back, a diff added once with counts above zero."
  },
  {
   "property": "C64",
   "status": "proved",
   "theorems": [
    "Tycho.CumulStats.rollback_restores_counts",
    "Tycho.CumulStats.commit_transparent"
   ],
   "note": "Statistics modelled function by function; Spec.lean is the specification (sum over all diffs); legal use: disjoint shards, positions do not go back, a diff added once with counts above zero."
  },
  {
   "property": "C65",
   "status": "proved",
   "theorems": [
    "Tycho.CumulStats.remaining_total_exact",
    "Tycho.CumulStats.aggregated_exact"
   ],
   "note": "Statistics modelled function by function; Spec.lean is the specification (sum over all diffs); legal use: disjoint shards, positions do not go back, a diff added once with counts above zero."
  },
  {
   "property": "C66",
   "status": "proved",
   "theorems": [
    "Tycho.QueueStateFile.queue_state_reads_back",
    "Tycho.QueueStateFile.queue_state_readable_iff",
    "Tycho.QueueStateFile.heavy_queue_state_is_unreadable",
    "Tycho.QueueStateFile.stored_block_tail_reads_back",
    "Tycho.QueueStateFile.long_tail_is_unreadable"
   ],
   "note": "Bags of cells by laws (Spec.Laws). Two limits of the code are proved as such: chunks closed at 10 MB and tails over 1000 diffs make unreadable files."
  },
  {
   "property": "C67",
   "status": "proved",
   "theorems": [
    "Tycho.QueueStateFile.accepted_queue_state_is_complete",
    "Tycho.QueueStateFile.queue_state_determined_by_block",
    "Tycho.QueueStateFile.reading_ends"
   ],
   "note": "Hash collisions are an alternative in the conclusion; a chunk without roots loops, proved to be the only way."
  },
  {
   "property": "C68",
   "status": "proved",
   "theorems": [
    "Tycho.QueueFill.three_ways_agree",
    "Tycho.QueueFill.import_commits_newest",
    "Tycho.QueueFill.import_rejects",
    "Tycho.QueueFill.own_diff_independent",
    "Tycho.QueueFill.own_diff_readable",
    "Tycho.QueueFill.filled_unique",
    "Tycho.QueueFill.received_diff_needs_all_messages",
    "Tycho.QueueFill.anycast_counts_differ",
    "Tycho.QueueFill.double_listing_differs"
   ],
   "note": "Hypotheses BlocksOk: standard addresses, one anycast per account, distinct max_message and seqno, no hash collision; two inputs outside them where nodes differ are proved to differ."
  },
  {
   "property": "C69",
   "status": "proved",
   "theorems": [
    "Tycho.QueueFill.reset_routes",
    "Tycho.QueueFill.reset_order_independent",
    "Tycho.QueueFill.insert_zero_refused"
   ],
   "note": "Statistics of standard addresses, one entry per account; shard containment is a parameter with disjointness."
  },
  {
   "property": "C70",
   "status": "proved",
   "theorems": [
    "Tycho.Strider.shard_block_in_order",
    "Tycho.Strider.master_block_after_its_shards",
    "Tycho.Strider.phases_in_order",
    "Tycho.Strider.top_flag"
   ],
   "note": "hypotheses on the chain: WorldOk (met by the infinite example chain, ex_world)"
  },
  {
   "property": "C71",
   "status": "proved",
   "theorems": [
    "Tycho.Strider.no_block_skipped",
    "Tycho.Strider.committed_exactly_once",
    "Tycho.Strider.handled_once_per_run",
    "Tycho.Strider.heights_fixed_shards",
    "Tycho.Strider.without_saving_not_once"
   ],
   "note": "finding: without a saving subscriber commit_shard only warns and a block is handled again after a restart (without_saving_not_once)"
  },
  {
   "property": "C72",
   "status": "proved",
   "theorems": [
    "Tycho.Strider.download_exact",
    "Tycho.Strider.downloadAll_exact",
    "Tycho.Strider.master_block_completes",
    "Tycho.Strider.task_can_step"
   ],
   "note": ""
  },
  {
   "property": "C73",
   "status": "proved",
   "theorems": [
    "Tycho.Providers.chain_left_then_right",
    "Tycho.Providers.chain_left_cleaned",
    "Tycho.Providers.chain_block_same_provider",
    "Tycho.Providers.cycle_block_same_provider",
    "Tycho.Providers.cycle_alternates",
    "Tycho.Providers.cycle_next_starts_same",
    "Tycho.Providers.fallback_cleanup",
    "Tycho.Providers.fallback_never_cleaned_while_used"
   ],
   "note": "findings: the exceptions of cycle_block_same_provider and chain_block_same_provider are reachable (cy2_exec, ch2_exec): shard blocks are asked of a provider that did not return their masterchain block; fallback archives are never cleaned while the fallback serves every block"
  },
  {
   "property": "C74",
   "status": "proved",
   "theorems": [
    "Tycho.Providers.select_some",
    "Tycho.Providers.select_none",
    "Tycho.Providers.retry_spec"
   ],
   "note": ""
  },
  {
   "property": "C75",
   "status": "proved",
   "theorems": [
    "Tycho.BlocksGc.removes_exactly",
    "Tycho.BlocksGc.kept_at_every_point",
    "Tycho.BlocksGc.nothing_leaks",
    "Tycho.BlocksGc.keeps_after",
    "Tycho.BlocksGc.resumes"
   ],
   "note": "assumes one block per shard and seqno (sibling_lost shows why: with two, a key block can be removed with its outdated sibling)"
  },
  {
   "property": "C76",
   "status": "proved",
   "theorems": [
    "Tycho.BlocksGc.tail_len_is_max",
    "Tycho.BlocksGc.gcTarget_distance",
    "Tycho.BlocksGc.tail_is_kept",
    "Tycho.BlocksGc.tail_kept_iff"
   ],
   "note": "findings: a shard that has no block in the newest masterchain block (idle_shard_tail_lost) or not in each one (sparse_shard_tail_lost) can lose diffs of its tail"
  },
  {
   "property": "C77",
   "status": "proved",
   "theorems": [
    "Tycho.BlocksGc.items_protected",
    "Tycho.BlocksGc.pending_while_running",
    "Tycho.BlocksGc.stuck_forever"
   ],
   "note": "findings: the pending id is reset only after the items are released, so a collection and a crash in between leave a node that can never start (stuck_reachable, stuck_forever); an item shared by two persistent states is not protected the second time (second_save_unprotected)"
  },
  {
   "property": "C78",
   "status": "proved",
   "theorems": [
    "Tycho.McTracker.seqno_le",
    "Tycho.McTracker.seqno_exact",
    "Tycho.McTracker.seqno_mem",
    "Tycho.McTracker.handles_step",
    "Tycho.McTracker.minSafe_covers",
    "Tycho.McTracker.minSafe_one",
    "Tycho.McTracker.tracked_iff"
   ],
   "note": "counters do not overflow"
  },
  {
   "property": "C79",
   "status": "proved",
   "theorems": [
    "Tycho.ShardStates.load_right",
    "Tycho.ShardStates.load_complete",
    "Tycho.ShardStates.await_result",
    "Tycho.ShardStates.store_applies",
    "Tycho.ShardStates.store_resumes"
   ],
   "note": "blocks between edge and state must be known; a pending direct store may be skipped only while the cache stays as it is; the step must not be lowered between restarts (lower_step_breaks_loading)"
  },
  {
   "property": "C80",
   "status": "proved",
   "theorems": [
    "Tycho.ShardStates.in_use_kept",
    "Tycho.ShardStates.removed_below_edge",
    "Tycho.ShardStates.top_above"
   ],
   "note": "a load of a state below the edge during a collection is excluded; finding: a direct state of a fork can become the edge, and the top block is lost (fork_hides_pivot)"
  },
  {
   "property": "C81",
   "status": "proved",
   "theorems": [
    "Tycho.ShardStates.trees_once"
   ],
   "note": "finding: a crash between the batch and the flag counts the tree twice, and it leaks (double_store_leak)"
  },
  {
   "property": "C82",
   "status": "proved",
   "theorems": [
    "Tycho.Rpc.get_transaction_sound",
    "Tycho.Rpc.kept_found",
    "Tycho.Rpc.get_dst_sound"
   ],
   "note": "by message only if no message is executed twice: finding, the collection of an older transaction with the same external message removes the entry of the newer one (gc_removes_other_entry)"
  },
  {
   "property": "C83",
   "status": "proved",
   "theorems": [
    "Tycho.Rpc.gc_exact",
    "Tycho.Rpc.gc_ends_iff",
    "Tycho.Rpc.gc_rerun",
    "Tycho.Rpc.gc_written"
   ],
   "note": "findings: it never ends when a transaction beyond the kept ones is exactly at the bound (gc_never_ends); if the number of removed rows is a multiple of 100000 the rows of the last account stay without index entries (gc_leaves_rows)"
  },
  {
   "property": "C84",
   "status": "proved",
   "theorems": [
    "Tycho.Rpc.get_transactions_exact",
    "Tycho.Rpc.get_src_exact",
    "Tycho.Rpc.blacklisted_absent"
   ],
   "note": "logical times below 2^64-2"
  },
  {
   "property": "C85",
   "status": "proved",
   "theorems": [
    "Tycho.Rpc.accounts_exact",
    "Tycho.Rpc.accounts_continue",
    "Tycho.Rpc.pages_exact",
    "Tycho.Rpc.reach_indexed",
    "Tycho.Rpc.codeUpdate_right"
   ],
   "note": "findings: a page that continues after an account which changed its code skips the next account (continuation_skips_account); the address -1:ff..ff is never listed (last_address_not_listed)"
  },
  {
   "property": "C86",
   "status": "proved",
   "theorems": [
    "Tycho.Rpc.blockIds_none",
    "Tycho.Rpc.blockIds_continue",
    "Tycho.Rpc.blockPages_exact",
    "Tycho.Rpc.blockIds_reverse_cursor"
   ],
   "note": "finding: with the reverse flag the cursor does not continue the listing (blockIds_reverse_cursor)"
  },
  {
   "property": "C87",
   "status": "proved",
   "theorems": [
    "Tycho.Rpc.brief_roundTrip",
    "Tycho.Rpc.info_roundTrip",
    "Tycho.Rpc.tx_key_order",
    "Tycho.Rpc.code_key_order"
   ],
   "note": "shards that are not empty prefixes; one or two previous blocks"
  },
  {
   "property": "C88",
   "status": "proved",
   "theorems": [
    "Tycho.Archives.archives_good",
    "Tycho.Archives.commit_reads_all"
   ],
   "note": "hypotheses on the chain (WOk): a key block which is the first of its archive has a shard block (finding: otherwise the split after it is lost at a restart, Examples wB); no collection of blocks needed by a commit"
  },
  {
   "property": "C89",
   "status": "proved",
   "theorems": [
    "Tycho.Archives.restart",
    "Tycho.Archives.found_file",
    "Tycho.Archives.gap_blocks_start"
   ],
   "note": "finding: after a stop between file and event the node starts once, and no more after the next archive is committed (gap_blocks_start)"
  },
  {
   "property": "C90",
   "status": "proved",
   "theorems": [
    "Tycho.Archives.found_arch",
    "Tycho.Archives.arch_found",
    "Tycho.Archives.not_found"
   ],
   "note": ""
  },
  {
   "property": "C91",
   "status": "proved",
   "theorems": [
    "Tycho.Archives.file_kept",
    "Tycho.Archives.gc_bound",
    "Tycho.Archives.gc_query"
   ],
   "note": "hypothesis Settled: no commit of a removed archive is running (finding: otherwise the node does not start any more)"
  },
  {
   "property": "C92",
   "status": "proved",
   "theorems": [
    "Tycho.Archives.estimate_arch"
   ],
   "note": "finding: for two key blocks in a row the second one does not begin an archive and the estimate is wrong"
  },
  {
   "property": "C93",
   "status": "proved",
   "theorems": [
    "Tycho.ArchiveFile.read_roundTrip",
    "Tycho.ArchiveFile.read_canonical",
    "Tycho.ArchiveFile.archive_injective"
   ],
   "note": "TL constructor ids and the validity of shards are parameters"
  },
  {
   "property": "C94",
   "status": "proved",
   "theorems": [
    "Tycho.ArchiveFile.verify_iff",
    "Tycho.ArchiveFile.verified_read"
   ],
   "note": "finding: a package whose last entry is empty is rejected by the final check; a first chunk below 4 bytes is an error"
  },
  {
   "property": "C95",
   "status": "proved",
   "theorems": [
    "Tycho.ArchiveFile.new_iff",
    "Tycho.ArchiveFile.new_parts",
    "Tycho.ArchiveFile.checkRange_iff"
   ],
   "note": "parsing of the parts is not modelled"
  },
  {
   "property": "C96",
   "status": "proved",
   "theorems": [
    "Tycho.ExtReader.ext_once",
    "Tycho.ExtReader.items_get",
    "Tycho.ExtReader.ext_group",
    "Tycho.ExtReader.ext_eager",
    "Tycho.ExtReader.ext_adds"
   ],
   "note": "buffers abstract; restarts are C97"
  },
  {
   "property": "C97",
   "status": "proved",
   "theorems": [
    "Tycho.ExtReader.ext_refill",
    "Tycho.ExtReader.ext_collected"
   ],
   "note": "assumptions: the same router and the same collection function before and after; the collection skips empty buffers (Cfg.Fair); anchors not expired when imported; reading stops at most once per block. Findings: a leading range with empty buffers may be missing after the refill although a node that was not restarted keeps it; the reading position inside the last (fully read) range may differ when the last imported anchor had no message for the shard; the code replays with the current router"
  },
  {
   "property": "C98",
   "status": "proved",
   "theorems": [
    "Tycho.StateFile.state_file_written"
   ],
   "note": "rows of the state are assumed to be as finalize_cell makes them (normal form of the data) and acyclic; SHA-256 and LevelMask::level are parameters"
  },
  {
   "property": "C99",
   "status": "proved",
   "theorems": [
    "Tycho.StateFile.state_file_round_trip",
    "Tycho.StateFile.state_file_bits"
   ],
   "note": "the result is the temporary table; moving it to the cells is C102"
  }
 ]
}