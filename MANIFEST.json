{
 "claims": [
  {
   "property": "C01",
   "status": "proved",
   "theorems": [
    "Verif.Ring.delivered_once_in_order",
    "Verif.Ring.span_shows_published",
    "Verif.Ring.write_exact",
    "Verif.Ring.reader_does_not_disturb",
    "Verif.Ring.close_takes_prefix",
    "Verif.Ring.pending_stable",
    "Verif.Ring.publish_appends",
    "Verif.Ring.release_completes"
   ],
   "note": "any schedule of the atomic accesses of one producer and any number of readers, any size below 2^64, both memory layouts; reader creation is one step (see C07 for its races)"
  },
  {
   "property": "C02",
   "status": "proved",
   "theorems": [
    "Verif.Ring.reserved_disjoint_from_unread",
    "Verif.Ring.unread_plus_reserved_le_size",
    "Verif.Ring.unread_never_overwritten"
   ],
   "note": "any schedule; reader creation is one step (see C07)"
  },
  {
   "property": "C03",
   "status": "proved",
   "theorems": [
    "Verif.RingMp.claims_disjoint",
    "Verif.RingMp.claim_is_injective",
    "Verif.RingMp.claim_disjoint_from_unread",
    "Verif.RingMp.readable_is_complete",
    "Verif.RingMp.pub_monotone",
    "Verif.RingMp.reader_behind_published",
    "Verif.RingMp.read_shows_written",
    "Verif.RingMp.written_only_by_holder",
    "Verif.RingMp.completed_prefix_visible",
    "Verif.RingMp.all_published_all_visible",
    "Verif.RingMp.claim_is_next",
    "Verif.RingMp.publish_finishes_undisturbed",
    "Verif.RingMp.gap_is_permanent",
    "Verif.RingMp.without_reader_fills_up",
    "Verif.RingMp.partial_publish_blocks_readers",
    "Verif.RingMp.try_claim_refused_on_empty_buffer"
   ],
   "note": "any number of producer threads, any interleaving of the atomic accesses (sequentially consistent), fixed reader set, double-mapped layout; witnesses: a partial publish blocks readers for good, a non-blocking claim can be refused on an empty buffer, no reader means the buffer fills up"
  },
  {
   "property": "C04",
   "status": "proved",
   "theorems": [
    "Verif.Ring.copies_agree",
    "Verif.Ring.span_shows_published",
    "Verif.Ring.spans_inside_storage"
   ],
   "note": "both the mirrored and the double-mapped layout"
  },
  {
   "property": "C05",
   "status": "partial",
   "theorems": [
    "Verif.Ring.Api.span_publishes_exactly",
    "Verif.Ring.Api.empty_span_publishes_nothing",
    "Verif.Ring.Api.reserve_after_release",
    "Verif.Ring.Api.second_reserve_exposes_unpublished",
    "Verif.Ring.Api.assigned_span_never_publishes",
    "Verif.Ring.Api.fresh_writer_rewinds",
    "Verif.Ring.close_takes_prefix",
    "Verif.Ring.publish_appends"
   ],
   "note": "holds for one span at a time with copies and publish requests in any order; false for a second reserve while a span with a pending request is alive, for copy-assigned spans, and for an empty reservation through a writer created later (witnesses)"
  },
  {
   "property": "C06",
   "status": "partial",
   "theorems": [
    "Verif.Ring.Api.reader_never_past_published",
    "Verif.Ring.Api.consume_accepted_iff",
    "Verif.Ring.Api.drop_moves_exactly",
    "Verif.Ring.Api.only_drop_moves",
    "Verif.Ring.Api.get_length",
    "Verif.Ring.Api.assigned_span_never_consumes",
    "Verif.Ring.Api.unchecked_consume_passes_published",
    "Verif.Ring.reader_behind_published",
    "Verif.Ring.reader_monotone"
   ],
   "note": "holds for all histories of checked requests; false after copy assignment of a span and for tryConsume<false> (witnesses)"
  },
  {
   "property": "C07",
   "status": "partial",
   "theorems": [
    "Verif.Ring.available_truthful",
    "Verif.Ring.try_reserve_iff",
    "Verif.Ring.capacity_truthful",
    "Verif.Ring.available_exceeds_size_without_reader",
    "Verif.Ring.unread_buffer_fills_up",
    "Verif.Ring.Attach.new_reader_overrun",
    "Verif.Ring.Attach.existing_reader_overrun"
   ],
   "note": "holds while at least one reader is attached and readers are created while the producer is not reserving; false without readers and for concurrent reader creation (witnesses)"
  },
  {
   "property": "C08",
   "status": "partial",
   "theorems": [
    "Verif.History.dynamic_refines_bounded_list",
    "Verif.History.fixed_refines_bounded_list",
    "Verif.History.spec_bounded",
    "Verif.History.span_past_end_leaves_storage",
    "Verif.History.shrinking_keeps_oldest"
   ],
   "note": "all call histories; excluded: get_span with index > size(), which the code does not reject (witness)"
  },
  {
   "property": "C09",
   "status": "partial",
   "theorems": [
    "Verif.History.view_equals_indexed",
    "Verif.History.dynamic_refines_bounded_list",
    "Verif.History.fixed_refines_bounded_list",
    "Verif.History.write_through_index_leaves_stale_view"
   ],
   "note": "holds for all member-function histories; elements modified through the reference returned by operator[] do not reach the mirror (witness)"
  },
  {
   "property": "C10",
   "status": "proved",
   "theorems": [
    "Verif.LifeCycle.state_follows_diagram",
    "Verif.LifeCycle.rejected_request_has_no_effect",
    "Verif.LifeCycle.rejected_iff",
    "Verif.LifeCycle.throwing_hook_ends_in_error",
    "Verif.LifeCycle.diagram_arrow_stop_while_pausing_is_rejected"
   ],
   "note": "sequential callers, hooks may re-enter and throw; the printed diagram has one arrow (REQUESTED_PAUSE -> REQUESTED_STOP) the code rejects and lacks two the code has"
  },
  {
   "property": "C11",
   "status": "partial",
   "theorems": [
    "Verif.LifeCycle.hook_order_partial",
    "Verif.LifeCycle.hook_runs_iff",
    "Verif.LifeCycle.stop_hook_runs_without_start",
    "Verif.LifeCycle.reentrant_init_starts_uninitialised_block"
   ],
   "note": "proved for hooks that do not re-enter the state machine; false for re-entrant hooks (witness), and the stop hook also runs on a never started block (witness)"
  },
  {
   "property": "C12",
   "status": "proved",
   "theorems": [
    "Verif.Crc.scalar_ieee",
    "Verif.Crc.scalar_castagnoli",
    "Verif.Crc.scalar_modbus",
    "Verif.Crc.simd_ieee",
    "Verif.Crc.simd_castagnoli",
    "Verif.Crc.simd_modbus",
    "Verif.Crc.simd_eq_scalar"
   ],
   "note": "little-endian byte order for the SIMD staging memcpy"
  },
  {
   "property": "C13",
   "status": "proved",
   "theorems": [
    "Verif.Crc.incremental"
   ],
   "note": ""
  },
  {
   "property": "C14",
   "status": "proved",
   "theorems": [
    "Verif.Crc.burst_detected",
    "Verif.Crc.byte_burst_detected",
    "Verif.Crc.odd_error_detected"
   ],
   "note": "bit-granular bursts; odd-weight errors in addition for CRC-32C and CRC-16/MODBUS"
  },
  {
   "property": "C15",
   "status": "partial",
   "theorems": [
    "Verif.Wire.stream_roundtrip",
    "Verif.Wire.header_is_emitted_automatically",
    "Verif.Wire.oversized_payload_is_silently_lost"
   ],
   "note": "proved for payloads below 2^32 bytes; a payload of 2^32 bytes or more is silently truncated by the 32-bit length field (witness theorem)"
  },
  {
   "property": "C16",
   "status": "proved",
   "theorems": [
    "Verif.Wire.reading_is_safe",
    "Verif.Wire.reading_terminates",
    "Verif.Wire.ok_frame_is_verified"
   ],
   "note": ""
  },
  {
   "property": "C17",
   "status": "partial",
   "theorems": [
    "Verif.Wire.truncated_stream",
    "Verif.Wire.truncated_header",
    "Verif.Wire.corrupted_payload_is_reported",
    "Verif.Wire.header_flip_disables_crc"
   ],
   "note": "truncation anywhere and payload bursts proved; damage to the unprotected stream header can switch CRC checking off (witness)"
  },
  {
   "property": "C18",
   "status": "proved",
   "theorems": [
    "Verif.Wire.prefix_roundtrip",
    "Verif.Wire.annotation_refused_iff",
    "Verif.Wire.annotation_roundtrip",
    "Verif.Wire.annotation_decode_safe"
   ],
   "note": ""
  },
  {
   "property": "C19",
   "status": "partial",
   "theorems": [
    "Verif.Deflate.compress_decompress_partial",
    "Verif.Deflate.compress_decompress_alloc_partial",
    "Verif.Deflate.decompress_limit"
   ],
   "note": "all byte strings shorter than 2^32 bytes, all formats, levels, buffer sizes and output limits; beyond that the 32-bit symbol counters of the encoder can wrap"
  },
  {
   "property": "C20",
   "status": "proved",
   "theorems": [
    "Verif.Deflate.compress_within_bound",
    "Verif.Deflate.compressBound_eq"
   ],
   "note": "all byte strings, formats and levels; sizes are unbounded numbers in the model"
  },
  {
   "property": "C21",
   "status": "proved",
   "theorems": [
    "Verif.Deflate.decompressSpan_safe",
    "Verif.Deflate.decompressedSize_safe",
    "Verif.Deflate.decompress_safe"
   ],
   "note": "all byte strings, formats, capacities and limits; undefined behaviour and running out of steps are separate outcomes of the model and shown unreachable"
  },
  {
   "property": "C22",
   "status": "proved",
   "theorems": [
    "Verif.Deflate.decompressedSize_agrees",
    "Verif.Deflate.decompressSpan_of_size",
    "Verif.Deflate.zlib_checksum",
    "Verif.Deflate.gzip_checksum",
    "Verif.Deflate.decompressedSize_skips_checksum"
   ],
   "note": "all byte strings, formats and capacities; the last one is a finding"
  },
  {
   "property": "C23",
   "status": "proved",
   "theorems": [
    "Verif.Deflate.adler32_eq_definition",
    "Verif.Deflate.updateAdler_chunks",
    "Verif.Deflate.adler_run_no_overflow",
    "Verif.Deflate.adler_longest_run",
    "Verif.Deflate.updateAdler_reduced"
   ],
   "note": "definition as in RFC 1950; 5552 is shown to be the longest safe run"
  },
  {
   "property": "C24",
   "status": "proved",
   "theorems": [
    "Verif.Deflate.stream_finished",
    "Verif.Deflate.stream_independent",
    "Verif.Deflate.stream_valid",
    "Verif.Deflate.stream_completes",
    "Verif.Deflate.stream_invalid",
    "Verif.Deflate.stream_error",
    "Verif.Deflate.stream_drains",
    "Verif.Deflate.stream_errors_not_sticky"
   ],
   "note": "all byte strings, formats, limits and all histories of calls with any input and output sizes, up to the first error; the last one is a finding about the documented behaviour after an error"
  },
  {
   "property": "C25",
   "status": "proved",
   "theorems": [
    "Verif.Chunk.pool_calls_are_safe",
    "Verif.Chunk.pool_accounting",
    "Verif.Chunk.acquired_chunk_was_free",
    "Verif.Chunk.acquire_refused_iff",
    "Verif.Chunk.reclaim_keeps",
    "Verif.Chunk.oversized_refused_while_idle"
   ],
   "note": "clients release only what they hold; each call is one step (the code holds a mutex)"
  },
  {
   "property": "C26",
   "status": "partial",
   "theorems": [
    "Verif.Chunk.readable_blob_is_intact",
    "Verif.Chunk.released_chunk_is_consumed",
    "Verif.Chunk.stored_blob_is_inside_chunk",
    "Verif.Chunk.drained_buffer_owns_nothing",
    "Verif.Chunk.out_of_order_store_frees_readable_blob"
   ],
   "note": "proved for blobs stored in slot order, as the ports do; storeBlob accepts any order and out-of-order storing frees a readable blob (witness)"
  },
  {
   "property": "C27",
   "status": "proved",
   "theorems": [
    "Verif.Bitset.range_update_exact",
    "Verif.Bitset.bit_update_exact",
    "Verif.Bitset.no_word_out_of_range",
    "Verif.Bitset.disjoint_updates_are_not_lost"
   ],
   "note": "any number of threads; sequentially consistent interleaving of the atomic accesses"
  },
  {
   "property": "C28",
   "status": "proved",
   "theorems": [
    "Verif.RwLock.readers_and_writers_exclude",
    "Verif.RwLock.value_counts_holders",
    "Verif.RwLock.released_lock_is_free",
    "Verif.RwLock.tryLock_alone",
    "Verif.RwLock.two_writers_at_once"
   ],
   "note": "any number of threads; several writers may hold the lock together (documented, witness theorem)"
  },
  {
   "property": "C29",
   "status": "partial",
   "theorems": [
    "Verif.Trigger.two_sided",
    "Verif.Trigger.two_sided_alternates",
    "Verif.Trigger.one_sided_partial",
    "Verif.Trigger.one_sided_actual",
    "Verif.Trigger.one_sided_wrong_way",
    "Verif.Trigger.caret_ignored",
    "Verif.Trigger.empty_brackets_match_all",
    "Verif.Trigger.rejects_iff",
    "Verif.Trigger.rejected_once",
    "Verif.Trigger.rejected_acts_as_single",
    "Verif.Trigger.new_expression_resets"
   ],
   "note": "two-sided expressions: all; one-sided ones: the context test is the wrong way round and ^ is ignored (witnesses), so only where both directions of containment agree; invalid expressions are rejected exactly once (proved)"
  },
  {
   "property": "C30",
   "status": "proved",
   "theorems": [
    "Verif.Work.sample_limits_defined",
    "Verif.Work.chunk_ratio",
    "Verif.Work.chunk_within_ports",
    "Verif.Work.chunk_meets_minimum",
    "Verif.Work.insufficient_means_no_chunk_fits",
    "Verif.Work.requested_work_respected",
    "Verif.Work.insufficient_output_reported_as_input",
    "Verif.Work.requested_work_can_be_exceeded"
   ],
   "note": "any number of ports, any sizes; which resource is reported missing can be wrong and the requested amount is only a hint (witnesses)"
  },
  {
   "property": "C31",
   "status": "partial",
   "theorems": [
    "Verif.Work.chunk_starts_on_stride_partial",
    "Verif.Work.chunk_starts_on_stride_forwarding",
    "Verif.Work.chunks_contiguous",
    "Verif.Work.tag_in_gap_breaks_stride",
    "Verif.Work.stride_of_single_samples_depends_on_availability"
   ],
   "note": "holds for any availability while no tag lies in the skipped samples, and in full for forward tag propagation; false otherwise (witness)"
  },
  {
   "property": "C32",
   "status": "partial",
   "theorems": [
    "Verif.Work.chunk_ends_before_eos",
    "Verif.Work.chunk_ends_before_tag_partial",
    "Verif.Work.minimum_drops_tag_limit"
   ],
   "note": "end of stream unconditionally; tags as long as the port minimum fits before the next tag; otherwise the limit is dropped entirely (witness)"
  },
  {
   "property": "C33",
   "status": "proved",
   "theorems": [
    "Verif.Work.Simd.simd_equals_scalar",
    "Verif.Work.Simd.simd_widths_exact"
   ],
   "note": "all sample counts and power-of-two widths, for lane-wise processOne"
  },
  {
   "property": "C34",
   "status": "partial",
   "theorems": [
    "Verif.Work.reported_progress_is_real",
    "Verif.Work.failure_is_reported",
    "Verif.Work.no_chunk_no_progress",
    "Verif.Work.done_hides_progress",
    "Verif.Work.error_still_consumes",
    "Verif.Work.consume_beyond_chunk",
    "Verif.Work.idle_ok",
    "Verif.Work.stopping_publishes_without_consuming"
   ],
   "note": "reported progress is real and failures are reported; DONE reports zero although samples were processed, and explicit requests are honoured in failing calls (witnesses)"
  },
  {
   "property": "C35",
   "status": "partial",
   "theorems": [
    "Verif.Work.Tags.settingsKey_strips_prefix",
    "Verif.Work.Tags.forwarded_content",
    "Verif.Work.Tags.tags_forwarded_exactly_once",
    "Verif.Work.Tags.first_sample_tags_consumed",
    "Verif.Work.Tags.published_on_first_sample",
    "Verif.Work.Tags.merged_exactly_once",
    "Verif.Work.Tags.ninth_tag_duplicated",
    "Verif.Work.Tags.tag_repeated_when_nothing_consumed",
    "Verif.Work.Tags.tag_lost_when_nothing_published",
    "Verif.Work.Tags.backward_policy_repeats_tag",
    "Verif.Work.Tags.inner_tag_moves_to_next_chunk"
   ],
   "note": "exactly once for calls that consume and publish together and at most eight distinct tags on one sample of a multi-input block; false otherwise (witnesses)"
  },
  {
   "property": "C36",
   "status": "proved",
   "theorems": [
    "Verif.Settings.lookup_latest",
    "Verif.Settings.set_content",
    "Verif.Settings.lookup_history_partial",
    "Verif.Settings.wasm_lookup_sees_later"
   ],
   "note": "native build: every run state; history theorem without expiry time, removals and repeated time stamps; on WebAssembly the lookup tolerance returns later sets (witness)"
  },
  {
   "property": "C37",
   "status": "partial",
   "theorems": [
    "Verif.Settings.entries_ordered",
    "Verif.Settings.newest_wins_partial",
    "Verif.Settings.duplicate_time_resolved_partial",
    "Verif.Settings.duplicate_time_newest_lost",
    "Verif.Settings.wasm_duplicate_remains"
   ],
   "note": "false for native builds with time stamps not in the future (witness); ordering always holds, newest wins for future time stamps; WebAssembly: distinct unless both t+1000 and t+1001 are in use (witness)"
  },
  {
   "property": "C38",
   "status": "proved",
   "theorems": [
    "Verif.Settings.apply_staged",
    "Verif.Settings.never_deadlocks",
    "Verif.Settings.reset_tag_is_dead",
    "Verif.Settings.rejected_value_forwarded",
    "Verif.Settings.set_alone_not_applied",
    "Verif.Settings.context_switch_keeps_staged"
   ],
   "note": "all runs; conversion, validation and the user's callback are arbitrary functions; the extra witnesses are findings, not part of the claim"
  },
  {
   "property": "C39",
   "status": "partial",
   "theorems": [
    "Verif.Settings.tag_spares_explicit_partial",
    "Verif.Settings.tag_stages_own_values",
    "Verif.Settings.tag_updates_open",
    "Verif.Settings.tag_overwrites_before_activation",
    "Verif.Settings.tag_overwrites_out_of_order",
    "Verif.Settings.throwing_set_disables_updates"
   ],
   "note": "holds for increasing time stamps, no expiry time and while the set in use is still stored; false otherwise (witnesses)"
  },
  {
   "property": "C40",
   "status": "partial",
   "theorems": [
    "Verif.Settings.expiry_keeps_partial",
    "Verif.Settings.expiry_history_partial",
    "Verif.Settings.expiry_empties_context",
    "Verif.Settings.expiry_wraps",
    "Verif.Settings.expiry_erases_foreign_record"
   ],
   "note": "holds without expiry time and with distinct time stamps; false with an expiry time (witnesses)"
  },
  {
   "property": "C41",
   "status": "proved",
   "theorems": [
    "Verif.Graph.components_exist",
    "Verif.Graph.components_partition"
   ],
   "note": "all graphs and all orders std::ranges::sort may produce for components of equal size"
  },
  {
   "property": "C42",
   "status": "proved",
   "theorems": [
    "Verif.Graph.feedback_loops_exact",
    "Verif.Graph.second_cycle_not_reported"
   ],
   "note": "loops are reported iff there is a cycle and each reported one is a simple cycle; not every cycle is reported (witness, not claimed)"
  },
  {
   "property": "C43",
   "status": "partial",
   "theorems": [
    "Verif.Graph.Edit.edits_no_dangling_partial",
    "Verif.Graph.Edit.edits_no_duplicates_partial",
    "Verif.Graph.Edit.pointer_edge_dangles",
    "Verif.Graph.Edit.connection_listed_twice",
    "Verif.Graph.Edit.same_port_by_name_and_index",
    "Verif.Graph.Edit.replace_block_ub",
    "Verif.Graph.Edit.replace_block_ub_reachable",
    "Verif.Graph.Edit.failed_grouping_loses_blocks"
   ],
   "note": "any sequence of edits including replace, group and ungroup; edges given by block pointer must refer to blocks of the graph, and emplaceEdge/connect must not repeat a connection: false otherwise (witnesses). Replacing a block in a graph of exactly 100 blocks is undefined behaviour (witness)"
  },
  {
   "property": "C44",
   "status": "proved",
   "theorems": [
    "Verif.Graph.parsePort_roundtrip",
    "Verif.Graph.parsePort_format",
    "Verif.Graph.parsePort_accepts_garbage"
   ],
   "note": "names without the separator; text after the separator that is not a number is accepted (witness)"
  },
  {
   "property": "C45",
   "status": "partial",
   "theorems": [
    "Verif.Graph.priming_sound",
    "Verif.Graph.priming_refuses_unstable",
    "Verif.Graph.priming_overflow",
    "Verif.Graph.priming_insufficient_behind_decimator"
   ],
   "note": "as long as the products of the ratios fit into 32 bits (signed overflow otherwise, witness); the size does not suffice to start a loop behind a decimator (witness)"
  },
  {
   "property": "C46",
   "status": "proved",
   "theorems": [
    "Verif.Sched.batch_positions",
    "Verif.Sched.batch_exactly_one",
    "Verif.Sched.batch_balanced",
    "Verif.Sched.simple_exactly_one",
    "Verif.Sched.simple_empty_graph_no_worker"
   ],
   "note": "any number of blocks and workers; a multi-threaded scheduler over an empty graph gets no work list at all (witness)"
  },
  {
   "property": "C47",
   "status": "partial",
   "theorems": [
    "Verif.Sched.bfs_exactly_fed_partial",
    "Verif.Sched.dfs_exactly_fed_partial",
    "Verif.Sched.bfs_dfs_complete_partial",
    "Verif.Sched.bfs_dfs_skip_isolated",
    "Verif.Sched.bfs_dfs_skip_sourceless_loop"
   ],
   "note": "the orders list exactly the blocks fed by a source block, once each, for all graphs and all orders of edges and sources; isolated blocks and loops without a source are skipped (witnesses)"
  },
  {
   "property": "C48",
   "status": "partial",
   "theorems": [
    "Verif.Sched.Quiesce.no_work_while_held_partial",
    "Verif.Sched.Quiesce.workers_resume_partial",
    "Verif.Sched.Quiesce.request_wait_ends",
    "Verif.Sched.Quiesce.overlapping_guards_broken"
   ],
   "note": "any number of workers and guards, any interleaving of the atomic accesses, guards not overlapping; false for overlapping guards (witness)"
  },
  {
   "property": "C49",
   "status": "proved",
   "theorems": [
    "Verif.Sched.traverse_no_error",
    "Verif.Sched.traverse_error",
    "Verif.Sched.traverse_status"
   ],
   "note": "all work lists and all results of the blocks"
  },
  {
   "property": "C50",
   "status": "partial",
   "theorems": [
    "Verif.Sched.Dyn.at_most_one_worker",
    "Verif.Sched.Dyn.removed_never_worked",
    "Verif.Sched.Dyn.zombie_never_worked",
    "Verif.Sched.Dyn.zombie_before_adoption",
    "Verif.Sched.Dyn.adopted_is_worked_partial",
    "Verif.Sched.Dyn.stale_moved_entry_loses_block",
    "Verif.Sched.Dyn.adopted_by_ended_worker_lost",
    "Verif.Sched.Dyn.adopt_lost_without_lists",
    "Verif.Sched.Dyn.replacement_never_scheduled"
   ],
   "note": "at most one worker and never after removal: in full; an added block is worked on if its worker is alive and blocks are only moved after all workers have started; false otherwise and for replaced blocks (witnesses)"
  },
  {
   "property": "C51",
   "status": "partial",
   "theorems": [
    "Verif.LifeCycle.concurrent_requests_can_leave_diagram",
    "Verif.LifeCycle.atomic_requests_follow_diagram_partial"
   ],
   "note": "the full statement is false of the code: load and store are not one atomic step (witness); holds when requests do not overlap"
  },
  {
   "property": "C52",
   "status": "proved",
   "theorems": [
    "Verif.Graph.Edit.group_ungroup_roundtrip",
    "Verif.Graph.Edit.grouping_drops_edge_domain"
   ],
   "note": "all consistent graphs without duplicate connections; ports of crossing edges are given by name afterwards; memory resources and compute domain of crossing edges are reset to the defaults (witness, not claimed)"
  },
  {
   "property": "C53",
   "status": "proved",
   "theorems": [
    "Verif.Settings.remove_exactly_one",
    "Verif.Settings.remove_last_forgets_name",
    "Verif.Settings.remove_default_time_refused"
   ],
   "note": "all run states"
  },
  {
   "property": "C54",
   "status": "partial",
   "theorems": [
    "Verif.Settings.activate_then_apply",
    "Verif.Settings.activate_same_name",
    "Verif.Settings.context_switch_keeps_staged"
   ],
   "note": "other name: nothing staged before (a staged value wins over the new context, witness), no callback; same name: staged values of explicitly set parameters"
  },
  {
   "property": "C55",
   "status": "proved",
   "theorems": [
    "Verif.Deflate.encode_roundtrip",
    "Verif.Deflate.encode_roundtrip_stream",
    "Verif.Deflate.encode_call",
    "Verif.Deflate.encode_completes",
    "Verif.Deflate.encode_finished",
    "Verif.Deflate.encode_done_leaves_room",
    "Verif.Deflate.encode_needInput_after_finish"
   ],
   "note": "all formats, levels and block sizes, data of any size, all histories of calls; positions are unbounded numbers in the model; the last one is a finding: the status at the end of a stream that exactly fills the buffer"
  },
  {
   "property": "C56",
   "status": "partial",
   "theorems": [
    "Verif.VMap.map_is_dictionary_partial",
    "Verif.VMap.assign_own_value",
    "Verif.VMap.embedded_zero",
    "Verif.VMap.assign_empty_value",
    "Verif.VMap.own_value",
    "Verif.VMap.entry_65536",
    "Verif.VMap.growth_wraps"
   ],
   "note": "all histories that keep below 43689 entries and well below 4 GiB, with strings without zero bytes, non-empty values and arguments that are not parts of the map itself (for existing keys they may be); the others are findings showing what happens beyond; tensors with variable-size elements are not modelled"
  },
  {
   "property": "C57",
   "status": "partial",
   "theorems": [
    "Verif.VMap.merge_moves_entries",
    "Verif.VMap.merge_source_usable",
    "Verif.VMap.merge_target_usable_partial",
    "Verif.VMap.merge_then_assign",
    "Verif.VMap.merge_then_erase",
    "Verif.VMap.merge_then_assign_loses_key"
   ],
   "note": "all pairs of maps that histories within the limits of C56 leave behind; the target is a dictionary afterwards if the source has no keys beyond 34 characters and its records are multiples of 16 bytes; the last three are findings: otherwise the next store can write outside the allocation or destroy another entry"
  },
  {
   "property": "C58",
   "status": "partial",
   "theorems": [
    "Verif.VMap.blob_round_trip_partial",
    "Verif.VMap.accepted_own_bytes",
    "Verif.VMap.copy_same",
    "Verif.VMap.fromBlob_safe",
    "Verif.VMap.accepted_keys",
    "Verif.VMap.accepted_values_partial",
    "Verif.VMap.large_tensor_refused",
    "Verif.VMap.nested_map_refused",
    "Verif.VMap.accepted_nested_offset",
    "Verif.VMap.accepted_read_outside",
    "Verif.VMap.accepted_shared_bytes",
    "Verif.VMap.accepted_wrong_used"
   ],
   "note": "round trip: maps without nested maps and tensors of more than 2^24 elements, whose bytes are refused (witness, theorem); checking: all byte strings; keys of accepted maps: all; values of accepted maps: only if each record fits its row, which is not checked; the last three are findings about accepted bytes that lead outside the memory or destroy entries"
  },
  {
   "property": "C59",
   "status": "partial",
   "theorems": [
    "Verif.Pool.task_runs_at_most_once",
    "Verif.Pool.task_not_lost_partial",
    "Verif.Pool.tasks_can_run_partial",
    "Verif.Pool.no_sleep_while_waiting",
    "Verif.Pool.shutdown_never_half_run",
    "Verif.Pool.reported_numbers",
    "Verif.Pool.dropped_never_runs",
    "Verif.Pool.idle_last_thread_drops_task",
    "Verif.Pool.lost_wake_up",
    "Verif.Pool.expired_worker_abandons_task",
    "Verif.Pool.idle_workers_wait_with_different_mutexes",
    "Verif.Pool.destroying_after_shutdown_throws",
    "Verif.Pool.destroying_works"
   ],
   "note": "any number of threads, sequentially consistent interleaving; not lost: pools with a minimum of at least one thread (false for minimum 0, the WebAssembly default, witness); can run: also no failing thread start, as the existence of a continuation - fairness does not suffice for a prompt start (lost wake-up and abandoned task, witnesses); idle workers make the condition variable undefined behaviour by the standard (witness)"
  },
  {
   "property": "C60",
   "status": "partial",
   "theorems": [
    "Verif.Pool.threads_at_least_min_partial",
    "Verif.Pool.threads_at_most_max_partial",
    "Verif.Pool.threads_counts_workers",
    "Verif.Pool.maximum_exceeded",
    "Verif.Pool.failed_start_leaves_no_thread"
   ],
   "note": "lower bound: no failing thread start (witness); upper bound: one submitting thread (false for two, witness); bounds not changed meanwhile"
  },
  {
   "property": "C61",
   "status": "partial",
   "theorems": [
    "Verif.Pool.takes_most_urgent_partial",
    "Verif.Pool.priority_kept",
    "Verif.Pool.huge_priority_is_lowest"
   ],
   "note": "all interleavings; priorities below 2^31 (larger ones become negative, witness)"
  },
  {
   "property": "C62",
   "status": "partial",
   "theorems": [
    "Verif.Pool.Affinity.each_core_one_thread",
    "Verif.Pool.Affinity.spread_even",
    "Verif.Pool.Affinity.surplus_thread_has_no_core",
    "Verif.Pool.Affinity.affinity_not_applied",
    "Verif.Pool.Affinity.affinity_moves_caller",
    "Verif.Pool.Affinity.affinity_throws_on_grown_pool"
   ],
   "note": "the computed distribution is exact and even for thread numbers below the minimum; it is never applied to the pool's threads but to the caller, and threads beyond the minimum get no core (theorems)"
  },
  {
   "property": "C63",
   "status": "proved",
   "theorems": [
    "Verif.Pool.Affinity.default_pools_fit",
    "Verif.Pool.Affinity.wasm_pools_without_minimum",
    "Verif.Pool.Affinity.wasm_unknown_cores_undefined"
   ],
   "note": "native build, all core counts and limits: the program starts iff the limit is at least 3; the others are findings about WebAssembly"
  },
  {
   "property": "C64",
   "status": "partial",
   "theorems": [
    "Verif.Sel.datasets_partial",
    "Verif.Sel.published_partial",
    "Verif.Sel.chunking_partial",
    "Verif.Sel.two_sided_datasets_partial",
    "Verif.Sel.one_sided_datasets",
    "Verif.Sel.start_tag_closes_range",
    "Verif.Sel.limit_keeps_back",
    "Verif.Sel.caret_stop_missed",
    "Verif.Sel.caret_start_never"
   ],
   "note": "all streams, splittings and output spaces; filters without ^ and no tag that both opens and closes a range (false otherwise, witnesses); with n_max a data set may be published one call later (witness); settings constant during the run"
  },
  {
   "property": "C65",
   "status": "partial",
   "theorems": [
    "Verif.Sel.stream_partial",
    "Verif.Sel.stream_whole_partial",
    "Verif.Sel.stream_samples_partial",
    "Verif.Sel.stream_progress_partial",
    "Verif.Sel.two_sided_stream_partial",
    "Verif.Sel.one_sided_stream_partial",
    "Verif.Sel.selection_depends_on_space",
    "Verif.Sel.single_trigger_tag_lost",
    "Verif.Sel.range_after_stop_lost"
   ],
   "note": "all streams, splittings and output spaces; filters without ^, ranges that do not overlap, opening and closing tags not at the same sample, and for single triggers n_post > 0 or n_pre = 0: false otherwise (witnesses)"
  },
  {
   "property": "C66",
   "status": "partial",
   "theorems": [
    "Verif.Yaml.roundtrip_partial",
    "Verif.Yaml.key_makes_text_unloadable",
    "Verif.Yaml.key_changed",
    "Verif.Yaml.key_lost",
    "Verif.Yaml.multi_line_changed",
    "Verif.Yaml.strings_retyped",
    "Verif.Yaml.invalid_text_accepted"
   ],
   "note": "maps of any size and depth, with and without assertions; keys, strings of several lines and numbers as in Clean, no tensors of strings: false otherwise (witnesses); printing and reading of floating point numbers are parameters, six digits are printed; shapes of tensors are not written"
  },
  {
   "property": "C67",
   "status": "partial",
   "theorems": [
    "Verif.Yaml.load_safe",
    "Verif.Yaml.load_safe_asserts_partial",
    "Verif.Yaml.unfinished_flow_reads_outside"
   ],
   "note": "all texts without assertions; with assertions texts without [ and {, for others it is false (witness); recursion depth is unbounded in the model, the stack is not modelled"
  },
  {
   "property": "C68",
   "status": "partial",
   "theorems": [
    "Verif.Msg.answered_exactly_once",
    "Verif.Msg.quiet_set_outcome",
    "Verif.Msg.get_returns_value",
    "Verif.Msg.others_not_answered",
    "Verif.Msg.others_have_no_effect",
    "Verif.Msg.only_set_changes",
    "Verif.Msg.answers_in_order",
    "Verif.Msg.no_answer_lost",
    "Verif.Msg.unknown_property_silent",
    "Verif.Msg.full_output_repeats",
    "Verif.Msg.error_but_staged",
    "Verif.Msg.answer_is_answered"
   ],
   "note": "all histories; settings, lifecycle and additional properties are parameters; exactly once while the output is not full: when it is full requests are carried out and answered again (witness), none is lost; requests for properties the block does not have get no answer, a failed write may have had an effect (witnesses)"
  },
  {
   "property": "C69",
   "status": "proved",
   "theorems": [
    "Verif.Msg.subscribers_notified",
    "Verif.Msg.heartbeat_to_subscribers"
   ],
   "note": "all histories while the output is not full; which events announce a property is read off the call sites of notifyListeners (DESIGN.md)"
  },
  {
   "property": "C70",
   "status": "partial",
   "theorems": [
    "Verif.Msg.delivered_as_if_direct",
    "Verif.Msg.published_comes_back",
    "Verif.Msg.adopted_gets_later_messages",
    "Verif.Msg.answered_through_scheduler",
    "Verif.Msg.scheduler_messages_stay",
    "Verif.Msg.lifecycle_request_unanswered",
    "Verif.Msg.uninitialised_delivers_nothing",
    "Verif.Msg.unheard_answers_stay",
    "Verif.Msg.unheard_error_thrown_again"
   ],
   "note": "all interleavings; blocks with any settings and properties; false for lifecycle requests to a block, and for a scheduler that was stopped before it was initialised (proved); buffers between scheduler and blocks are unbounded in the model; removal and regrouping of blocks with unread messages not covered"
  },
  {
   "property": "C71",
   "status": "partial",
   "theorems": [
    "Verif.Fft.complex_transform_partial",
    "Verif.Fft.real_transform_partial",
    "Verif.Fft.fallback_result",
    "Verif.Fft.fallback_constant_component",
    "Verif.Fft.fallback_wrong",
    "Verif.Fft.real_fallback_wrong"
   ],
   "note": "exact arithmetic, all inputs; true for all powers of two (scalar path proved, vectorised transform assumed correct) and the sizes of the vectorised transform; false at every other size (e.g. 1000): proved with the exact result the code returns; missing: rounding, the vectorised transform itself"
  },
  {
   "property": "C72",
   "status": "partial",
   "theorems": [
    "Verif.Filter.fir_equation_partial",
    "Verif.Filter.fir_growth_forgets",
    "Verif.Filter.iir_equation",
    "Verif.Filter.iir_forms_agree",
    "Verif.Filter.iir_empty_coefficients",
    "Verif.Filter.iir_same_coefficients_forget",
    "Verif.Filter.filter_equation_partial",
    "Verif.Filter.fits_same_length",
    "Verif.Filter.short_numerator_wrong",
    "Verif.Filter.short_numerator_reads_out_of_range",
    "Verif.Filter.decimator_every_nth",
    "Verif.Filter.decimating_filter",
    "Verif.Filter.decimate_zero"
   ],
   "note": "exact arithmetic in any commutative ring, all inputs; the IIR block in full in all forms; the FIR block as long as a change of coefficients needs no more memory; the filter class for sections whose histories are long enough (always so with as many numerator as denominator coefficients): otherwise wrong values or reads out of range (proved); missing: rounding"
  },
  {
   "property": "C73",
   "status": "partial",
   "theorems": [
    "Verif.Grc.graph_roundtrip_partial",
    "Verif.Grc.text_roundtrip_partial",
    "Verif.Grc.load_complete",
    "Verif.Grc.load_wellformed",
    "Verif.Grc.exports_complete",
    "Verif.Grc.saved_subgraph_never_loads",
    "Verif.Grc.saved_exports_never_load",
    "Verif.Grc.same_name_rewired",
    "Verif.Grc.unnamed_not_connectable",
    "Verif.Grc.large_size_lost",
    "Verif.Grc.weight_lost"
   ],
   "note": "proved for graphs of ordinary blocks with distinct non-empty names, any number of them, and for everything that loads; false with sub-graphs (a saved sub-graph never loads), equal or empty names, sizes from 2^32 and edge weights and names: proved"
  },
  {
   "property": "C74",
   "status": "partial",
   "theorems": [
    "Verif.Settings.parameters_restored",
    "Verif.Settings.default_context_is_active",
    "Verif.Settings.default_context_lost",
    "Verif.Settings.contexts_restored_partial",
    "Verif.Settings.loaded_set_gains_members",
    "Verif.Grc.graph_settings_restored_partial"
   ],
   "note": "proved for all blocks, clock readings and numbers of stored sets without an expiry time, values being of their members' types: every writable member has its saved value; stored sets of other contexts that give every member a value are found again; false for the default context, whose stored values are replaced by the active ones, and for sets that leave members out (witnesses)"
  },
  {
   "property": "C75",
   "status": "partial",
   "theorems": [
    "Verif.Merge.merged_computes_network",
    "Verif.Merge.network_determines_outputs",
    "Verif.Merge.merged_ports",
    "Verif.Merge.portions_do_not_matter",
    "Verif.Merge.graph_shows_network_partial",
    "Verif.Merge.graph_forgets_signs",
    "Verif.Merge.graph_shares_input",
    "Verif.Merge.tap_graph_undefined",
    "Verif.Merge.restart_partial",
    "Verif.Merge.restart_keeps_feedback"
   ],
   "note": "the output of every merged type that compiles is proved to be that of the network of its parts, for all parts and inputs; the shown graph is proved for types without tap and, port by port, without fan-out; it is false that it tells the signs of a fan-out, and the graph of a block taking a tap further reads past a list; restart proved without feedback loops and false with them"
  },
  {
   "property": "C76",
   "status": "partial",
   "theorems": [
    "Verif.Merge.vectors_do_not_matter",
    "Verif.Merge.vectors_compute_network",
    "Verif.Merge.stop_ends_calls",
    "Verif.Merge.merged_ignores_stop"
   ],
   "note": "the samples and the state are proved for all merged types, widths and lengths, given part blocks whose vector forms treat each lane as a single call; stopping is proved for ordinary blocks and false for parts of a merged block: a source that stops after three samples never stops when merged (proved)"
  },
  {
   "property": "C77",
   "status": "partial",
   "theorems": [
    "Verif.Conv.number_kept_partial",
    "Verif.Conv.result_typed",
    "Verif.Conv.same_type_accepted",
    "Verif.Conv.integer_conversion_partial",
    "Verif.Conv.integer_to_bool",
    "Verif.Conv.integer_to_floating",
    "Verif.Conv.whole_number_accepted",
    "Verif.Conv.unfit_refused",
    "Verif.Conv.double_to_float",
    "Verif.Conv.float_to_double",
    "Verif.Conv.to_complex",
    "Verif.Conv.not_finite_refused",
    "Verif.Conv.complex_refused",
    "Verif.Conv.text_refused",
    "Verif.Conv.bool_refused",
    "Verif.Conv.large_unsigned_wraps",
    "Verif.Conv.limit_undefined",
    "Verif.Conv.unsigned_zero_refused"
   ],
   "note": "proved for all values and types but three cases, which are false (witnesses): a uint64 of 2^63 and above turns negative for a signed member, a float or double of exactly one above the largest integer is undefined behaviour, and a uint64 zero is refused for float and double; complex values and not finite ones are refused for every other type; text and enumerations as targets are left out"
  },
  {
   "property": "C78",
   "status": "partial",
   "theorems": [
    "Verif.Tensor.places",
    "Verif.Tensor.programs_partial",
    "Verif.Tensor.programs_from_extents_partial",
    "Verif.Tensor.programs_from_elements_partial",
    "Verif.Tensor.programs_from_range_partial",
    "Verif.Tensor.extents_accepted",
    "Verif.Tensor.copy_shows",
    "Verif.Tensor.put_get",
    "Verif.Tensor.out_of_range_throws",
    "Verif.Tensor.moved_elements_not_shown",
    "Verif.Tensor.emplaced_elements_not_shown",
    "Verif.Tensor.assigned_elements_not_shown",
    "Verif.Tensor.refilled_view_undefined",
    "Verif.Tensor.pop_breaks_shape",
    "Verif.Tensor.inner_resize_moves",
    "Verif.Tensor.failed_resize_changes",
    "Verif.Tensor.ninth_dimension_undefined",
    "Verif.Tensor.scalar_append_loses",
    "Verif.Tensor.value_lost",
    "Verif.Tensor.no_index_undefined",
    "Verif.Tensor.empty_shape_order",
    "Verif.Tensor.own_element_partial",
    "Verif.Tensor.own_element_undefined",
    "Verif.Tensor.room_for_elements",
    "Verif.Tensor.failed_resize_dim_changes"
   ],
   "note": "proved for all programs of operations and all shapes, leaving out the operations for which it is false, each with a witness: changing an inner extent, appending by move or in place to a tensor without dimensions, assign to such a tensor, removing from a tensor of several dimensions, and more than eight dimensions"
  },
  {
   "property": "C79",
   "status": "partial",
   "theorems": [
    "Verif.Tensor.iteration_order",
    "Verif.Tensor.derived_view",
    "Verif.Tensor.views_exist",
    "Verif.Tensor.view_to_tensor",
    "Verif.Tensor.equal_iff",
    "Verif.Tensor.whole_view_reshape_partial",
    "Verif.Tensor.reshape_size",
    "Verif.Tensor.empty_transpose_throws",
    "Verif.Tensor.owned_forgets_shape",
    "Verif.Tensor.transposed_reshape_changes",
    "Verif.Tensor.single_index_differs",
    "Verif.Tensor.strided_index_differs"
   ],
   "note": "proved for every chain of slices and transpositions of every tensor reached by a sound program; false for reshape of a transposed view, a single index on a view of several dimensions, a single index on a strided view of one dimension, and the shape of an empty view taken over by owned (witnesses)"
  },
  {
   "property": "C80",
   "status": "partial",
   "theorems": [
    "Verif.Conv.elements_kept_partial",
    "Verif.Conv.safe_keeps",
    "Verif.Conv.widening_keeps_partial",
    "Verif.Conv.widening_defined",
    "Verif.Conv.policies_ordered",
    "Verif.Conv.own_type_accepted",
    "Verif.Conv.wider_accepted",
    "Verif.Conv.values_as_typed",
    "Verif.Conv.target_shape",
    "Verif.Conv.strict_shape_partial",
    "Verif.Conv.error_index",
    "Verif.Conv.elements_become",
    "Verif.Conv.refusal_kind",
    "Verif.Conv.map_kept",
    "Verif.Conv.assign_flat",
    "Verif.Conv.assign_tensor_partial",
    "Verif.Conv.fallback_used",
    "Verif.Conv.widening_rounds",
    "Verif.Conv.values_refused",
    "Verif.Conv.strict_ignores_extents",
    "Verif.Conv.empty_shape_lost",
    "Verif.Conv.scalar_lost",
    "Verif.Conv.flatten_ignored",
    "Verif.Conv.narrowing_unchecked",
    "Verif.Conv.assign_differs"
   ],
   "note": "proved for all arrays, types, policies and targets; false, with witnesses, for arrays without dimensions, for the shape of tensors without elements, for arrays of values into tensors of static extents with Strict, for Flatten into tensors, and for integers with more digits than the floating-point type with Widening"
  },
  {
   "property": "C81",
   "status": "partial",
   "theorems": [
    "Verif.Sync.samples_accounted_partial",
    "Verif.Sync.tags_accounted_partial",
    "Verif.Sync.in_step",
    "Verif.Sync.drop_count_wraps"
   ],
   "note": "proved for all runs with streams of fewer than 2^32 samples and room for the tags; the number of dropped samples is reported modulo 2^32, with a witness"
  },
  {
   "property": "C82",
   "status": "partial",
   "theorems": [
    "Verif.Sync.aligned_partial",
    "Verif.Sync.same_place_partial",
    "Verif.Sync.waits",
    "Verif.Sync.silent",
    "Verif.Sync.passes_on",
    "Verif.Sync.other_tag_misaligns",
    "Verif.Sync.zero_tolerance",
    "Verif.Sync.unmatched_tag_drops"
   ],
   "note": "proved for all runs if no other tags have a time as near as the synchronisation tags, false otherwise, with a witness; never aligned with a tolerance of zero; a synchronisation tag one input lacks costs samples on all outputs although they are aligned, unlike the documentation, with a witness"
  },
  {
   "property": "C83",
   "status": "partial",
   "theorems": [
    "Verif.Selector.map_taken_iff",
    "Verif.Selector.routes_partial",
    "Verif.Selector.one_input_partial",
    "Verif.Selector.in_step_partial",
    "Verif.Selector.one_after_another",
    "Verif.Selector.takes_most_partial",
    "Verif.Selector.unrouted_partial",
    "Verif.Selector.no_route",
    "Verif.Selector.starves",
    "Verif.Selector.refused_map_used",
    "Verif.Selector.repeated_pair_used",
    "Verif.Selector.fewer_ports_used",
    "Verif.Selector.combined_lost",
    "Verif.Selector.combined_outside",
    "Verif.Selector.stale_tag"
   ],
   "note": "proved for all runs without keeping inputs in step, and with it if the inputs of every output with several are tied to input 0; otherwise samples are lost or memory outside of the buffers is accessed, with witnesses; a refused mapping is used all the same, as is one that no longer fits the number of ports, with witnesses; tags of samples dropped before there was a route come out later at a wrong place, with a witness"
  },
  {
   "property": "C84",
   "status": "partial",
   "theorems": [
    "Verif.Selector.monitor_partial",
    "Verif.Selector.selection_lapses",
    "Verif.Selector.monitor_needs_route"
   ],
   "note": "proved for every call at which a selection arrives, with the same mappings as C83; false that a selection lasts until the next one: it lapses with the call, with a witness, and is ignored while there is no route"
  },
  {
   "property": "C85",
   "status": "partial",
   "theorems": [
    "Verif.Sink.callback_samples",
    "Verif.Sink.callback_tags",
    "Verif.Sink.blocking_samples",
    "Verif.Sink.blocking_tags",
    "Verif.Sink.dropping",
    "Verif.Sink.drops_when_full",
    "Verif.Sink.never_waits",
    "Verif.Sink.waits_for_room",
    "Verif.Sink.call_sizes",
    "Verif.Sink.poll_gives",
    "Verif.Sink.too_many_tags",
    "Verif.Sink.lost_tag_uncounted",
    "Verif.Sink.metadata_counted",
    "Verif.Sink.mixed_polls"
   ],
   "note": "all runs of callbacks and of pollers; false that tags lost with their samples are counted, that metadata counted as lost is, and that a poller that holds the sink back always goes on: with more tags in a chunk than its tag ring holds it waits for ever, with witnesses; a poll without tags takes away the tags of samples not read yet, with a witness"
  },
  {
   "property": "C86",
   "status": "partial",
   "theorems": [
    "Verif.Sink.trigger_windows",
    "Verif.Sink.trigger_added",
    "Verif.Sink.listeners_independent",
    "Verif.Sink.stream_in_sink",
    "Verif.Sink.history_runs",
    "Verif.Sink.history_new",
    "Verif.Sink.history_enough",
    "Verif.Sink.history_reversed",
    "Verif.Sink.window_reversed",
    "Verif.Sink.window_at_chunk"
   ],
   "note": "proved for every run while the history is not enlarged and with tags at the first sample of a chunk; a listener that looks back further than those before it turns the samples kept round, for all listeners, with a witness"
  },
  {
   "property": "C87",
   "status": "proved",
   "theorems": [
    "Verif.Sink.multiplexed_windows",
    "Verif.Sink.listeners_independent"
   ],
   "note": "for tags at the first sample of a chunk, as the framework cuts the stream"
  },
  {
   "property": "C88",
   "status": "partial",
   "theorems": [
    "Verif.Sink.snapshots_partial",
    "Verif.Sink.snapshot_overtaken"
   ],
   "note": "proved for every run in which the delay in samples does not change; when the sample rate changes a waiting snapshot keeps its number of samples and may be overtaken, with a witness; the product of delay and sample rate in floating point is a parameter"
  },
  {
   "property": "C89",
   "status": "partial",
   "theorems": [
    "Verif.Sink.sets_blocking",
    "Verif.Sink.sets_dropping",
    "Verif.Sink.sets_lost_iff_full",
    "Verif.Sink.sets_sizes",
    "Verif.Sink.sets_poll",
    "Verif.Sink.sets_finished",
    "Verif.Sink.set_listener",
    "Verif.Sink.late_pollers"
   ],
   "note": "false that a poller obtained after the sink stopped says it is finished: those for multiplexed data sets and snapshots never do"
  },
  {
   "property": "C90",
   "status": "partial",
   "theorems": [
    "Verif.Sink.registry_partial",
    "Verif.Sink.stop_terminates",
    "Verif.Sink.refused_takes_name",
    "Verif.Sink.stopped_again_takes_name",
    "Verif.Sink.refused_rename_stays",
    "Verif.Sink.not_registered_again"
   ],
   "note": "proved for operations that ask for nothing impossible and stop a sink only while all sinks in use are of its type; otherwise stopping ends the program, a sink takes the name of another away, or a sink that is gone is found, with witnesses"
  },
  {
   "property": "C91",
   "status": "partial",
   "theorems": [
    "Verif.FileIo.read_file",
    "Verif.FileIo.read_gzip",
    "Verif.FileIo.read_gzip_error",
    "Verif.FileIo.read_http_partial",
    "Verif.FileIo.http_offset_ignored",
    "Verif.FileIo.read_http_gzip",
    "Verif.FileIo.get_pieces",
    "Verif.FileIo.get_error",
    "Verif.FileIo.get_file",
    "Verif.FileIo.get_gzip",
    "Verif.FileIo.get_gzip_error",
    "Verif.FileIo.get_missing",
    "Verif.FileIo.gzip_huge_chunk"
   ],
   "note": "Proved for files and gzip sources. False for plain requests with an offset, which is ignored (http_offset_ignored), and for gzip sources with pieces of more than half the address space, where the worker dies without a final message (gzip_huge_chunk)."
  },
  {
   "property": "C92",
   "status": "partial",
   "theorems": [
    "Verif.FileIo.memory_ready",
    "Verif.FileIo.memory_ready_gzip",
    "Verif.FileIo.memory_error",
    "Verif.FileIo.memory_blocks_align",
    "Verif.FileIo.memory_blocks_tail",
    "Verif.FileIo.memory_blocks_gzip",
    "Verif.FileIo.memory_returns_partial",
    "Verif.FileIo.memory_returns_gzip_partial",
    "Verif.FileIo.memory_returns_aligned_partial"
   ],
   "note": "What is returned is proved. That the call never blocks is false (three witnesses); proved for a unit that divides the size of the pieces and the number of bytes, and for more slots than bytes."
  },
  {
   "property": "C93",
   "status": "proved",
   "theorems": [
    "Verif.FileIo.polls_order",
    "Verif.FileIo.poll_size",
    "Verif.FileIo.poll_progress"
   ],
   "note": ""
  },
  {
   "property": "C94",
   "status": "partial",
   "theorems": [
    "Verif.FileIo.source_plays",
    "Verif.FileIo.source_done",
    "Verif.FileIo.one_message",
    "Verif.FileIo.source_too_large",
    "Verif.FileIo.source_gzip_waits"
   ],
   "note": "Order, tags and end are proved for all calls. That the source gets to its end is false with default settings if the file does not fit into the output at once (source_too_large) or is compressed with samples of more than a byte (source_gzip_waits); proved if there is room for each message (source_done)."
  },
  {
   "property": "C95",
   "status": "partial",
   "theorems": [
    "Verif.FileIo.sink_overwrite_partial",
    "Verif.FileIo.sink_append",
    "Verif.FileIo.sink_multi_partial",
    "Verif.FileIo.sink_progress_partial",
    "Verif.FileIo.round_trip_partial",
    "Verif.FileIo.sink_partial_sample",
    "Verif.FileIo.sink_never",
    "Verif.FileIo.sink_append_bound",
    "Verif.FileIo.sink_overwrite_bound",
    "Verif.FileIo.sink_settings_lose",
    "Verif.FileIo.names_out_of_order"
   ],
   "note": "Proved if the sample size divides the bound of the file size (and without bound when overwriting); false otherwise. Files written in one millisecond are read back in another order than written."
  },
  {
   "property": "C96",
   "status": "partial",
   "theorems": [
    "Verif.FileIo.Queue.queue_order",
    "Verif.FileIo.Queue.queue_live",
    "Verif.FileIo.Queue.queue_ends",
    "Verif.FileIo.Queue.queue_final",
    "Verif.FileIo.Queue.cancel_no_final"
   ],
   "note": "Proved while the reader is polled. False for a reader that is cancelled and dropped (cancel_no_final)."
  },
  {
   "property": "C97",
   "status": "partial",
   "theorems": [
    "Verif.Wav.header_iff",
    "Verif.Wav.header_waits",
    "Verif.Wav.data_first_refused",
    "Verif.Wav.fmt_iff",
    "Verif.Wav.fmt_width",
    "Verif.Wav.wav_plays_partial",
    "Verif.Wav.wav_done_partial",
    "Verif.Wav.wav_safe",
    "Verif.Wav.gives_local",
    "Verif.Wav.gives_default",
    "Verif.Wav.large_file_refused",
    "Verif.Wav.offset_lost",
    "Verif.Wav.no_files_waits"
   ],
   "note": "Headers, and safety for arbitrary bytes, are proved. Playing is proved for files whose offset arrives with the header and whose header is complete within 2^20 bytes received; otherwise it is false (offset_lost, large_file_refused). A source without files never ends (no_files_waits)."
  },
  {
   "property": "C98",
   "status": "proved",
   "theorems": [
    "Verif.Wav.encode_onto",
    "Verif.Wav.convert_i16",
    "Verif.Wav.convert_i16_mono",
    "Verif.Wav.convert_f32",
    "Verif.Wav.convert_float",
    "Verif.Wav.convert_float_i16"
   ],
   "note": "A float NaN put out as a 16 bit number is unspecified (std::lround) and modelled as such. The cast of a ratio to float is left as the ratio."
  },
  {
   "property": "C99",
   "status": "partial",
   "theorems": [
    "Verif.Wav.sink_files",
    "Verif.Wav.sink_takes_all",
    "Verif.Wav.sink_stuck",
    "Verif.Wav.sink_no_call"
   ],
   "note": "What is written is proved for all settings. That all samples are taken is false for a bound that is no multiple of the sample size (sink_stuck), and proved otherwise. A sink stopped before its first call leaves an empty file (sink_no_call)."
  },
  {
   "property": "C100",
   "status": "partial",
   "theorems": [
    "Verif.Wav.wav_round_trip_partial",
    "Verif.Wav.frame_cut_refused",
    "Verif.Wav.channels_refused",
    "Verif.Wav.file_order"
   ],
   "note": "Proved for one file of at most 2^20 bytes of whole frames of less than 2^16 bytes. False for rotated files that end within a frame, for many channels and for the order of more than ten files."
  },
  {
   "property": "C101",
   "status": "partial",
   "theorems": [
    "Verif.Schmitt.edges_exact",
    "Verif.Schmitt.plain_total",
    "Verif.Schmitt.not_always_defined",
    "Verif.Schmitt.edges_alternate",
    "Verif.Schmitt.last_edge_distance",
    "Verif.Schmitt.basic_placed",
    "Verif.Schmitt.zone_placed",
    "Verif.Schmitt.zone_edges_partial",
    "Verif.Schmitt.not_zone_edges",
    "Verif.Schmitt.level_regression"
   ],
   "note": "Exact edges are proved without interpolation and with interpolation between two samples. The regression methods miss edges before the first sample at or below the lower threshold (not_zone_edges) and report exactly the others (zone_edges_partial). The computation is undefined 2^31 samples after an edge (not_always_defined) and for a level regression line (level_regression)."
  },
  {
   "property": "C102",
   "status": "proved",
   "theorems": [
    "Verif.Schmitt.passes_through",
    "Verif.Schmitt.drains",
    "Verif.Schmitt.holds_back"
   ],
   "note": "For all methods, as long as the computation is defined (C101, C103)."
  },
  {
   "property": "C103",
   "status": "partial",
   "theorems": [
    "Verif.Schmitt.edge_tags",
    "Verif.Schmitt.calls_do_not_matter",
    "Verif.Schmitt.plain_run_defined",
    "Verif.Schmitt.not_calls_do_not_matter",
    "Verif.Schmitt.counted_twice",
    "Verif.Schmitt.time_undefined"
   ],
   "note": "Proved without interpolation. With interpolation an edge placed before the current call is lost (not_calls_do_not_matter), samples after an edge are counted twice (counted_twice) and the time of an edge is undefined (time_undefined)."
  },
  {
   "property": "C104",
   "status": "partial",
   "theorems": [
    "Verif.Schmitt.thresholds_partial",
    "Verif.Schmitt.not_default_thresholds",
    "Verif.Schmitt.times_apart_partial",
    "Verif.Schmitt.not_nanoseconds",
    "Verif.Schmitt.clock_stands"
   ],
   "note": "Thresholds are right if one of the two settings was given; with both at their defaults they are 1 and 1 (not_default_thresholds). Times count microseconds as nanoseconds (not_nanoseconds) and stand still above 1 MHz (clock_stands)."
  },
  {
   "property": "C105",
   "status": "partial",
   "theorems": [
    "Verif.Gemm.gemm_exact",
    "Verif.Gemm.mat_packed",
    "Verif.Gemm.gemm_refuses_iff",
    "Verif.Gemm.gemm_safe",
    "Verif.Gemm.gemm_empty_wrong",
    "Verif.Gemm.gemm_empty_unchecked"
   ],
   "note": "Exact for all shapes without an empty matrix. If a factor is empty C is not scaled by beta and shapes are not compared (gemm_empty_wrong, gemm_empty_unchecked)."
  },
  {
   "property": "C106",
   "status": "partial",
   "theorems": [
    "Verif.Gemm.gemm_transB",
    "Verif.Gemm.gemm_transB_partial",
    "Verif.Gemm.gemm_transB_wrong",
    "Verif.Gemm.conj_dropped",
    "Verif.Gemm.conj_wrong",
    "Verif.Gemm.gemm_safe"
   ],
   "note": "False of the code: rows of the transposed view are read as if their elements lay one behind the other. gemm_transB says what is computed, gemm_transB_partial that it is right for a factor with one row or column. ConjTrans does not conjugate (conj_dropped, conj_wrong)."
  },
  {
   "property": "C107",
   "status": "partial",
   "theorems": [
    "Verif.Gemm.gemv_exact_partial",
    "Verif.Gemm.gemv_refuses_iff",
    "Verif.Gemm.gemv_safe",
    "Verif.Gemm.gemv_strided_wrong",
    "Verif.Gemm.gemv_empty_wrong"
   ],
   "note": "Exact for matrices and views whose rows have their elements one behind the other; nothing checks this, and other views give wrong results (gemv_strided_wrong). Empty operands return before y is scaled (gemv_empty_wrong)."
  },
  {
   "property": "C108",
   "status": "partial",
   "theorems": [
    "Verif.Plug.create_last",
    "Verif.Plug.keys_claimed",
    "Verif.Plug.saved_name_partial",
    "Verif.Plug.saved_name_clash",
    "Verif.Plug.create_merge",
    "Verif.Plug.merge_breaks_saved_name",
    "Verif.Plug.insert_reports_type",
    "Verif.Plug.new_alias_not_reported",
    "Verif.Plug.alias_verbatim",
    "Verif.Plug.alias_portable",
    "Verif.Plug.unknown_type_name"
   ],
   "note": "The saved name creates the same type if no name is claimed for two types. With a clash it creates another type (saved_name_clash), and merging can cause one (merge_breaks_saved_name). insert never reports a new alias (new_alias_not_reported)."
  },
  {
   "property": "C109",
   "status": "partial",
   "theorems": [
    "Verif.Plug.made_iff",
    "Verif.Plug.precedence",
    "Verif.Plug.available_sorted",
    "Verif.Plug.makeable_listed",
    "Verif.Plug.isAvailable_made",
    "Verif.Plug.defined_not_available",
    "Verif.Plug.ranked_ends",
    "Verif.Plug.cycle_endless",
    "Verif.Plug.self_definition_endless"
   ],
   "note": "isBlockAvailable says no for blocks with a definition (defined_not_available). A request ends if definitions do not refer to each other in circles (ranked_ends), otherwise it recurses without end (cycle_endless, self_definition_endless). Errors in connections and parameters of a definition are not modelled."
  },
  {
   "property": "C110",
   "status": "partial",
   "theorems": [
    "Verif.Plug.loads_done",
    "Verif.Plug.first_plugin_wins",
    "Verif.Plug.loads_ok",
    "Verif.Plug.reports_once",
    "Verif.Plug.loadAll_once",
    "Verif.Plug.async_once",
    "Verif.Plug.load_result",
    "Verif.Plug.failed_then_success",
    "Verif.Plug.directories_split"
   ],
   "note": "Proved except that success means the plugin is there: a file that failed reports success when asked for again (load_result, failed_then_success)."
  },
  {
   "property": "C111",
   "status": "partial",
   "theorems": [
    "Verif.Plug.cache_fresh_partial",
    "Verif.Plug.crash_truncates",
    "Verif.Plug.full_disk_truncates",
    "Verif.Plug.rounded_time_stale",
    "Verif.Plug.no_time_no_cache"
   ],
   "note": "Proved where writing the cache file does not stop in the middle. After a crash or on a full disk the truncated file is used from then on (crash_truncates, full_disk_truncates); times rounded to seconds can hide a change (rounded_time_stale). One definition at a time: cache file names of different sources are taken to differ."
  },
  {
   "property": "C112",
   "status": "proved",
   "theorems": [
    "Verif.Taper.calls_safe",
    "Verif.Taper.whole_ramps",
    "Verif.Taper.pulse",
    "Verif.Taper.settles",
    "Verif.Taper.turns_back",
    "Verif.Taper.turns_up",
    "Verif.Taper.forced_jump",
    "Verif.Taper.set_result",
    "Verif.Taper.remaining_exact"
   ],
   "note": "Over any commutative ring of samples. With forced requests the envelope can jump (forced_jump)."
  },
  {
   "property": "C113",
   "status": "partial",
   "theorems": [
    "Verif.Taper.blocks_do_not_matter",
    "Verif.Taper.block_is_samples_partial",
    "Verif.Taper.block_differs"
   ],
   "note": "Blocks: proved for every state. One sample at a time: equal except at the end of a ramp reached by a forced turn, where processOne gives one sample more (block_differs)."
  },
  {
   "property": "C114",
   "status": "partial",
   "theorems": [
    "Verif.Taper.edge_length",
    "Verif.Taper.edge_shape",
    "Verif.Taper.edge_single",
    "Verif.Taper.taper_layout",
    "Verif.Taper.none_all_ones",
    "Verif.Taper.linear_monotone",
    "Verif.Taper.mushroom_integral",
    "Verif.Taper.mushroom_sum"
   ],
   "note": "In exact arithmetic. The fall mirrors the rise for two samples or more, not for one (edge_single). The integral of the mushroom shape is 0, the trapezoidal sum of its samples is 1/(2m^3) (mushroom_sum). Shapes with cosine and exponential are covered as any function."
  },
  {
   "property": "C115",
   "status": "partial",
   "theorems": [
    "Verif.Clock.counts",
    "Verif.Clock.ends",
    "Verif.Clock.defined_partial",
    "Verif.Clock.nothing_to_hold",
    "Verif.Clock.unlimited"
   ],
   "note": "Proved, except that a call reads the last of no texts if texts are to be held and there are none (nothing_to_hold). Without a maximum: for sources without tags."
  },
  {
   "property": "C116",
   "status": "partial",
   "theorems": [
    "Verif.Clock.tags_placed_partial",
    "Verif.Clock.passed_blocks",
    "Verif.Clock.second_lost",
    "Verif.Clock.both_at_start_lost",
    "Verif.Clock.tag_after_end",
    "Verif.Clock.close_times_late",
    "Verif.Clock.zero_period_repeats",
    "Verif.Clock.period_truncated"
   ],
   "note": "Proved for sources with a maximum where no two tags are at the same sample. Otherwise tags are lost with all later ones (passed_blocks, second_lost, both_at_start_lost) or late (close_times_late). The period counts in whole microseconds (period_truncated), and with the default period a tag at time 0 comes at every sample (zero_period_repeats)."
  },
  {
   "property": "C117",
   "status": "partial",
   "theorems": [
    "Verif.Clock.never_ahead_partial",
    "Verif.Clock.keeps_up",
    "Verif.Clock.exact_rate",
    "Verif.Clock.rate_drifts",
    "Verif.Clock.drop_not_ahead",
    "Verif.Clock.drop_starves",
    "Verif.Clock.clock_back",
    "Verif.Clock.clocked"
   ],
   "note": "In exact arithmetic. Each call can gain a tick (never_ahead_partial, rate_drifts); exact where a sample is a whole number of ticks (exact_rate). Dropping late samples loses all if called often (drop_starves). A clock that goes back is undefined (clock_back)."
  },
  {
   "property": "C118",
   "status": "partial",
   "theorems": [
    "Verif.Clock.one_timer",
    "Verif.Clock.stop_quiet",
    "Verif.Clock.stop_ends",
    "Verif.Clock.not_started_again",
    "Verif.Clock.notified_after_stop"
   ],
   "note": "For one thread that starts and stops. A timer that ended by itself is not started again (not_started_again). The notification of the end can come after stop has returned (notified_after_stop)."
  },
  {
   "property": "C119",
   "status": "proved",
   "theorems": [
    "Verif.Log.log_store_sequential",
    "Verif.Log.log_one_inside",
    "Verif.Log.log_flag_exact",
    "Verif.Log.log_counts",
    "Verif.Log.snapshot_shows_newest",
    "Verif.Log.drains_in_order",
    "Verif.Log.drains_complete",
    "Verif.Log.log_call_returns",
    "Verif.Log.log_wait_free"
   ],
   "note": "For interleavings of sequentially consistent steps."
  },
  {
   "property": "C120",
   "status": "partial",
   "theorems": [
    "Verif.Log.dropped_before_exact",
    "Verif.Log.dropped_before_kept",
    "Verif.Log.drained_counts_as_lost"
   ],
   "note": "The number is exactly the accepted records the store can no longer show plus the refused ones. It counts records that a drain has already handed out (drained_counts_as_lost), so for a consumer that drains it is not the number lost."
  },
  {
   "property": "C121",
   "status": "partial",
   "theorems": [
    "Verif.Log.Console.console_one_writer",
    "Verif.Log.Console.console_one_flusher",
    "Verif.Log.Console.console_flags_down",
    "Verif.Log.Console.console_ring_order",
    "Verif.Log.Console.console_direct_lines",
    "Verif.Log.Console.console_drop_count",
    "Verif.Log.Console.console_lines_published",
    "Verif.Log.Console.console_quiet_committed",
    "Verif.Log.Console.flush_alone_prints",
    "Verif.Log.Console.publish_alone_visible",
    "Verif.Log.Console.publish_may_strand",
    "Verif.Log.Console.console_may_lose"
   ],
   "note": "Order, single writer and origin of lines are proved. A record is on the console when publish returns only if nobody interferes (publish_alone_visible); otherwise it can stay in the ring (publish_may_strand) or be lost (console_may_lose)."
  },
  {
   "property": "C122",
   "status": "partial",
   "theorems": [
    "Verif.Log.Line.record_text",
    "Verif.Log.Line.filename_spec",
    "Verif.Log.Line.record_location",
    "Verif.Log.Line.console_line_complete",
    "Verif.Log.Line.made_record_line",
    "Verif.Log.Line.line_stream"
   ],
   "note": "Proved for the text. By line_stream the level failure, between fatal and error in the order of severity, goes to stdout."
  },
  {
   "property": "C123",
   "status": "partial",
   "theorems": [
    "Verif.Mem.arena_allocate",
    "Verif.Mem.arena_blocks",
    "Verif.Mem.arena_monotonic",
    "Verif.Mem.arena_available",
    "Verif.Mem.arena_empty_request",
    "Verif.Mem.arena_empty_unaligned"
   ],
   "note": "Proved for requests of at least one byte. A request for no bytes can get a pointer that is not aligned (arena_empty_unaligned)."
  },
  {
   "property": "C124",
   "status": "partial",
   "theorems": [
    "Verif.Mem.counting_exact",
    "Verif.Mem.refused_request_counted",
    "Verif.Mem.aligned_request_partial",
    "Verif.Mem.aligned_request_overflows",
    "Verif.Mem.migrate_all_or_nothing",
    "Verif.Mem.migrate_same",
    "Verif.Mem.migrate_leaks_empty"
   ],
   "note": "Counting is exact if the upstream refuses nothing; a refused request stays counted (refused_request_counted). The size is right below 2^64 bytes and wraps silently beyond (aligned_request_overflows). Moving is all or nothing for blocks with elements; a block for no elements is leaked (migrate_leaks_empty)."
  },
  {
   "property": "C125",
   "status": "partial",
   "theorems": [
    "Verif.Mem.scopes_restore",
    "Verif.Mem.scope_in_force",
    "Verif.Mem.profile_scopes_independent",
    "Verif.Mem.default_scope_may_stick",
    "Verif.Mem.profile_fallback"
   ],
   "note": "Proved for profile scopes, which are per thread. The default resource is shared: overlapping scopes of two threads can leave it at a resource whose scope has ended (default_scope_may_stick)."
  },
  {
   "property": "C126",
   "status": "partial",
   "theorems": [
    "Verif.FileIo.gzip_suffix",
    "Verif.FileIo.automatic_by_name",
    "Verif.FileIo.encode_failure",
    "Verif.FileIo.prepare_spec",
    "Verif.FileIo.write_exact",
    "Verif.FileIo.write_read_plain",
    "Verif.FileIo.write_read_gzip_partial",
    "Verif.FileIo.append_read_gzip_partial",
    "Verif.FileIo.done_is_written_partial",
    "Verif.FileIo.append_keeps",
    "Verif.FileIo.append_refused",
    "Verif.FileIo.explicit_modes_agree",
    "Verif.FileIo.gz_name_one_way",
    "Verif.FileIo.done_not_written",
    "Verif.FileIo.failed_overwrite_loses",
    "Verif.FileIo.cancelled_write"
   ],
   "note": "Exactness and reading back are proved (gzip for data below 4 GiB). Success is reported although buffered bytes did not fit when the stream was closed (done_not_written); an overwrite that fails has already emptied the file (failed_overwrite_loses); a write that was cancelled late reports cancelled although the file is written (cancelled_write)."
  },
  {
   "property": "C127",
   "status": "partial",
   "theorems": [
    "Verif.FileIo.Wait.one_final",
    "Verif.FileIo.Wait.wait_means_done",
    "Verif.FileIo.Wait.writer_result_true",
    "Verif.FileIo.Wait.writer_result_final",
    "Verif.FileIo.Wait.wait_after_done",
    "Verif.FileIo.Wait.wait_ends_partial",
    "Verif.FileIo.Wait.wait_may_hang",
    "Verif.FileIo.Wait.reader_sleeps_rightly",
    "Verif.FileIo.Wait.reader_wait_ends"
   ],
   "note": "Proved for readers. Writer::wait looks at done before it reads the counter, so a write that ends in between leaves the waiting thread asleep for ever (wait_may_hang); the rest is proved for writers."
  },
  {
   "property": "C128",
   "status": "partial",
   "theorems": [
    "Verif.Nmea.hex_digits",
    "Verif.Nmea.sent_accepted",
    "Verif.Nmea.changed_payload",
    "Verif.Nmea.wrong_character_rejected",
    "Verif.Nmea.accepted_iff",
    "Verif.Nmea.rejected_line",
    "Verif.Nmea.fields_exact",
    "Verif.Nmea.wrong_star_accepted",
    "Verif.Nmea.half_checksum_accepted"
   ],
   "note": "Proved for errors before the star. A damaged star makes the line one without a checksum, which is accepted (wrong_star_accepted), and one hexadecimal digit followed by another character is accepted as a checksum (half_checksum_accepted)."
  },
  {
   "property": "C129",
   "status": "partial",
   "theorems": [
    "Verif.Nmea.int_field",
    "Verif.Nmea.negative_field",
    "Verif.Nmea.epoch",
    "Verif.Nmea.calendar",
    "Verif.Nmea.utc_exact",
    "Verif.Nmea.utc_fraction",
    "Verif.Nmea.coord_exact",
    "Verif.Nmea.coord_without_point"
   ],
   "note": "Exact decimal arithmetic in place of doubles. Coordinates without a decimal point are read as 0 (coord_without_point), and all years are taken to be 2000 or later."
  },
  {
   "property": "C130",
   "status": "partial",
   "theorems": [
    "Verif.Nmea.complete_is_last",
    "Verif.Nmea.rmc_void",
    "Verif.Nmea.gga_time",
    "Verif.Nmea.fix_per_second",
    "Verif.Nmea.fix_contents",
    "Verif.Nmea.fix_time",
    "Verif.Nmea.dateless_fix",
    "Verif.Nmea.minute_gap_merges"
   ],
   "note": "Proved with seconds told apart by the seconds field alone, so a gap of whole minutes is not seen (minute_gap_merges). A valid line without a date is put into the year 2000 although the date is known (dateless_fix)."
  },
  {
   "property": "C131",
   "status": "proved",
   "theorems": [
    "Verif.Rng.uniformM11_value",
    "Verif.Rng.mix_injective",
    "Verif.Rng.seed_nonzero",
    "Verif.Rng.seed_injective",
    "Verif.Rng.step_undone",
    "Verif.Rng.never_zero",
    "Verif.Rng.purely_periodic",
    "Verif.Rng.uniform01_range",
    "Verif.Rng.uniformM11_range",
    "Verif.Rng.triangular_range",
    "Verif.Rng.uniform01_even"
   ],
   "note": "The period is shown to exist; its length 2^256-1 is not proved."
  },
  {
   "property": "C132",
   "status": "partial",
   "theorems": [
    "Verif.Rng.polar_point",
    "Verif.Rng.configure_seeds",
    "Verif.Rng.configured_seeds_differ",
    "Verif.Rng.fill_is_samples_partial",
    "Verif.Rng.chunks_of_any_size",
    "Verif.Rng.chunks_of_even_size_partial",
    "Verif.Rng.odd_chunks_differ",
    "Verif.Rng.complex_is_samples_partial",
    "Verif.Rng.complex_chunks",
    "Verif.Rng.leftover_differs",
    "Verif.Rng.samples_bounded",
    "Verif.Rng.seed_decides",
    "Verif.Rng.seeds_differ"
   ],
   "note": "Proved for uniform, triangular and complex noise in exact arithmetic. Real normally distributed noise drops the second number of a pair at the end of an odd chunk, so chunk sizes change it (odd_chunks_differ)."
  },
  {
   "property": "C133",
   "status": "proved",
   "theorems": [
    "Verif.Tone.fill_is_samples",
    "Verif.Tone.complex_is_samples",
    "Verif.Tone.chunks_do_not_matter",
    "Verif.Tone.real_part",
    "Verif.Tone.constant_when_still"
   ],
   "note": "In exact arithmetic: any commutative ring whose sines and cosines lie on the unit circle."
  },
  {
   "property": "C134",
   "status": "partial",
   "theorems": [
    "Verif.Tone.complex_sample",
    "Verif.Tone.complex_on_circle",
    "Verif.Tone.square_shape",
    "Verif.Tone.saw_shape",
    "Verif.Tone.triangle_shape",
    "Verif.Tone.shapes_bounded",
    "Verif.Tone.samples_at_times",
    "Verif.Tone.tone_exact",
    "Verif.Tone.fast_chunk_exact",
    "Verif.Tone.change_separates"
   ],
   "note": "Proved after a reset, with real and rational numbers in place of floating point numbers. After a change of settings without a reset, FastSin starts again while Sin goes on (change_separates)."
  },
  {
   "property": "C135",
   "status": "partial",
   "theorems": [
    "Verif.Tone.reset_starts_over",
    "Verif.Tone.clamp_exact",
    "Verif.Tone.start_decides",
    "Verif.Tone.change_keeps_time",
    "Verif.Tone.change_restarts_noise",
    "Verif.Tone.change_resets_fast_tone"
   ],
   "note": "Proved for the start, for slow tones and for integer conversion. A change of any setting restarts noise from its seed (change_restarts_noise) and sets fast tones back to their phase (change_resets_fast_tone)."
  },
  {
   "property": "C136",
   "status": "partial",
   "theorems": [
    "Verif.Basic.head_exact",
    "Verif.Basic.head_unlimited",
    "Verif.Basic.head_consumed",
    "Verif.Basic.head_passes_twice",
    "Verif.Basic.head_restart_without_reset",
    "Verif.Basic.constant_exact",
    "Verif.Basic.counting_exact",
    "Verif.Basic.counting_starts_after_default",
    "Verif.Basic.sink_exact_partial",
    "Verif.Basic.sink_overshoots",
    "Verif.Basic.sink_lowered_limit",
    "Verif.Basic.unlimited_sink"
   ],
   "note": "Proved for head blocks and sources without restriction, and for the sink as long as limit plus chunk stays below 2^32; otherwise it overshoots (sink_overshoots). The call in which a head block stops consumes nothing (head_passes_twice)."
  },
  {
   "property": "C137",
   "status": "proved",
   "theorems": [
    "Verif.Basic.combine_samples",
    "Verif.Basic.combine_no_inputs",
    "Verif.Basic.add_eval",
    "Verif.Basic.sub_eval",
    "Verif.Basic.add_many",
    "Verif.Basic.sub_many",
    "Verif.Basic.mul_many",
    "Verif.Basic.mul_u16_undefined",
    "Verif.Basic.div_undefined",
    "Verif.Basic.div_smallest",
    "Verif.Basic.div_eval",
    "Verif.Basic.combine_undefined"
   ],
   "note": "Integer types; floating point and complex operations only through combine_samples, which holds for any operation. Signed types as wide as int or wider may overflow, which is undefined."
  },
  {
   "property": "C138",
   "status": "partial",
   "theorems": [
    "Verif.Basic.convert_exact",
    "Verif.Basic.convert_modulo",
    "Verif.Basic.convert_back",
    "Verif.Basic.scale_fits",
    "Verif.Basic.scale_differs",
    "Verif.Basic.scale_lane",
    "Verif.Basic.abs_signed",
    "Verif.Basic.abs_smallest",
    "Verif.Basic.abs_unsigned_low",
    "Verif.Basic.abs_unsigned_high",
    "Verif.Basic.interleave_samples",
    "Verif.Basic.interleave_chunks",
    "Verif.Basic.deinterleave_interleave",
    "Verif.Basic.interleave_deinterleave",
    "Verif.Basic.realImag_roundtrip",
    "Verif.Basic.deinterleave_defined"
   ],
   "note": "Integer types. Scaling agrees only when the product fits the input type (scale_differs); absolute values of unsigned samples above the middle of their range are wrong (abs_unsigned_high)."
  },
  {
   "property": "C139",
   "status": "proved",
   "theorems": [
    "Verif.Basic.delay_prefix",
    "Verif.Basic.delay_waits",
    "Verif.Basic.delay_passes",
    "Verif.Basic.slow_spacing",
    "Verif.Basic.slow_publishes",
    "Verif.Basic.slow_clock_set_back"
   ],
   "note": "The spacing needs that the system clock does not go back between the two readings of one call."
  },
  {
   "property": "C140",
   "status": "partial",
   "theorems": [
    "Verif.Basic.rotator_chunks",
    "Verif.Basic.rotator_out",
    "Verif.Basic.rotator_phase",
    "Verif.Basic.rotator_bounded",
    "Verif.Basic.rotator_grows",
    "Verif.Basic.rotator_set_shift",
    "Verif.Basic.rotator_set_increment",
    "Verif.Basic.rotator_set_both",
    "Verif.Basic.rotator_rate_stale",
    "Verif.Basic.rotator_set_restarts",
    "Verif.Basic.full_turn_kept"
   ],
   "note": "Exact arithmetic. The bound needs an increment of at most a turn (rotator_grows), and a new sample rate alone leaves a stale increment (rotator_rate_stale)."
  },
  {
   "property": "C141",
   "status": "partial",
   "theorems": [
    "Verif.Drift.nominal_at_first",
    "Verif.Drift.initial_ppm_not_shown",
    "Verif.Drift.gap_not_measured",
    "Verif.Drift.clock_goes_back",
    "Verif.Drift.on_time",
    "Verif.Drift.burst_halves_rate"
   ],
   "note": "Exact arithmetic. Proved for chunks on time and for gaps. A chunk with no time since the last one drops its samples from the estimate (burst_halves_rate), and an initial deviation does not show before the second observation (initial_ppm_not_shown)."
  },
  {
   "property": "C142",
   "status": "partial",
   "theorems": [
    "Verif.Drift.adjust_spec",
    "Verif.Drift.inserted_mean",
    "Verif.Drift.insertion_out_of_order",
    "Verif.Drift.long_run",
    "Verif.Drift.source_long_run",
    "Verif.Drift.clamped",
    "Verif.Drift.large_drift_lost",
    "Verif.Drift.sink_is_source"
   ],
   "note": "Exact arithmetic. The long run needs a drift of at most one frame per call and room for it (large_drift_lost). The inserted frame comes after the last one it lies before in value (insertion_out_of_order)."
  },
  {
   "property": "C143",
   "status": "partial",
   "theorems": [
    "Verif.Drift.hermite_curve",
    "Verif.Drift.hermite_overshoots",
    "Verif.Drift.position_range",
    "Verif.Drift.resample_reads",
    "Verif.Drift.resample_ends",
    "Verif.Drift.adaptive_small_drift",
    "Verif.Drift.adaptive_drifts_away",
    "Verif.Drift.modes_disagree",
    "Verif.Drift.sink_modes_agree",
    "Verif.Drift.no_correction",
    "Verif.Drift.source_adaptive"
   ],
   "note": "Exact arithmetic. Proved for a single call; over many calls drifts below half a frame per call are never corrected (adaptive_drifts_away), and at a source the direction is opposite to the other modes (modes_disagree)."
  },
  {
   "property": "C144",
   "status": "partial",
   "theorems": [
    "Verif.Func.linear_shape",
    "Verif.Func.spline_shape",
    "Verif.Func.rising",
    "Verif.Func.parabolic_shape_partial",
    "Verif.Func.parabolic_undefined",
    "Verif.Func.no_duration",
    "Verif.Func.impulse_shape",
    "Verif.Func.samples_exact",
    "Verif.Func.begin_time",
    "Verif.Func.tone_duration",
    "Verif.Func.tone_settings",
    "Verif.Func.noise_settings"
   ],
   "note": "Exact arithmetic, real samples. Rounded ramps need a positive round-off time below half the duration (parabolic_undefined), the other ramps a positive duration (no_duration)."
  },
  {
   "property": "C145",
   "status": "partial",
   "theorems": [
    "Verif.Func.new_signal",
    "Verif.Func.wrong_trigger",
    "Verif.Func.wrong_trigger_samples",
    "Verif.Func.wrong_trigger_restarts_tone",
    "Verif.Func.missing_trigger",
    "Verif.Func.values_not_guarded"
   ],
   "note": "Proved for changes which name a trigger, for ramps and impulses. A tone is set back to its phase by a wrong trigger (wrong_trigger_restarts_tone); without a trigger name the new signal is taken in the middle of its course (missing_trigger); values without a type are taken at once (values_not_guarded)."
  },
  {
   "property": "C146",
   "status": "partial",
   "theorems": [
    "Verif.Uncert.add_propagates",
    "Verif.Uncert.sub_propagates",
    "Verif.Uncert.mul_propagates",
    "Verif.Uncert.div_propagates",
    "Verif.Uncert.pow_propagates",
    "Verif.Uncert.powNum_propagates",
    "Verif.Uncert.sqrt_propagates",
    "Verif.Uncert.sin_propagates",
    "Verif.Uncert.cos_propagates",
    "Verif.Uncert.log_propagates",
    "Verif.Uncert.log10_propagates",
    "Verif.Uncert.exp_propagates",
    "Verif.Uncert.plain_number",
    "Verif.Uncert.negative_factor",
    "Verif.Uncert.add_comm'",
    "Verif.Uncert.mul_comm'",
    "Verif.Uncert.add_assoc'",
    "Verif.Uncert.self_difference",
    "Verif.Uncert.plus_is_abs",
    "Verif.Uncert.abs_value",
    "Verif.Uncert.pow_of_zero",
    "Verif.Uncert.cadd_parts",
    "Verif.Uncert.cmul_wrong_part"
   ],
   "note": "Real numbers, positive bases. A product with a negative plain number has a negative uncertainty (negative_factor), powers of zero lose theirs (pow_of_zero), products of complex values put it in the wrong part (cmul_wrong_part)."
  },
  {
   "property": "C147",
   "status": "partial",
   "theorems": [
    "Verif.DSet.window_near",
    "Verif.DSet.movingAverage_spec",
    "Verif.DSet.rms_spec",
    "Verif.DSet.peakToPeak_spec",
    "Verif.DSet.median_spec_partial",
    "Verif.DSet.median_even_undefined"
   ],
   "note": "Exact arithmetic. A median of even width writes past its buffer (median_even_undefined)."
  },
  {
   "property": "C148",
   "status": "proved",
   "theorems": [
    "Verif.DSet.interp_between",
    "Verif.DSet.interp_outside",
    "Verif.DSet.interp_short"
   ],
   "note": "Exact arithmetic, rising axes with a value for each point; with fewer values the code reads past the end (interp_short)."
  },
  {
   "property": "C149",
   "status": "partial",
   "theorems": [
    "Verif.DSet.combine_same",
    "Verif.DSet.combine_other",
    "Verif.DSet.combineNum_spec",
    "Verif.DSet.undo",
    "Verif.DSet.identity_adds",
    "Verif.DSet.op_values",
    "Verif.DSet.consistent_iff",
    "Verif.DSet.differences_spec",
    "Verif.DSet.signals_disjoint",
    "Verif.DSet.combine_consistent_partial",
    "Verif.DSet.combine_two_inconsistent"
   ],
   "note": "Exact arithmetic without logarithms. The result is consistent for one signal over one axis; with two signals it is not (combine_two_inconsistent)."
  },
  {
   "property": "C150",
   "status": "partial",
   "theorems": [
    "Verif.Savgol.reflect_mirrors",
    "Verif.Savgol.others_replicate",
    "Verif.Savgol.apply_length",
    "Verif.Savgol.apply_linear",
    "Verif.Savgol.apply_constant",
    "Verif.Savgol.apply_polynomial",
    "Verif.Savgol.apply_reverse",
    "Verif.Savgol.zero_phase"
   ],
   "note": "Exact arithmetic. The singular value decomposition is not modelled: the coefficients are assumed to be a row of a left inverse of the Vandermonde matrix times the modelled scale, which is what the pseudo-inverse of a matrix of full column rank is. Time symmetry for symmetric rows of odd length."
  },
  {
   "property": "C151",
   "status": "partial",
   "theorems": [
    "Verif.Savgol.stream_value",
    "Verif.Savgol.stream_is_batch",
    "Verif.Savgol.delay_odd",
    "Verif.Savgol.delay_even_short",
    "Verif.Savgol.default_value_ignored",
    "Verif.Savgol.default_disagrees",
    "Verif.Savgol.reset_starts_over",
    "Verif.Savgol.set_parameters_starts_over"
   ],
   "note": "Exact arithmetic. False for even windows, whose delay is reported one sample too short (delay_even_short), and for the default policy, which the batch filter ignores (default_disagrees)."
  },
  {
   "property": "C152",
   "status": "partial",
   "theorems": [
    "Verif.Power.power_triangle",
    "Verif.Power.negative_average",
    "Verif.Power.active_le_apparent",
    "Verif.Power.ringing_filter",
    "Verif.Power.chunks",
    "Verif.Power.decimates",
    "Verif.Power.first_of_group",
    "Verif.Power.averages_of_signals"
   ],
   "note": "Real numbers. Active power is at most apparent power for averages with weights that are not negative; the second-order low-pass filter in use rings, and an average of squares below zero makes the values no numbers (ringing_filter)."
  },
  {
   "property": "C153",
   "status": "proved",
   "theorems": [
    "Verif.Power.power_factor_range",
    "Verif.Power.deviations_agree",
    "Verif.Power.unbalance_value",
    "Verif.Power.balanced_iff",
    "Verif.Power.unbalance_scale",
    "Verif.Power.total_power"
   ],
   "note": "Real numbers instead of floating point; uncertain values are not modelled."
  },
  {
   "property": "C154",
   "status": "partial",
   "theorems": [
    "Verif.DEst.range_checked",
    "Verif.DEst.maximum_spec",
    "Verif.DEst.maximum_of_lowest",
    "Verif.DEst.minimum_spec_partial",
    "Verif.DEst.minimum_place_wrong",
    "Verif.DEst.mean_spec",
    "Verif.DEst.rms_is_deviation",
    "Verif.DEst.median_splits"
   ],
   "note": "Exact arithmetic. False for the place of the minimum: the last finite sample is reported (minimum_place_wrong)."
  },
  {
   "property": "C155",
   "status": "proved",
   "theorems": [
    "Verif.DEst.integral_adds",
    "Verif.DEst.integral_halves_lose",
    "Verif.DEst.integral_line",
    "Verif.DEst.centre_spec",
    "Verif.DEst.centre_within",
    "Verif.DEst.centre_outside"
   ],
   "note": "Exact arithmetic; uncertain values are not modelled."
  },
  {
   "property": "C156",
   "status": "partial",
   "theorems": [
    "Verif.DEst.fwhm_spec",
    "Verif.DEst.fwhm_edges",
    "Verif.DEst.fwhm_no_right",
    "Verif.DEst.fwhm_no_left",
    "Verif.DEst.fwhm_interpolated_spec",
    "Verif.DEst.duty_spec",
    "Verif.DEst.frequency_spec",
    "Verif.DEst.crossing_spec_partial",
    "Verif.DEst.crossing_absent_value",
    "Verif.DEst.crossing_wrong_side"
   ],
   "note": "Exact arithmetic. False for peaks that do not fall to half on the left (fwhm_no_left), for ranges without a crossing (crossing_absent_value) and for ranges that do not begin at sample 0 (crossing_wrong_side)."
  },
  {
   "property": "C157",
   "status": "partial",
   "theorems": [
    "Verif.DEst.step_rising",
    "Verif.DEst.step_falling_partial",
    "Verif.DEst.step_flat",
    "Verif.DEst.step_falling_part_partial",
    "Verif.DEst.step_falling_noise",
    "Verif.DEst.settling_spec",
    "Verif.DEst.window_never_grows",
    "Verif.DEst.settling_default",
    "Verif.DEst.settling_short",
    "Verif.DEst.settled_before_step"
   ],
   "note": "Exact arithmetic, finite values, ranges from sample 0 for steps. False for falling steps with a sample above the first one (step_falling_noise); a flat stretch before a step counts as settled (settled_before_step)."
  },
  {
   "property": "C158",
   "status": "proved",
   "theorems": [
    "Verif.DEst.gauss_exact",
    "Verif.DEst.gauss_within",
    "Verif.DEst.gauss_fallback",
    "Verif.DEst.gauss_location"
   ],
   "note": "Real numbers instead of floating point; finite values."
  },
  {
   "property": "C159",
   "status": "proved",
   "theorems": [
    "Verif.Domain.parse_kind",
    "Verif.Domain.parse_backend",
    "Verif.Domain.parse_device",
    "Verif.Domain.parse_no_device",
    "Verif.Domain.parse_host",
    "Verif.Domain.parse_range",
    "Verif.Domain.provider_latest",
    "Verif.Domain.resolve_spec",
    "Verif.Domain.try_resolve_spec",
    "Verif.Domain.bind_spec"
   ],
   "note": "Calls are taken one after the other (they hold one lock). Trailing characters after the device number are ignored, and bind() falls back to host memory without notice (see DESIGN.md)."
  },
  {
   "property": "C160",
   "status": "proved",
   "theorems": [
    "Verif.Window.create_length",
    "Verif.Window.numbers",
    "Verif.Window.symmetric",
    "Verif.Window.range01",
    "Verif.Window.middle",
    "Verif.Window.ends",
    "Verif.Window.exponential_rises",
    "Verif.Window.kaiser_series",
    "Verif.Window.kaiser_value",
    "Verif.Window.hann_value",
    "Verif.Window.hannExp_value"
   ],
   "note": "Over the real numbers: rounding is not modelled. HannExp is 0 in the middle, the exponential window rises, and most windows of one sample are not a number (see DESIGN.md)."
  },
  {
   "property": "C161",
   "status": "partial",
   "theorems": [
    "Verif.Annot.validate_iff",
    "Verif.Annot.set_spec",
    "Verif.Annot.set_free",
    "Verif.Annot.apply_spec",
    "Verif.Annot.history",
    "Verif.Annot.stays_within",
    "Verif.Annot.equal_limits",
    "Verif.Annot.pinned_not_pinned",
    "Verif.Annot.checked_after_conversion",
    "Verif.Annot.rate_partial"
   ],
   "note": "Holds if the limits have the type of the setting and differ. False otherwise: equal limits check nothing (pinned_not_pinned), and with limits of another type the converted value is checked but the unconverted one stored (checked_after_conversion, see DESIGN.md)."
  },
  {
   "property": "C162",
   "status": "proved",
   "theorems": [
    "Verif.Meta.update_read",
    "Verif.Meta.update_error",
    "Verif.Meta.update_fixed",
    "Verif.Meta.get_update",
    "Verif.Meta.findings"
   ],
   "note": "An error leaves the entries of the right type in place, and name and data type written by get() are not read back (findings, see DESIGN.md)."
  },
  {
   "property": "C163",
   "status": "partial",
   "theorems": [
    "Verif.Spectrum.complex_magnitude",
    "Verif.Spectrum.complex_phase",
    "Verif.Spectrum.complex_parts",
    "Verif.Spectrum.real_magnitude",
    "Verif.Spectrum.real_parts",
    "Verif.Spectrum.ranges_spec",
    "Verif.Spectrum.unwrap_spec",
    "Verif.Spectrum.phase_unwrapped",
    "Verif.Spectrum.process_defined",
    "Verif.Spectrum.findings",
    "Verif.Spectrum.constant_doubled"
   ],
   "note": "False for complex input of odd size (one bin off), for the real and imaginary parts (bins not moved; upper half for real input) and for the steps in unwrapped phases of complex input: what holds instead is proved, with witnesses in findings. Exact arithmetic."
  },
  {
   "property": "C164",
   "status": "proved",
   "theorems": [
    "Verif.Cplx.run_value",
    "Verif.Cplx.assign",
    "Verif.Cplx.size",
    "Verif.Cplx.angle",
    "Verif.Cplx.overflow"
   ],
   "note": "Exact real arithmetic; rounding is not modelled. The sum of squares overflows where the result would not (overflow, see DESIGN.md)."
  },
  {
   "property": "C165",
   "status": "proved",
   "theorems": [
    "Verif.Devices.find_registered",
    "Verif.Devices.registered_unique",
    "Verif.Devices.findAs_safe",
    "Verif.Devices.findAs_unsafe",
    "Verif.Devices.permissions"
   ],
   "note": "The uniqueness of ids per type is a convention of the callers: without it findAs gives an object of another type (findAs_unsafe)."
  },
  {
   "property": "C166",
   "status": "proved",
   "theorems": [
    "Verif.Pps.clock_tick",
    "Verif.Pps.clock_increasing",
    "Verif.Pps.clock_complete",
    "Verif.Pps.numbers",
    "Verif.Pps.lost",
    "Verif.Pps.hardware",
    "Verif.Pps.hardware_timeout",
    "Verif.Pps.modes",
    "Verif.Pps.findings"
   ],
   "note": "For TAI as long as the offset to UTC stays the same. Findings: pulses lost for lack of room leave no gap in the numbers; a hardware pulse just before a full second gets the second before (see DESIGN.md)."
  },
  {
   "property": "C167",
   "status": "proved",
   "theorems": [
    "Verif.TagSrc.bulk_tags",
    "Verif.TagSrc.bulk_progress",
    "Verif.TagSrc.one_tags",
    "Verif.TagSrc.expected_spec",
    "Verif.TagSrc.bulk_values",
    "Verif.TagSrc.findings"
   ],
   "note": "Without the wrap of the counter after 2^32 samples. The comment of repeat_tags gives other places, marks are not written but for the first sample of a bulk call, and the two ways of processing count from different numbers (findings, see DESIGN.md)."
  },
  {
   "property": "C168",
   "status": "partial",
   "theorems": [
    "Verif.TagSink.stream_logged",
    "Verif.TagSink.monitor_passes",
    "Verif.TagSink.sink_done",
    "Verif.TagSink.one_is_bulk",
    "Verif.TagSink.findings"
   ],
   "note": "False after a new start, as the counter is not reset, and for callbacks without a log of tags (findings, see DESIGN.md); proved for a new block that logs tags. The counter of 32 bits does not wrap in the model."
  },
  {
   "property": "C169",
   "status": "proved",
   "theorems": [
    "Verif.MapEq.map_equal",
    "Verif.MapEq.tags_equal",
    "Verif.MapEq.shared_equal",
    "Verif.MapEq.copy_unequal"
   ],
   "note": "The comparison of values is a parameter; tags_equal assumes it reflexive. For a NaN a map equals itself but not its copy (copy_unequal)."
  },
  {
   "property": "C170",
   "status": "proved",
   "theorems": [
    "Verif.Ranges.merge_all",
    "Verif.Ranges.merge_sorted",
    "Verif.Ranges.merge_keeps",
    "Verif.Ranges.dedup_kept"
   ],
   "note": "The comparison is a strict weak order; the grouping is an equivalence and the equality inside groups is transitive."
  },
  {
   "property": "C171",
   "status": "proved",
   "theorems": [
    "Verif.Uri.classify_scheme",
    "Verif.Uri.classify_local",
    "Verif.Uri.classify_bad",
    "Verif.Uri.local_same",
    "Verif.Uri.file_host",
    "Verif.Uri.file_plain",
    "Verif.Uri.file_round_trip",
    "Verif.Uri.others_refused",
    "Verif.Uri.download_name",
    "Verif.Uri.findings"
   ],
   "note": "Characters of the C locale. Paths with a drive or with ':/' in a name, hosts in capital letters and encoded characters are findings, see DESIGN.md."
  },
  {
   "property": "C172",
   "status": "partial",
   "theorems": [
    "Verif.Http.source_publishes",
    "Verif.Http.sink_call",
    "Verif.Http.sink_order",
    "Verif.Http.sink_all_partial",
    "Verif.Http.busy_lost",
    "Verif.Http.not_all_sent",
    "Verif.Http.failure_reported"
   ],
   "note": "The last clause is false: bytes given to the sink while a request is under way are consumed and not sent (busy_lost, not_all_sent); proved for requests that finish before the next call."
  },
  {
   "property": "C173",
   "status": "proved",
   "theorems": [
    "Verif.Si.scale_exact",
    "Verif.Si.scale_range",
    "Verif.Si.three_digits",
    "Verif.Si.asked_digits",
    "Verif.Si.one_digit",
    "Verif.Si.prefix_power",
    "Verif.Si.large_outside",
    "Verif.Si.negative_smallest"
   ],
   "note": "Exact numbers in place of long double. From 10^33 on the prefix is read outside of its table, and negative numbers all get the smallest prefix (findings, see DESIGN.md)."
  }
 ]
}