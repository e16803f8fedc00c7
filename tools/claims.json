[
 {
  "property": "C01",
  "status": "proved",
  "theorems": [
   "Verif.C01.fixed_refines",
   "Verif.C01.code_refines",
   "Verif.C01.fixed_good",
   "Verif.C01.code_good"
  ],
  "note": "Refinement with identical labels for the coordination layer as written and with commit_start repaired (as written it never commits, see C04). fixed_good/code_good add a machine-free trace contract."
 },
 {
  "property": "C02",
  "status": "proved",
  "theorems": [
   "Verif.C02.spec_acked_sync_never_lost",
   "Verif.C02.acked_sync_never_lost",
   "Verif.C02.acked_put_is_read_back"
  ],
  "note": "For the map specification and for the coordination layer."
 },
 {
  "property": "C03",
  "status": "proved",
  "theorems": [
   "Verif.C03.crash_keeps_prefix",
   "Verif.C03.crash_recovers_prefix"
  ],
  "note": ""
 },
 {
  "property": "C04",
  "status": "partial",
  "theorems": [
   "Verif.C04.code_commit_start_never_enabled",
   "Verif.C04.code_never_persists",
   "Verif.C04.code_commits_never_happen",
   "Verif.C04.code_never_acks_a_put",
   "Verif.C04.fixed_commits_happen"
  ],
  "note": "The property is false for the code as written (negation proved); it holds for the repaired commit_start."
 },
 {
  "property": "C05",
  "status": "proved",
  "theorems": [
   "Verif.C05.map_holds_last_put",
   "Verif.C05.query_returns_last_put",
   "Verif.C05.query_enabled",
   "Verif.C05.coord_query_last_put"
  ],
  "note": ""
 },
 {
  "property": "C06",
  "status": "proved",
  "theorems": [
   "Verif.C06.grouping_irrelevant",
   "Verif.C06.apply_eq_merge",
   "Verif.C06.merge_assoc",
   "Verif.C06.nop_right",
   "Verif.C06.nop_left",
   "Verif.C06.define_absorbs",
   "Verif.C06.onto_define",
   "Verif.C06.newest_define_wins"
  ],
  "note": ""
 },
 {
  "property": "C07",
  "status": "proved",
  "theorems": [
   "Verif.C07.replay_eq_fold",
   "Verif.C07.concat_append",
   "Verif.C07.cut",
   "Verif.C07.cut_concat",
   "Verif.C07.concat_cut",
   "Verif.C07.replay_cut",
   "Verif.C07.replay_concat",
   "Verif.C07.cut_cut",
   "Verif.C07.ext_messages"
  ],
  "note": ""
 },
 {
  "property": "C08",
  "status": "proved",
  "theorems": [
   "Verif.C08.journal_exact",
   "Verif.C08.read_is_exact",
   "Verif.C08.freeze_is_exact",
   "Verif.C08.logged_unique",
   "Verif.C08.full_read_possible"
  ],
  "note": "Appended sequences are assumed well formed (AbstractJournal::put does not require it)."
 },
 {
  "property": "C09",
  "status": "proved",
  "theorems": [
   "Verif.C09.refines",
   "Verif.C09.journal_exact",
   "Verif.C09.frozen_exact",
   "Verif.C09.read_reaches_everything",
   "Verif.C09.operations_possible"
  ],
  "note": "Records are modelled as a list of message sequences, newest first."
 },
 {
  "property": "C10",
  "status": "proved",
  "theorems": [
   "Verif.C10.refines",
   "Verif.C10.walk_terminates",
   "Verif.C10.journal_exact",
   "Verif.C10.read_exact",
   "Verif.C10.decodable_readable",
   "Verif.C10.readsAs_unique"
  ],
  "note": ""
 },
 {
  "property": "C11",
  "status": "proved",
  "theorems": [
   "Verif.C11.discard_keeps_messages",
   "Verif.C11.discard_keeps_image",
   "Verif.C11.dropped_not_needed",
   "Verif.C11.drop_all_garbage",
   "Verif.C11.drop_nothing",
   "Verif.C11.needed_is_least",
   "Verif.C11.discard_step",
   "Verif.C11.discard_possible"
  ],
  "note": ""
 },
 {
  "property": "C12",
  "status": "proved",
  "theorems": [
   "Verif.C12.largestLte_spec",
   "Verif.C12.largestLt_spec",
   "Verif.C12.largestLte_found",
   "Verif.C12.largestLt_found",
   "Verif.C12.largestLt_pred",
   "Verif.C12.lastWhere_unique",
   "Verif.C12.element_largestLte_spec",
   "Verif.C12.pivoted_union"
  ],
  "note": ""
 },
 {
  "property": "C13",
  "status": "proved",
  "theorems": [
   "Verif.C13.route_in_range",
   "Verif.C13.route_iff",
   "Verif.C13.exactly_one_range",
   "Verif.C13.range_inhabited",
   "Verif.C13.total_covers",
   "Verif.C13.insert_wf",
   "Verif.C13.insert_inside",
   "Verif.C13.insert_inside_covers",
   "Verif.C13.insert_front",
   "Verif.C13.insert_back",
   "Verif.C13.domain_table"
  ],
  "note": ""
 },
 {
  "property": "C14",
  "status": "proved",
  "theorems": [
   "Verif.C14.answer_unique",
   "Verif.C14.acts_as_map",
   "Verif.C14.query_exact",
   "Verif.C14.internal_invisible",
   "Verif.C14.reopen",
   "Verif.C14.refines_map",
   "Verif.C14.query_last_put",
   "Verif.C14.demo"
  ],
  "note": "Well-formedness of nodes is built into the type (total child maps)."
 },
 {
  "property": "C15",
  "status": "proved",
  "theorems": [
   "Verif.C15.acts_as_map",
   "Verif.C15.query_exact",
   "Verif.C15.wf_kept",
   "Verif.C15.answer_unique",
   "Verif.C15.internal_invisible",
   "Verif.C15.reopen",
   "Verif.C15.refines_map",
   "Verif.C15.query_last_put",
   "Verif.C15.short_root",
   "Verif.C15.demo"
  ],
  "note": "All executions from an empty image or a root covering every key. short_root proves what fails for the other images initialize accepts."
 },
 {
  "property": "C16",
  "status": "proved",
  "theorems": [
   "Verif.C16.acts_as_map",
   "Verif.C16.query_exact",
   "Verif.C16.wf_kept",
   "Verif.C16.answer_unique",
   "Verif.C16.internal_invisible",
   "Verif.C16.reopen",
   "Verif.C16.refines_map",
   "Verif.C16.query_last_put",
   "Verif.C16.compact_possible",
   "Verif.C16.short_root",
   "Verif.C16.demo"
  ],
  "note": "All executions from an empty image or a root covering every key, any path, child, garbage collection amount and compaction range."
 },
 {
  "property": "C17",
  "status": "proved",
  "theorems": [
   "Verif.C17.acts_as_map",
   "Verif.C17.query_exact",
   "Verif.C17.inv_kept",
   "Verif.C17.answer_unique",
   "Verif.C17.refines_filtered",
   "Verif.C17.refines_map",
   "Verif.C17.internal_invisible",
   "Verif.C17.drop_invisible",
   "Verif.C17.copy_on_write",
   "Verif.C17.reopen",
   "Verif.C17.freeze_opens",
   "Verif.C17.query_last_put",
   "Verif.C17.possible",
   "Verif.C17.demo",
   "Verif.C17.stale_address"
  ],
  "note": "LinkedBetree with strong_step over simple buffers; every execution from every image initialize accepts. stale_address shows what the weak transitions allow. possible/demo show the guarded steps can be taken."
 },
 {
  "property": "C18",
  "status": "proved",
  "theorems": [
   "Verif.C18.query_is_lookup",
   "Verif.C18.insert_is_update",
   "Verif.C18.insert_query",
   "Verif.C18.insert_always_possible",
   "Verif.C18.append_is_update",
   "Verif.C18.any_sequence"
  ],
  "note": "B+tree branches of any height: query = lookup in the sorted stored pairs; insert = map insertion; append = exactly the run; any sequence of operations. Operations are legal as in the recommends of the Rust functions."
 },
 {
  "property": "C19",
  "status": "proved",
  "theorems": [
   "Verif.C19.split_invisible",
   "Verif.C19.grow_invisible",
   "Verif.C19.split_separates",
   "Verif.C19.balance_kept",
   "Verif.C19.split_possible"
  ],
  "note": "Leaf splits, index splits and growth keep well-formedness, the stored pairs in order, and so every answer; leaves stay equally deep."
 },
 {
  "property": "C20",
  "status": "proved",
  "theorems": [
   "Verif.C20.write_then_read",
   "Verif.C20.little_endian",
   "Verif.C20.read_refused_iff",
   "Verif.C20.write_injective"
  ],
  "note": ""
 },
 {
  "property": "C21",
  "status": "proved",
  "theorems": [
   "Verif.C21.encode_decode",
   "Verif.C21.read_element",
   "Verif.C21.overwrite",
   "Verif.C21.settable_iff"
  ],
  "note": ""
 },
 {
  "property": "C22",
  "status": "proved",
  "theorems": [
   "Verif.C22.encode_decode",
   "Verif.C22.init_empty",
   "Verif.C22.read_element",
   "Verif.C22.append",
   "Verif.C22.overwrite",
   "Verif.C22.shrink",
   "Verif.C22.resize_only_length",
   "Verif.C22.commands",
   "Verif.C22.commands_from_init"
  ],
  "note": ""
 },
 {
  "property": "C23",
  "status": "proved",
  "theorems": [
   "Verif.C23.init_empty",
   "Verif.C23.append",
   "Verif.C23.layout",
   "Verif.C23.appends",
   "Verif.C23.appends_from_init"
  ],
  "note": ""
 },
 {
  "property": "C24",
  "status": "proved",
  "theorems": [
   "Verif.C24.encode_decode",
   "Verif.C24.size_exact",
   "Verif.C24.key_inside",
   "Verif.C24.long_key_refused",
   "Verif.C24.byte_strings"
  ],
  "note": ""
 },
 {
  "property": "C25",
  "status": "proved",
  "theorems": [
   "Verif.C25.exact",
   "Verif.C25.parsable_exact",
   "Verif.C25.only_the_slice",
   "Verif.C25.array_reader",
   "Verif.C25.table_reader",
   "Verif.C25.page_reader",
   "Verif.C25.grammar_int",
   "Verif.C25.grammar_array",
   "Verif.C25.grammar_table",
   "Verif.C25.grammar_pair",
   "Verif.C25.grammar_entry",
   "Verif.C25.int_exact",
   "Verif.C25.array_exact",
   "Verif.C25.table_exact",
   "Verif.C25.pair_exact"
  ],
  "note": "exact, parsable_exact and only_the_slice apply to the four formats by int_exact, array_exact, table_exact and pair_exact; the grammar_ theorems say what the formats define."
 },
 {
  "property": "C26",
  "status": "proved",
  "theorems": [
   "Verif.C26.content_exact",
   "Verif.C26.write_exact",
   "Verif.C26.read_exact",
   "Verif.C26.response_exact",
   "Verif.C26.one_response",
   "Verif.C26.write_durable",
   "Verif.C26.crash_drops",
   "Verif.C26.request_answerable"
  ],
  "note": "AsyncDisk, all schedules and crash points; statements are about the sequence of events."
 },
 {
  "property": "C27",
  "status": "partial",
  "theorems": [
   "Verif.C27.lost_update",
   "Verif.C27.cache_is_memory_partial",
   "Verif.C27.read_latest_partial",
   "Verif.C27.clean_is_disk_partial",
   "Verif.C27.evicted_is_latest_partial",
   "Verif.C27.checked_survives_partial"
  ],
  "note": "False for the code as written: lost_update. Proved for executions in which no batch of write-backs names a page twice (the requirement Cache::writeback_initiate lacks), including crashes."
 },
 {
  "property": "C28",
  "status": "proved",
  "theorems": [
   "Verif.C28.lookup_exact",
   "Verif.C28.slots_unique",
   "Verif.C28.pages_unique",
   "Verif.C28.status_exact",
   "Verif.C28.source_invariant_broken"
  ],
  "note": "All reachable states under an arbitrary environment. The invariant written in the source is refuted (source_invariant_broken); the claim itself holds."
 },
 {
  "property": "C29",
  "status": "proved",
  "theorems": [
   "Verif.C29.handed_distinct",
   "Verif.C29.handed_inside",
   "Verif.C29.refused_iff_full",
   "Verif.C29.allocate_refused_iff_full",
   "Verif.C29.bookkeeping_exact",
   "Verif.C29.unit_exact",
   "Verif.C29.repeat_needs_prune",
   "Verif.C29.allocate_refines",
   "Verif.C29.prune_refines",
   "Verif.C29.can_allocate_iff",
   "Verif.C29.set_bookkeeping_exact",
   "Verif.C29.set_repeat_needs_prune",
   "Verif.C29.current_has_free",
   "Verif.C29.demo_exec",
   "Verif.C29.set_demo_exec"
  ],
  "note": "Executable allocator (u32 counters, one unit) against a ledger of calls, shown to implement the set-based allocator; set-based allocator characterised by the call history."
 },
 {
  "property": "C30",
  "status": "proved",
  "theorems": [
   "Verif.C30.replies_match",
   "Verif.C30.syncs_match",
   "Verif.C30.accepted_was_sent",
   "Verif.C30.produced_was_accepted",
   "Verif.C30.as_written_answers_unknown_sync"
  ],
  "note": "Requests and replies: for the system as written (replies_match). Sync requests: under the id discipline of the environment and the executable code (strictMachine), as the property states; as_written_answers_unknown_sync shows the discipline is needed."
 },
 {
  "property": "C31",
  "status": "proved",
  "theorems": [
   "Verif.C31.sync_reply_persistent"
  ],
  "note": "For the system as written. The superblock page on the disk decodes to a map that was the current one, with that version number, at or after the moment the sync was accepted."
 },
 {
  "property": "C32",
  "status": "partial",
  "theorems": [
   "Verif.C32.refines_partial",
   "Verif.C32.good_partial",
   "Verif.C32.client_sync_durable_partial",
   "Verif.C32.as_written_not_refined",
   "Verif.C32.source_sync_inv_not_inductive",
   "Verif.Codec.exists_codec"
  ],
  "note": "Refinement is proved for executions in which the program accepts queued syncs and answers accepted ones (strictMachine). Without that discipline the claim is false of the model as written: as_written_not_refined. The superblock codec is a parameter with a round-trip hypothesis, met by Codec.exists_codec."
 },
 {
  "property": "C33",
  "status": "proved",
  "theorems": [
   "Verif.C33.answered_after_later_write",
   "Verif.C33.answered_once",
   "Verif.C33.pending_exact",
   "Verif.C33.answered_by_second_completion",
   "Verif.C33.pending_means_write_outstanding",
   "Verif.C33.can_always_answer",
   "Verif.C33.no_executable_unmarshall"
  ],
  "note": "For the code as written and with its two unfinished handlers finished. A reply comes after accept, issue, disk write and completion, in this order, without a crash in between; the page written extends the journal at acceptance. Once each; pending = accepted and unanswered since the last crash; answered by the second completion; a pending request can always still be answered. no_executable_unmarshall: the contract stated for the executable unmarshall is unsatisfiable."
 },
 {
  "property": "C34",
  "status": "proved",
  "theorems": [
   "Verif.C34.ext",
   "Verif.C34.active_iff",
   "Verif.C34.prefix_get",
   "Verif.C34.prefix_len",
   "Verif.C34.suffix_get",
   "Verif.C34.suffix_len",
   "Verif.C34.append_get",
   "Verif.C34.append_get_new",
   "Verif.C34.append_len",
   "Verif.C34.prefix_suffix_comm",
   "Verif.C34.prefix_prefix",
   "Verif.C34.suffix_suffix",
   "Verif.C34.append_last",
   "Verif.C34.append_dropLast"
  ],
  "note": ""
 },
 {
  "property": "C35",
  "status": "proved",
  "theorems": [
   "Verif.C35.write_buffer_is_replay",
   "Verif.C35.batching_irrelevant",
   "Verif.C35.batches_concat",
   "Verif.C35.untouched_key"
  ],
  "note": ""
 },
 {
  "property": "C36",
  "status": "partial",
  "theorems": [
   "Verif.C36.roundtrip_impossible",
   "Verif.C36.put_only_empty",
   "Verif.C36.put_refused",
   "Verif.C36.never_grows",
   "Verif.C36.discard_label_mismatch",
   "Verif.C36.refines_partial",
   "Verif.C36.contents_exact_partial",
   "Verif.C36.recovery_reads_partial",
   "Verif.C36.index_walk_partial",
   "Verif.C36.can_read_partial",
   "Verif.C36.can_put",
   "Verif.C36.frozen_on_disk_partial",
   "Verif.C36.frozen_stays_partial"
  ],
  "note": "As written the composition takes no append of a message (put_refused, never_grows), its truncation label differs from the linked journal's (discard_label_mismatch) and the assumed record/page round trip is unsatisfiable (roundtrip_impossible). The _partial theorems are about the composition with put taking the journal's new state, records that fit and no page written twice in one batch: refinement of the linked journal over the combined pages, exact contents, recovery reads, the walk over the index, and durability of frozen snapshots. Missing: the composition as written."
 },
 {
  "property": "C37",
  "status": "proved",
  "theorems": [
   "Verif.C37.index_agrees",
   "Verif.C37.index_domain",
   "Verif.C37.every_block_indexed",
   "Verif.C37.write_fresh",
   "Verif.C37.blocks_immutable",
   "Verif.C37.given_back_unused",
   "Verif.C37.truncation_gives_exactly",
   "Verif.C37.ledger_exact",
   "Verif.C37.blocks_in_held_units",
   "Verif.C37.frozen_opens",
   "Verif.C37.refines_linked",
   "Verif.C37.can_truncate",
   "Verif.C37.can_freeze",
   "Verif.C37.can_write"
  ],
  "note": "For every geometry, every valid image and every execution of AllocationJournal; the machine's own refinement to LinkedJournal and progress (truncation, freezing, writing) are proved too."
 },
 {
  "property": "C38",
  "status": "proved",
  "theorems": [
   "Verif.C38.counts_exact",
   "Verif.C38.countIs_unique",
   "Verif.C38.counted_iff",
   "Verif.C38.nodes_unshared",
   "Verif.C38.counted_kept",
   "Verif.C38.dropped_unreferenced",
   "Verif.C38.release",
   "Verif.C38.same_runs",
   "Verif.C38.acts_as_map",
   "Verif.C38.demo",
   "Verif.C38.shared_counts"
  ],
  "note": "Counts are exact against an independent definition of reference; node pages are shown to have at most one; runs coincide with those of the linked betree of C17. Buffer type is SimpleBuffer as in the state machine."
 },
 {
  "property": "C39",
  "status": "proved",
  "theorems": [
   "Verif.C39.inv_is_tree",
   "Verif.C39.no_sharing",
   "Verif.C39.query_same",
   "Verif.C39.holds_same",
   "Verif.C39.query_is_lookup",
   "Verif.C39.insert_same",
   "Verif.C39.append_same",
   "Verif.C39.grow_same",
   "Verif.C39.split_same",
   "Verif.C39.enabled",
   "Verif.C39.insert_always_possible",
   "Verif.C39.op_step",
   "Verif.C39.any_sequence"
  ],
  "note": "Unbounded: all page graphs, keys, paths, messages and addresses; the auxiliary payload type is a parameter."
 },
 {
  "property": "C40",
  "status": "partial",
  "theorems": [
   "Verif.C40.int_frugal",
   "Verif.C40.array_frugal",
   "Verif.C40.pair_frugal",
   "Verif.C40.table_not_frugal",
   "Verif.C40.page_not_frugal",
   "Verif.C40.checked_agrees",
   "Verif.C40.checked_frugal",
   "Verif.C40.frugal_partial"
  ],
  "note": "False of the code for tables and pages (table_not_frugal, page_not_frugal): ResizableUniformSizedSeq::try_parse reserves what the length field says before checking it. Proved for integers, arrays and pairs, and for the table decoder with the check moved first."
 },
 {
  "property": "C41",
  "status": "partial",
  "theorems": [
   "Verif.C41.refines_partial",
   "Verif.C41.good_partial",
   "Verif.C41.client_sync_durable_partial",
   "Verif.C41.can_always_execute",
   "Verif.C41.unrestored_not_good",
   "Verif.C41.as_written_forgets",
   "Verif.C41.as_written_never_answers_query",
   "Verif.C41.source_inv_broken"
  ],
  "note": "Refinement, trace contract and client-visible durability for every program whose recovery adopts the journal it read; the code as written does not (assignment commented out): unrestored_not_good, as_written_forgets, as_written_never_answers_query, source_inv_broken refute it. can_always_execute holds for both."
 },
 {
  "property": "C42",
  "status": "proved",
  "theorems": [
   "Verif.C42.unit_counts_exact",
   "Verif.C42.unit_used_iff",
   "Verif.C42.free_unit_unused",
   "Verif.C42.runs_linked",
   "Verif.C42.acts_as_map",
   "Verif.C42.step_possible",
   "Verif.C42.release",
   "Verif.C42.demo"
  ],
  "note": "Unit counts against the references of C38 grouped by unit. step_possible and demo show the guards are met; release shows that a zero count lets a unit be emptied."
 },
 {
  "property": "C43",
  "status": "proved",
  "theorems": [
   "Verif.C43.refines_abstract",
   "Verif.C43.refines_separate",
   "Verif.C43.images_untouched",
   "Verif.C43.reads_kept",
   "Verif.C43.live_readable",
   "Verif.C43.written_fresh",
   "Verif.C43.given_back_unused",
   "Verif.C43.taken_fresh",
   "Verif.C43.load_reads",
   "Verif.C43.crash_recovers",
   "Verif.C43.persisted_never_lost",
   "Verif.C43.reported_stays",
   "Verif.C43.load_possible",
   "Verif.C43.commit_possible",
   "Verif.C43.commit_completes",
   "Verif.C43.reads_unique",
   "Verif.C43.demo_reach"
  ],
  "note": "Refinement through the journal with separate disks to the abstract crash-tolerant journal; blocks of recorded images untouched by every step; loading after any crash; units given back and received hold nothing needed; progress."
 },
 {
  "property": "C44",
  "status": "proved",
  "theorems": [
   "Verif.C44.inv_always",
   "Verif.C44.pages_exact",
   "Verif.C44.page_taken_once",
   "Verif.C44.writes_own_pages",
   "Verif.C44.summary_exact",
   "Verif.C44.given_back_unused",
   "Verif.C44.answers",
   "Verif.C44.sealed_frozen",
   "Verif.C44.seal_possible",
   "Verif.C44.any_contents",
   "Verif.C44.one_page_only",
   "Verif.C44.split_never",
   "Verif.C44.contains_inverted",
   "Verif.C44.contains_wrong",
   "Verif.C44.demo_code",
   "Verif.C44.demo_grow"
  ],
  "note": "For every history of build events from any set of units, with and without the growth event the code lacks. one_page_only/split_never: as written a branch never outgrows one page; contains_inverted/contains_wrong: linked_contains is inverted (DESIGN items 14, 15)."
 },
 {
  "property": "C45",
  "status": "proved",
  "theorems": [
   "Verif.C45.ledger",
   "Verif.C45.one_owner",
   "Verif.C45.pages_owned",
   "Verif.C45.inv_always",
   "Verif.C45.counts_exact",
   "Verif.C45.step_honest",
   "Verif.C45.undisturbed",
   "Verif.C45.can_persist",
   "Verif.C45.can_split",
   "Verif.C45.can_flush",
   "Verif.C45.can_release",
   "Verif.C45.demo"
  ],
  "note": "Ledger of units against a specification by reachability; holds for the code, for the machine with growing branches and for any check of compactions. Progress theorems ask for one node page to a unit in the image, which every run keeps."
 },
 {
  "property": "C46",
  "status": "partial",
  "theorems": [
   "Verif.C46.code_wrong",
   "Verif.C46.code_refuses",
   "Verif.C46.two_refused",
   "Verif.C46.acts_as_map_partial",
   "Verif.C46.query_exact_partial",
   "Verif.C46.internal_invisible_partial",
   "Verif.C46.without_compaction_partial",
   "Verif.C46.can_compact_partial",
   "Verif.C46.state_answer",
   "Verif.C46.image_answer",
   "Verif.C46.demo"
  ],
  "note": "False for the code: code_wrong is a run in which a compaction changes an answer, code_refuses shows that branches with different keys cannot be compacted. Proved for every check that compares the entries stored, in particular for the code as long as no compaction is completed, and for the repaired check, under which compactions can be carried out."
 },
 {
  "property": "C47",
  "status": "proved",
  "theorems": [
   "Verif.C47.linearizable",
   "Verif.C47.system_refines",
   "Verif.C47.in_turns",
   "Verif.C47.success_payable",
   "Verif.C47.refusal_justified",
   "Verif.C47.free_exact",
   "Verif.C47.balances_exact",
   "Verif.C47.demo"
  ],
  "note": "Any number of threads, accounts, any interleaving of lock operations. Fewer than 2^64+1 accepted requests where numbers must not repeat. vstd's RwLock is assumed to be a reader-writer lock."
 },
 {
  "property": "C48",
  "status": "proved",
  "theorems": [
   "Verif.C48.conserved",
   "Verif.C48.conserved_at_rest",
   "Verif.C48.ledger_total",
   "Verif.C48.balance_fits",
   "Verif.C48.tokens_conserve",
   "Verif.C48.spec_mints",
   "Verif.C48.demo"
  ],
  "note": "Holds of the program and of the token machine. The auditor's specification alone does not promise it (spec_mints)."
 },
 {
  "property": "C49",
  "status": "proved",
  "theorems": [
   "Verif.C49.never_stuck",
   "Verif.C49.bounded",
   "Verif.C49.finished",
   "Verif.C49.can_finish",
   "Verif.C49.demo"
  ],
  "note": "Deadlock freedom from ordered acquisition, and a bound on the steps of any run that starts nothing new."
 },
 {
  "property": "C50",
  "status": "proved",
  "theorems": [
   "Verif.C50.check_exact",
   "Verif.C50.total_of_moments",
   "Verif.C50.total_quiet",
   "Verif.C50.total_torn",
   "Verif.C50.demo"
  ],
  "note": "total_torn shows that the total may be of no single moment when transfers run meanwhile; the property only claims it when none took effect."
 },
 {
  "property": "C51",
  "status": "partial",
  "theorems": [
   "Verif.C51.system_partial",
   "Verif.C51.map_partial",
   "Verif.C51.answers_partial",
   "Verif.C51.send_possible",
   "Verif.C51.false_sync",
   "Verif.C51.unasked_sync",
   "Verif.C51.ids_repeat",
   "Verif.C51.demo"
  ],
  "note": "As written the claim is false (false_sync, unasked_sync, ids_repeat). Proved: for any program, runs in which ids are not given out again and no other request is answered as a sync are runs of the system model; for the program model of /repo that answers only syncs it has taken, runs of the crash-tolerant map, and every reply answers one earlier request of its kind."
 },
 {
  "property": "C52",
  "status": "proved",
  "theorems": [
   "Verif.C52.response_promise",
   "Verif.C52.request_promise",
   "Verif.C52.actual_state",
   "Verif.C52.promise_other_world",
   "Verif.C52.reachable_obligation",
   "Verif.C52.demo",
   "Verif.C52.demo_run"
  ],
  "note": "For any program and any invariant, in runs where ids are not given out again (as written: one lifetime)."
 },
 {
  "property": "C53",
  "status": "proved",
  "theorems": [
   "Verif.C53.acts_as_ideal_store",
   "Verif.C53.recoverable",
   "Verif.C53.no_dangling",
   "Verif.C53.no_collision",
   "Verif.C53.page_in",
   "Verif.C53.demo"
  ],
  "note": "simulation into an ideal store of graphs, recovery of every good image, no dangling pointers, no colliding requests, page-in; any application"
 },
 {
  "property": "C54",
  "status": "proved",
  "theorems": [
   "Verif.C54.acts_as_ideal_journal",
   "Verif.C54.recoverable",
   "Verif.C54.no_collision",
   "Verif.C54.demo"
  ],
  "note": "Journal cache over journal disk simulates an ideal journal through JournalView; recovery is an explicit run."
 },
 {
  "property": "C55",
  "status": "proved",
  "theorems": [
   "Verif.C55.acts_as_durable_map",
   "Verif.C55.composite_map",
   "Verif.C55.current",
   "Verif.C55.synced_is_kept",
   "Verif.C55.demo"
  ],
  "note": "Over any states side whose states stand for maps, and in particular over the map itself as in the code. The client's specification is one history with a durable prefix."
 },
 {
  "property": "C56",
  "status": "proved",
  "theorems": [
   "Verif.C56.acts_as_durable_map",
   "Verif.C56.synced_is_kept",
   "Verif.C56.recoverable",
   "Verif.C56.demo"
  ],
  "note": "The application is a parameter; that the betree is one is not part of this property. Unlike the code's BetreeSystem the machine need not ask that a location sent for loading holds an image: that is proved."
 },
 {
  "property": "C57",
  "status": "proved",
  "theorems": [
   "Verif.C57.acts_as_map",
   "Verif.C57.query_enabled",
   "Verif.C57.store_is_durable_map",
   "Verif.C57.demo"
  ],
  "note": "Evaluation is by walking down from the root; keys have no length bound. Unlike the code's proof acyclicity is not needed."
 },
 {
  "property": "C58",
  "status": "proved",
  "theorems": [
   "Verif.C58.acts_as_map",
   "Verif.C58.query_enabled",
   "Verif.C58.lookup_right",
   "Verif.C58.nodes_wf",
   "Verif.C58.store_is_durable_map",
   "Verif.C58.demo"
  ],
  "note": "Simulation into C57 node by node; the limits on key length, weights and number of children are not modelled."
 },
 {
  "property": "C59",
  "status": "proved",
  "theorems": [
   "Verif.C59.acts_as_ideal",
   "Verif.C59.written_out",
   "Verif.C59.read_back",
   "Verif.C59.accepts_iff",
   "Verif.C59.no_overflow",
   "Verif.C59.demo"
  ],
  "note": "The journalist (ring, weights, packages, loading) acts as an ideal journalist on lists, and the marshaller's bytes decode to exactly what was appended. The checksum function is a parameter."
 },
 {
  "property": "C60",
  "status": "proved",
  "theorems": [
   "Verif.C60.acts_as_durable_map",
   "Verif.C60.synced_is_kept",
   "Verif.C60.no_conflict",
   "Verif.C60.demo"
  ],
  "note": "All executions on the byte disk, with reads that can succeed or not; checksum and parser are parameters. The theorems are C56's statements on bytes, plus no_conflict. demo: a run with a synchronised put and a crash."
 },
 {
  "property": "C61",
  "status": "partial",
  "theorems": [
   "Verif.C61.never_opens",
   "Verif.C61.recoverable_partial",
   "Verif.C61.demo",
   "Verif.C61.demo_never"
  ],
  "note": "The trusted disk has no step by which a read succeeds, so as written the claim is false: never_opens. recoverable_partial is the full claim on the same disk with that step put back, for disks at least as long as their fixed areas."
 },
 {
  "property": "C62",
  "status": "proved",
  "theorems": [
   "Verif.C62.acts_as_durable_map",
   "Verif.C62.synced_is_kept",
   "Verif.C62.no_conflict",
   "Verif.C62.superblocks_good",
   "Verif.C62.cleanUp_enabled",
   "Verif.C62.superblock_reads_back",
   "Verif.C62.demo_superblock",
   "Verif.C62.demo",
   "Verif.C62.demo_cleanUp"
  ],
  "note": "The committer as code; the block side as its specification, tables and nodes parsed by a parameter."
 },
 {
  "property": "C63",
  "status": "proved",
  "theorems": [
   "Verif.C63.reads_back",
   "Verif.C63.one_encoding",
   "Verif.C63.size_right",
   "Verif.C63.superblock_reads_back",
   "Verif.C63.table_reads_back",
   "Verif.C63.node_reads_back",
   "Verif.C63.reads_well_formed",
   "Verif.C63.demo_value",
   "Verif.C63.demo_bytes",
   "Verif.C63.demo_node",
   "Verif.C63.demo_table",
   "Verif.C63.demo_superblock"
  ],
  "note": "Round trips in both directions for the marshalling library and for superblocks, indirection tables and nodes, with the CRC of the code; what is read is well-formed for all bytes. The bounds on a node (key, edge and pivot lengths, weight, number of children) are hypotheses, as in the code's types."
 },
 {
  "property": "C64",
  "status": "proved",
  "theorems": [
   "Verif.C64.fresh_file",
   "Verif.C64.acts_as_durable_map",
   "Verif.C64.synced_is_kept",
   "Verif.C64.no_conflict",
   "Verif.C64.demo_file",
   "Verif.C64.demo"
  ],
  "note": "mkfs, the pivot betree, the committer, the journal and all bytes of the code; the block side is its specification BlockCache."
 },
 {
  "property": "C65",
  "status": "proved",
  "theorems": [
   "Verif.C65.read_iff",
   "Verif.C65.table_follows",
   "Verif.C65.offers_garbage",
   "Verif.C65.finds_all_garbage",
   "Verif.C65.finds_unwritten",
   "Verif.C65.frozen_finds_unwritten",
   "Verif.C65.bitmap_exact"
  ],
  "note": "the code of Impl/IndirectionTable.i.dfy, with the hash map as a list"
 },
 {
  "property": "C66",
  "status": "proved",
  "theorems": [
   "Verif.C66.moves",
   "Verif.C66.nothing_lost",
   "Verif.C66.fits",
   "Verif.C66.stops_when_full",
   "Verif.C66.makes_progress",
   "Verif.C66.demo_ok",
   "Verif.C66.demo",
   "Verif.C66.demo_full"
  ],
  "note": "The loops of the code; keys and weights as the code counts them."
 },
 {
  "property": "C67",
  "status": "proved",
  "theorems": [
   "Verif.C67.acts_as_durable_map",
   "Verif.C67.synced_is_kept",
   "Verif.C67.no_conflict",
   "Verif.C67.cache_bounded",
   "Verif.C67.answers_handled",
   "Verif.C67.demo"
  ],
  "note": "the whole code on a fresh file; a write holds bytes that read back, which C63 provides within the limits"
 },
 {
  "property": "C68",
  "status": "proved",
  "theorems": [
   "Verif.C68.burst_detected",
   "Verif.C68.odd_detected",
   "Verif.C68.few_detected",
   "Verif.C68.not_read",
   "Verif.C68.disk_assumption",
   "Verif.C68.journal_detected",
   "Verif.C68.burst_33_undetected",
   "Verif.C68.demo"
  ],
  "note": "Bits and flips are counted by Nat.testBit, independently of the model of polynomials. The order of the unknown modulo the polynomial is 2^31-1, a prime. burst_33_undetected shows 32 is the best."
 },
 {
  "property": "C69",
  "status": "proved",
  "theorems": [
   "Verif.C69.check_value",
   "Verif.C69.definition",
   "Verif.C69.computes",
   "Verif.C69.computes_padded",
   "Verif.C69.table",
   "Verif.C69.demo"
  ],
  "note": "The instructions are as the repository specifies them (F2_X.s.dfy, Bits.s.dfy); that the processor does this is trusted there and here. Lengths are natural numbers; the code requires arrays below 2^32 bytes."
 },
 {
  "property": "C70",
  "status": "proved",
  "theorems": [
   "Verif.C70.is_a_map",
   "Verif.C70.bounded",
   "Verif.C70.half_empty",
   "Verif.C70.demo",
   "Verif.C70.demo_grows"
  ],
  "note": "Open addressing over slots with the code's hash, wrapping arithmetic, tombstones, growth and iterators modelled; the specification is a function from keys to optional values"
 },
 {
  "property": "C71",
  "status": "proved",
  "theorems": [
   "Verif.C71.is_a_queue",
   "Verif.C71.bounded",
   "Verif.C71.linked_both_ways",
   "Verif.C71.insert_before",
   "Verif.C71.insert_after",
   "Verif.C71.insert_ends",
   "Verif.C71.removal",
   "Verif.C71.demo",
   "Verif.C71.demo_list"
  ],
  "note": "The linked list in an array with its stack of free nodes, the hash map of C70, and both queues modelled; accesses outside an array are failures of the model and are excluded"
 },
 {
  "property": "C72",
  "status": "proved",
  "theorems": [
   "Verif.C72.is_a_set",
   "Verif.C72.never_in_use",
   "Verif.C72.least_free",
   "Verif.C72.no_leak",
   "Verif.C72.implements",
   "Verif.C72.implements_init",
   "Verif.C72.demo",
   "Verif.C72.demo_twice",
   "Verif.C72.demo_init"
  ],
  "note": "Bitmaps of 64-bit words and the allocator over five of them; four sets as specification; simulation of the allocator used in the model of the block side."
 },
 {
  "property": "C73",
  "status": "proved",
  "theorems": [
   "Verif.C73.never_stuck",
   "Verif.C73.is_a_map",
   "Verif.C73.in_order",
   "Verif.C73.balanced",
   "Verif.C73.shallow",
   "Verif.C73.from_seq",
   "Verif.C73.round_trip",
   "Verif.C73.demo",
   "Verif.C73.demo_weight"
  ],
  "note": "The B-tree with in-place splitting, any limits; linear memory is not modelled (a tree is a value), weights are unbounded numbers."
 },
 {
  "property": "C74",
  "status": "proved",
  "theorems": [
   "Verif.C74.nodes_within_limits",
   "Verif.C74.table_within_limit",
   "Verif.C74.can_be_written",
   "Verif.C74.demo"
  ],
  "note": "Limits of nodes and of the table in every run of the code with its disk (Kv/TreeLimits, Kv/TableLimits); with C63 a node within the limits on lengths can be written. That lengths stay within 1024 bytes is not part of it: a clone to a longer prefix breaks that."
 },
 {
  "property": "C75",
  "status": "proved",
  "theorems": [
   "Verif.C75.always_writable",
   "Verif.C75.lengths",
   "Verif.C75.demo",
   "Verif.C75.root_ok",
   "Verif.C75.longer_clone_unreadable"
  ],
  "note": "The code satisfies the property under the stated condition on clones; longer_clone_unreadable shows that the condition is needed"
 },
 {
  "property": "C76",
  "status": "partial",
  "theorems": [
   "Verif.C76.reads_last_write",
   "Verif.C76.one_slot",
   "Verif.C76.alone",
   "Verif.C76.held_stays",
   "Verif.C76.on_disk",
   "Verif.C76.clean_on_disk",
   "Verif.C76.count_exact",
   "Verif.C76.count_no_wrap",
   "Verif.C76.waits_for_load",
   "Verif.C76.waits_for_disk_partial",
   "Verif.C76.waits_for_reader",
   "Verif.C76.asWritten_reachable",
   "Verif.C76.writer_waits_for_ever",
   "Verif.C76.never_evictable",
   "Verif.C76.demo",
   "Verif.C76.demo_waits",
   "Verif.C76.demo_waits_disk",
   "Verif.C76.demo_for_ever"
  ],
  "note": "The safety parts hold of the code as written, where it exists: asWritten has only fewer steps. The part on waiting fails as written: disk_writeback_callback is empty in the source, so a write back never ends for the cache (writer_waits_for_ever, never_evictable). waits_for_disk_partial is about the model in which the callback calls release_writeback. Writers and downgrade are only a protocol in the source (RWLock.i.dfy) and commented-out methods, and are modelled from these."
 },
 {
  "property": "C77",
  "status": "proved",
  "theorems": [
   "Verif.C77.answers_as_in_turn",
   "Verif.C77.array_as_in_turn",
   "Verif.C77.in_between",
   "Verif.C77.never_stuck",
   "Verif.C77.nearer",
   "Verif.C77.demo",
   "Verif.C77.start_init"
  ],
  "note": "The length of the array is a parameter (20 in the source). init has no body in the source; any start array is allowed. Ghost objects are left out. Steps are single acquires and releases."
 },
 {
  "property": "C78",
  "status": "partial",
  "theorems": [
   "Verif.C78.finds_last_insert",
   "Verif.C78.answers_own_call",
   "Verif.C78.one_slot",
   "Verif.C78.empty_is_absent",
   "Verif.C78.goes_on_partial",
   "Verif.C78.absent_never_answers",
   "Verif.C78.empty_no_step",
   "Verif.C78.end_for_ever",
   "Verif.C78.demo",
   "Verif.C78.demo_end",
   "Verif.C78.start_init"
  ],
  "note": "That every call answers is false of the source: a query for an absent key has assume false (absent_never_answers, empty_no_step), and nothing wraps round at the end of the table (end_for_ever, reached in demo_end). goes_on_partial: these are the only ways to be stuck. Insertion has no code in the source, only its protocol."
 },
 {
  "property": "C79",
  "status": "proved",
  "theorems": [
   "Verif.C79.held_is_there",
   "Verif.C79.saved_is_out",
   "Verif.C79.owner_is_alone",
   "Verif.C79.counter_exact",
   "Verif.C79.can_be_got_back",
   "Verif.C79.demo",
   "Verif.C79.twice",
   "Verif.C79.below_zero"
  ],
  "note": "Init has no body in the source; the model starts with nothing. When equal values are given twice an owner and a reader may be there at once (twice), and a counter may fall below zero (below_zero): the statements on being alone are for a value that is out once, those on being there for all."
 },
 {
  "property": "C80",
  "status": "proved",
  "theorems": [
   "Verif.C80.succ_gives_first",
   "Verif.C80.no_more_than_asked",
   "Verif.C80.demo"
  ],
  "note": "The loop is modelled on the runs of C67; that it gives up after 500000 tries (the program stops) and the two checks of arguments are left out, and that it ends is not stated. The client's specification used since C55 now also says that the range of an answer goes on from its start."
 },
 {
  "property": "C81",
  "status": "proved",
  "theorems": [
   "Verif.C81.acts_as_durable_map",
   "Verif.C81.synced_is_kept",
   "Verif.C81.driver_acts_as_real_disk",
   "Verif.C81.trusted_writes_only_that",
   "Verif.C81.not_the_trusted_disk",
   "Verif.C81.demo"
  ],
  "note": "DiskIOHandler with the whole of the program of C67. Reads that the operating system fails end the program and are no step; Application::crash, which restarts in the same process, is not modelled. Sectors of 4096 bytes are taken to be written whole or not at all."
 },
 {
  "property": "C82",
  "status": "partial",
  "theorems": [
   "Verif.C82.answered_once",
   "Verif.C82.ids_differ",
   "Verif.C82.answered_in_file",
   "Verif.C82.nothing_lost",
   "Verif.C82.at_most_eight",
   "Verif.C82.wait_ok",
   "Verif.C82.complete_ok_partial",
   "Verif.C82.complete_can_fail",
   "Verif.C82.demo_nine",
   "Verif.C82.demo_one",
   "Verif.C82.demo_complete"
  ],
  "note": "The last sentence is false of completeWriteTasks: with nine writes asked for and the eight begun all finished it calls fail (complete_can_fail, disagreement 24). With at most eight writes unanswered it does not (complete_ok_partial). The rest is proved."
 },
 {
  "property": "C83",
  "status": "proved",
  "theorems": [
   "Verif.C83.waits_for_a_write",
   "Verif.C83.sync_wait_ok",
   "Verif.C83.syncWaits_asks",
   "Verif.C83.advanceWaits_asks",
   "Verif.C83.demo"
  ],
  "note": "Everything popSync can say to wait for, on the model of the whole program with its driver; syncWaits_asks and advanceWaits_asks tie wait to the modelled handlers. That Sync ends within its 500000 rounds is not claimed."
 },
 {
  "property": "C84",
  "status": "proved",
  "theorems": [
   "Verif.C84.tree",
   "Verif.C84.one_name",
   "Verif.C84.named",
   "Verif.C84.listed",
   "Verif.C84.demo"
  ],
  "note": "Invariant over all runs of the file system's state machine."
 },
 {
  "property": "C85",
  "status": "partial",
  "theorems": [
   "Verif.C85.moves_partial",
   "Verif.C85.old_gone",
   "Verif.C85.onto_itself",
   "Verif.C85.beneath_itself",
   "Verif.C85.root_ends",
   "Verif.C85.not_always",
   "Verif.C85.demo"
  ],
  "note": "Proved for every rename whose new path is neither the old one nor beneath it. As the code allows the others, the claim is false for them: onto_itself, beneath_itself and root_ends prove what is lost, not_always gives a reachable state for each."
 },
 {
  "property": "C86",
  "status": "proved",
  "theorems": [
   "Verif.C86.effect",
   "Verif.C86.allowed",
   "Verif.C86.dataWrite_spec",
   "Verif.C86.dataTruncate_spec",
   "Verif.C86.demo"
  ],
  "note": "Effect is a specification on what is found at each path and which paths name one file; every step of every run meets it."
 },
 {
  "property": "C87",
  "status": "partial",
  "theorems": [
   "Verif.C87.shown",
   "Verif.C87.listing_partial",
   "Verif.C87.done_says_nothing",
   "Verif.C87.not_complete",
   "Verif.C87.repaired_allowed",
   "Verif.C87.pieces_partial",
   "Verif.C87.demo"
  ],
  "note": "As written, the rule lets a listing that is done leave out anything (done_says_nothing, not_complete). All other parts are proved (listing_partial), and the whole claim for the rule with done in its place (pieces_partial), which allows no answer that the code's rule does not (repaired_allowed)."
 },
 {
  "property": "C88",
  "status": "partial",
  "theorems": [
   "Verif.C88.free_partial",
   "Verif.C88.stays_lost",
   "Verif.C88.lost_for_ever",
   "Verif.C88.demo"
  ],
  "note": "Proved for histories without renames of a path to itself or beneath it; for those lost_for_ever proves the claim false."
 },
 {
  "property": "C89",
  "status": "proved",
  "theorems": [
   "Verif.C89.grows",
   "Verif.C89.made",
   "Verif.C89.cuts",
   "Verif.C89.searches",
   "Verif.C89.searches_end",
   "Verif.C89.unique",
   "Verif.C89.demo",
   "Verif.C89.demo_sorted"
  ],
  "note": "Model: Kv/Psa.lean, reading, cutting, searching and growing, with accesses outside an array as failures and offsets modulo 2^32."
 },
 {
  "property": "C90",
  "status": "proved",
  "theorems": [
   "Verif.C90.query_answers",
   "Verif.C90.stands_for",
   "Verif.C90.goes_on",
   "Verif.C90.prefix_answers",
   "Verif.C90.unsorted_answers",
   "Verif.C90.demo"
  ],
  "note": "MutBucket in tree and packed form, all histories; flushes are in C91, translations in C92, iterators in C93"
 },
 {
  "property": "C91",
  "status": "proved",
  "theorems": [
   "Verif.C91.flushes",
   "Verif.C91.demo"
  ],
  "note": "the flush of packed buckets and its call from MutBucket, all sizes"
 },
 {
  "property": "C92",
  "status": "proved",
  "theorems": [
   "Verif.C92.translates",
   "Verif.C92.checks",
   "Verif.C92.checks_all",
   "Verif.C92.demo"
  ],
  "note": "ComputeTranslateBucket and its checks on buckets in either form; the code's assumption that a translated key is at most MaxLen bytes is not needed here (see Disagreements for where it fails)"
 },
 {
  "property": "C93",
  "status": "proved",
  "theorems": [
   "Verif.C93.from_start",
   "Verif.C93.from_key",
   "Verif.C93.above_key",
   "Verif.C93.one_list",
   "Verif.C93.demo"
  ],
  "note": "the iterators on packed bytes of buckets in either form, stepped to the end"
 }
]