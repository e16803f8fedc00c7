'Verif.C01.fixed_refines' depends on axioms: [propext, Classical.choice, Quot.sound]
'Verif.C01.code_refines' depends on axioms: [propext, Classical.choice, Quot.sound]
'Verif.C01.fixed_good' depends on axioms: [propext, Classical.choice, Quot.sound]
'Verif.C01.code_good' depends on axioms: [propext, Classical.choice, Quot.sound]
'Verif.C02.spec_acked_sync_never_lost' depends on axioms: [propext, Classical.choice, Quot.sound]
'Verif.C02.acked_sync_never_lost' depends on axioms: [propext, Classical.choice, Quot.sound]
'Verif.C02.acked_put_is_read_back' depends on axioms: [propext, Classical.choice, Quot.sound]
'Verif.C03.crash_keeps_prefix' depends on axioms: [propext, Classical.choice, Quot.sound]
'Verif.C03.crash_recovers_prefix' depends on axioms: [propext, Classical.choice, Quot.sound]
'Verif.C04.code_commit_start_never_enabled' does not depend on any axioms
'Verif.C04.code_never_persists' depends on axioms: [propext]
'Verif.C04.code_commits_never_happen' depends on axioms: [propext]
'Verif.C04.code_never_acks_a_put' depends on axioms: [propext]
'Verif.C04.fixed_commits_happen' depends on axioms: [propext, Classical.choice, Quot.sound]
'Verif.C05.map_holds_last_put' depends on axioms: [propext]
'Verif.C05.query_returns_last_put' depends on axioms: [propext]
'Verif.C05.query_enabled' depends on axioms: [propext]
'Verif.C05.coord_query_last_put' depends on axioms: [propext, Classical.choice, Quot.sound]
'Verif.C06.grouping_irrelevant' depends on axioms: [propext, Classical.choice, Quot.sound]
'Verif.C06.apply_eq_merge' depends on axioms: [propext, Classical.choice, Quot.sound]
'Verif.C06.merge_assoc' depends on axioms: [propext, Classical.choice, Quot.sound]
'Verif.C06.nop_right' depends on axioms: [propext]
'Verif.C06.nop_left' depends on axioms: [propext]
'Verif.C06.define_absorbs' does not depend on any axioms
'Verif.C06.onto_define' depends on axioms: [Quot.sound]
'Verif.C06.newest_define_wins' depends on axioms: [propext, Quot.sound]
'Verif.C07.replay_eq_fold' depends on axioms: [propext, Quot.sound]
'Verif.C07.concat_append' depends on axioms: [propext, Classical.choice, Quot.sound]
'Verif.C07.cut' depends on axioms: [propext, Classical.choice, Quot.sound]
'Verif.C07.cut_concat' depends on axioms: [propext, Classical.choice, Quot.sound]
'Verif.C07.concat_cut' depends on axioms: [propext, Classical.choice, Quot.sound]
'Verif.C07.replay_cut' depends on axioms: [propext, Classical.choice, Quot.sound]
'Verif.C07.replay_concat' depends on axioms: [propext, Quot.sound]
'Verif.C07.cut_cut' depends on axioms: [propext, Classical.choice, Quot.sound]
'Verif.C07.ext_messages' depends on axioms: [propext, Classical.choice, Quot.sound]
'Verif.C08.journal_exact' depends on axioms: [propext, Classical.choice, Quot.sound]
'Verif.C08.read_is_exact' depends on axioms: [propext, Classical.choice, Quot.sound]
'Verif.C08.freeze_is_exact' depends on axioms: [propext, Classical.choice, Quot.sound]
'Verif.C08.logged_unique' depends on axioms: [propext, Classical.choice, Quot.sound]
'Verif.C08.full_read_possible' depends on axioms: [propext, Classical.choice, Quot.sound]
'Verif.C09.refines' depends on axioms: [propext, Classical.choice, Quot.sound]
'Verif.C09.journal_exact' depends on axioms: [propext, Classical.choice, Quot.sound]
'Verif.C09.frozen_exact' depends on axioms: [propext, Classical.choice, Quot.sound]
'Verif.C09.read_reaches_everything' depends on axioms: [propext, Classical.choice, Quot.sound]
'Verif.C09.operations_possible' depends on axioms: [propext, Classical.choice, Quot.sound]
'Verif.C10.refines' depends on axioms: [propext, Classical.choice, Quot.sound]
'Verif.C10.walk_terminates' depends on axioms: [propext, Classical.choice, Quot.sound]
'Verif.C10.journal_exact' depends on axioms: [propext, Classical.choice, Quot.sound]
'Verif.C10.read_exact' depends on axioms: [propext, Classical.choice, Quot.sound]
'Verif.C10.decodable_readable' depends on axioms: [propext, Quot.sound]
'Verif.C10.readsAs_unique' does not depend on any axioms
'Verif.C11.discard_keeps_messages' depends on axioms: [propext, Classical.choice, Quot.sound]
'Verif.C11.discard_keeps_image' depends on axioms: [propext, Classical.choice, Quot.sound]
'Verif.C11.dropped_not_needed' depends on axioms: [propext, Classical.choice, Quot.sound]
'Verif.C11.drop_all_garbage' depends on axioms: [propext, Classical.choice, Quot.sound]
'Verif.C11.drop_nothing' depends on axioms: [propext, Classical.choice, Quot.sound]
'Verif.C11.needed_is_least' depends on axioms: [propext, Quot.sound]
'Verif.C11.discard_step' depends on axioms: [propext, Classical.choice, Quot.sound]
'Verif.C11.discard_possible' depends on axioms: [propext, Classical.choice, Quot.sound]
'Verif.C12.largestLte_spec' depends on axioms: [propext, Classical.choice, Quot.sound]
'Verif.C12.largestLt_spec' depends on axioms: [propext, Classical.choice, Quot.sound]
'Verif.C12.largestLte_found' depends on axioms: [propext, Classical.choice, Quot.sound]
'Verif.C12.largestLt_found' depends on axioms: [propext, Classical.choice, Quot.sound]
'Verif.C12.largestLt_pred' depends on axioms: [propext, Classical.choice, Quot.sound]
'Verif.C12.lastWhere_unique' depends on axioms: [propext, Quot.sound]
'Verif.C12.element_largestLte_spec' depends on axioms: [propext, Classical.choice, Quot.sound]
'Verif.C12.pivoted_union' depends on axioms: [propext, Classical.choice, Quot.sound]
'Verif.C13.route_in_range' depends on axioms: [propext, Classical.choice, Quot.sound]
'Verif.C13.route_iff' depends on axioms: [propext, Classical.choice, Quot.sound]
'Verif.C13.exactly_one_range' depends on axioms: [propext, Classical.choice, Quot.sound]
'Verif.C13.range_inhabited' depends on axioms: [propext, Classical.choice, Quot.sound]
'Verif.C13.total_covers' depends on axioms: [propext]
'Verif.C13.insert_wf' depends on axioms: [propext, Classical.choice, Quot.sound]
'Verif.C13.insert_inside' depends on axioms: [propext, Classical.choice, Quot.sound]
'Verif.C13.insert_inside_covers' depends on axioms: [propext, Classical.choice, Quot.sound]
'Verif.C13.insert_front' depends on axioms: [propext, Classical.choice, Quot.sound]
'Verif.C13.insert_back' depends on axioms: [propext, Classical.choice, Quot.sound]
'Verif.C13.domain_table' depends on axioms: [propext, Classical.choice, Quot.sound]
'Verif.C14.answer_unique' depends on axioms: [propext]
'Verif.C14.acts_as_map' depends on axioms: [propext, Classical.choice, Quot.sound]
'Verif.C14.query_exact' depends on axioms: [propext, Classical.choice, Quot.sound]
'Verif.C14.internal_invisible' depends on axioms: [propext, Classical.choice, Quot.sound]
'Verif.C14.reopen' depends on axioms: [propext, Classical.choice, Quot.sound]
'Verif.C14.refines_map' depends on axioms: [propext, Classical.choice, Quot.sound]
'Verif.C14.query_last_put' depends on axioms: [propext, Classical.choice, Quot.sound]
'Verif.C14.demo' depends on axioms: [propext, Classical.choice, Quot.sound]
'Verif.C15.acts_as_map' depends on axioms: [propext, Classical.choice, Quot.sound]
'Verif.C15.query_exact' depends on axioms: [propext, Classical.choice, Quot.sound]
'Verif.C15.wf_kept' depends on axioms: [propext, Classical.choice, Quot.sound]
'Verif.C15.answer_unique' depends on axioms: [propext, Classical.choice, Quot.sound]
'Verif.C15.internal_invisible' depends on axioms: [propext, Classical.choice, Quot.sound]
'Verif.C15.reopen' depends on axioms: [propext, Classical.choice, Quot.sound]
'Verif.C15.refines_map' depends on axioms: [propext, Classical.choice, Quot.sound]
'Verif.C15.query_last_put' depends on axioms: [propext, Classical.choice, Quot.sound]
'Verif.C15.short_root' depends on axioms: [propext, Classical.choice, Quot.sound]
'Verif.C15.demo' depends on axioms: [propext, Classical.choice, Quot.sound]
'Verif.C16.acts_as_map' depends on axioms: [propext, Classical.choice, Quot.sound]
'Verif.C16.query_exact' depends on axioms: [propext, Classical.choice, Quot.sound]
'Verif.C16.wf_kept' depends on axioms: [propext, Classical.choice, Quot.sound]
'Verif.C16.answer_unique' depends on axioms: [propext, Classical.choice, Quot.sound]
'Verif.C16.internal_invisible' depends on axioms: [propext, Classical.choice, Quot.sound]
'Verif.C16.reopen' depends on axioms: [propext, Classical.choice, Quot.sound]
'Verif.C16.refines_map' depends on axioms: [propext, Classical.choice, Quot.sound]
'Verif.C16.query_last_put' depends on axioms: [propext, Classical.choice, Quot.sound]
'Verif.C16.compact_possible' depends on axioms: [propext, Classical.choice, Quot.sound]
'Verif.C16.short_root' depends on axioms: [propext, Classical.choice, Quot.sound]
'Verif.C16.demo' depends on axioms: [propext, Classical.choice, Quot.sound]
'Verif.C17.acts_as_map' depends on axioms: [propext, Classical.choice, Quot.sound]
'Verif.C17.query_exact' depends on axioms: [propext, Classical.choice, Quot.sound]
'Verif.C17.inv_kept' depends on axioms: [propext, Classical.choice, Quot.sound]
'Verif.C17.answer_unique' depends on axioms: [propext, Classical.choice, Quot.sound]
'Verif.C17.refines_filtered' depends on axioms: [propext, Classical.choice, Quot.sound]
'Verif.C17.refines_map' depends on axioms: [propext, Classical.choice, Quot.sound]
'Verif.C17.internal_invisible' depends on axioms: [propext, Classical.choice, Quot.sound]
'Verif.C17.drop_invisible' depends on axioms: [propext, Classical.choice, Quot.sound]
'Verif.C17.copy_on_write' depends on axioms: [propext, Classical.choice, Quot.sound]
'Verif.C17.reopen' depends on axioms: [propext, Classical.choice, Quot.sound]
'Verif.C17.freeze_opens' depends on axioms: [propext, Classical.choice, Quot.sound]
'Verif.C17.query_last_put' depends on axioms: [propext, Classical.choice, Quot.sound]
'Verif.C17.possible' depends on axioms: [propext, Classical.choice, Quot.sound]
'Verif.C17.demo' depends on axioms: [propext, Classical.choice, Quot.sound]
'Verif.C17.stale_address' depends on axioms: [propext, Classical.choice, Quot.sound]
'Verif.C18.query_is_lookup' depends on axioms: [propext, Classical.choice, Quot.sound]
'Verif.C18.insert_is_update' depends on axioms: [propext, Classical.choice, Quot.sound]
'Verif.C18.insert_query' depends on axioms: [propext, Classical.choice, Quot.sound]
'Verif.C18.insert_always_possible' depends on axioms: [propext, Classical.choice, Quot.sound]
'Verif.C18.append_is_update' depends on axioms: [propext, Classical.choice, Quot.sound]
'Verif.C18.any_sequence' depends on axioms: [propext, Classical.choice, Quot.sound]
'Verif.C19.split_invisible' depends on axioms: [propext, Classical.choice, Quot.sound]
'Verif.C19.grow_invisible' depends on axioms: [propext, Classical.choice, Quot.sound]
'Verif.C19.split_separates' depends on axioms: [propext, Classical.choice, Quot.sound]
'Verif.C19.balance_kept' depends on axioms: [propext, Classical.choice, Quot.sound]
'Verif.C19.split_possible' depends on axioms: [propext, Classical.choice, Quot.sound]
'Verif.C20.write_then_read' depends on axioms: [propext, Classical.choice, Quot.sound]
'Verif.C20.little_endian' depends on axioms: [propext, Classical.choice, Quot.sound]
'Verif.C20.read_refused_iff' depends on axioms: [propext, Quot.sound]
'Verif.C20.write_injective' depends on axioms: [propext, Classical.choice, Quot.sound]
'Verif.C21.encode_decode' depends on axioms: [propext, Classical.choice, Quot.sound]
'Verif.C21.read_element' depends on axioms: [propext, Classical.choice, Quot.sound]
'Verif.C21.overwrite' depends on axioms: [propext, Classical.choice, Quot.sound]
'Verif.C21.settable_iff' depends on axioms: [propext, Quot.sound]
'Verif.C22.encode_decode' depends on axioms: [propext, Classical.choice, Quot.sound]
'Verif.C22.init_empty' depends on axioms: [propext, Classical.choice, Quot.sound]
'Verif.C22.read_element' depends on axioms: [propext, Classical.choice, Quot.sound]
'Verif.C22.append' depends on axioms: [propext, Classical.choice, Quot.sound]
'Verif.C22.overwrite' depends on axioms: [propext, Classical.choice, Quot.sound]
'Verif.C22.shrink' depends on axioms: [propext, Classical.choice, Quot.sound]
'Verif.C22.resize_only_length' depends on axioms: [propext, Classical.choice, Quot.sound]
'Verif.C22.commands' depends on axioms: [propext, Classical.choice, Quot.sound]
'Verif.C22.commands_from_init' depends on axioms: [propext, Classical.choice, Quot.sound]
'Verif.C23.init_empty' depends on axioms: [propext, Classical.choice, Quot.sound]
'Verif.C23.append' depends on axioms: [propext, Classical.choice, Quot.sound]
'Verif.C23.layout' depends on axioms: [propext, Classical.choice, Quot.sound]
'Verif.C23.appends' depends on axioms: [propext, Classical.choice, Quot.sound]
'Verif.C23.appends_from_init' depends on axioms: [propext, Classical.choice, Quot.sound]
'Verif.C24.encode_decode' depends on axioms: [propext, Classical.choice, Quot.sound]
'Verif.C24.size_exact' depends on axioms: [propext, Classical.choice, Quot.sound]
'Verif.C24.key_inside' depends on axioms: [propext, Classical.choice, Quot.sound]
'Verif.C24.long_key_refused' depends on axioms: [propext, Classical.choice, Quot.sound]
'Verif.C24.byte_strings' depends on axioms: [propext, Classical.choice, Quot.sound]
'Verif.C25.exact' depends on axioms: [propext, Classical.choice, Quot.sound]
'Verif.C25.parsable_exact' depends on axioms: [propext, Classical.choice, Quot.sound]
'Verif.C25.only_the_slice' depends on axioms: [propext, Classical.choice, Quot.sound]
'Verif.C25.array_reader' depends on axioms: [propext, Classical.choice, Quot.sound]
'Verif.C25.table_reader' depends on axioms: [propext, Classical.choice, Quot.sound]
'Verif.C25.page_reader' depends on axioms: [propext, Classical.choice, Quot.sound]
'Verif.C25.grammar_int' depends on axioms: [propext, Classical.choice, Quot.sound]
'Verif.C25.grammar_array' depends on axioms: [propext, Classical.choice, Quot.sound]
'Verif.C25.grammar_table' depends on axioms: [propext, Classical.choice, Quot.sound]
'Verif.C25.grammar_pair' depends on axioms: [propext, Classical.choice, Quot.sound]
'Verif.C25.grammar_entry' depends on axioms: [propext, Classical.choice, Quot.sound]
'Verif.C25.int_exact' depends on axioms: [propext, Classical.choice, Quot.sound]
'Verif.C25.array_exact' depends on axioms: [propext, Classical.choice, Quot.sound]
'Verif.C25.table_exact' depends on axioms: [propext, Classical.choice, Quot.sound]
'Verif.C25.pair_exact' depends on axioms: [propext, Classical.choice, Quot.sound]
'Verif.C26.content_exact' depends on axioms: [propext, Quot.sound]
'Verif.C26.write_exact' depends on axioms: [propext, Quot.sound]
'Verif.C26.read_exact' depends on axioms: [propext, Quot.sound]
'Verif.C26.response_exact' depends on axioms: [propext, Quot.sound]
'Verif.C26.one_response' depends on axioms: [propext, Quot.sound]
'Verif.C26.write_durable' depends on axioms: [propext, Quot.sound]
'Verif.C26.crash_drops' depends on axioms: [propext, Quot.sound]
'Verif.C26.request_answerable' depends on axioms: [propext]
'Verif.C27.lost_update' depends on axioms: [propext, Classical.choice, Quot.sound]
'Verif.C27.cache_is_memory_partial' depends on axioms: [propext, Classical.choice, Quot.sound]
'Verif.C27.read_latest_partial' depends on axioms: [propext, Classical.choice, Quot.sound]
'Verif.C27.clean_is_disk_partial' depends on axioms: [propext, Classical.choice, Quot.sound]
'Verif.C27.evicted_is_latest_partial' depends on axioms: [propext, Classical.choice, Quot.sound]
'Verif.C27.checked_survives_partial' depends on axioms: [propext, Classical.choice, Quot.sound]
'Verif.C28.lookup_exact' depends on axioms: [propext, Classical.choice, Quot.sound]
'Verif.C28.slots_unique' depends on axioms: [propext, Classical.choice, Quot.sound]
'Verif.C28.pages_unique' depends on axioms: [propext]
'Verif.C28.status_exact' depends on axioms: [propext, Classical.choice, Quot.sound]
'Verif.C28.source_invariant_broken' depends on axioms: [propext, Classical.choice, Quot.sound]
'Verif.C29.handed_distinct' depends on axioms: [propext, Classical.choice, Quot.sound]
'Verif.C29.handed_inside' depends on axioms: [propext, Quot.sound]
'Verif.C29.refused_iff_full' depends on axioms: [propext, Classical.choice, Quot.sound]
'Verif.C29.allocate_refused_iff_full' depends on axioms: [propext, Classical.choice, Quot.sound]
'Verif.C29.bookkeeping_exact' depends on axioms: [propext, Quot.sound]
'Verif.C29.unit_exact' depends on axioms: [propext, Quot.sound]
'Verif.C29.repeat_needs_prune' depends on axioms: [propext, Classical.choice, Quot.sound]
'Verif.C29.allocate_refines' depends on axioms: [propext, Classical.choice, Quot.sound]
'Verif.C29.prune_refines' depends on axioms: [propext, Classical.choice, Quot.sound]
'Verif.C29.can_allocate_iff' depends on axioms: [propext, Classical.choice, Quot.sound]
'Verif.C29.set_bookkeeping_exact' depends on axioms: [propext, Classical.choice, Quot.sound]
'Verif.C29.set_repeat_needs_prune' depends on axioms: [propext, Classical.choice, Quot.sound]
'Verif.C29.current_has_free' depends on axioms: [propext, Classical.choice, Quot.sound]
'Verif.C29.demo_exec' does not depend on any axioms
'Verif.C29.set_demo_exec' depends on axioms: [propext, Classical.choice, Quot.sound]
'Verif.C30.replies_match' depends on axioms: [propext, Quot.sound]
'Verif.C30.syncs_match' depends on axioms: [propext, Classical.choice, Quot.sound]
'Verif.C30.accepted_was_sent' depends on axioms: [propext, Classical.choice, Quot.sound]
'Verif.C30.produced_was_accepted' depends on axioms: [propext, Classical.choice, Quot.sound]
'Verif.C30.as_written_answers_unknown_sync' depends on axioms: [propext, Quot.sound]
'Verif.C31.sync_reply_persistent' depends on axioms: [propext, Classical.choice, Quot.sound]
'Verif.C32.refines_partial' depends on axioms: [propext, Classical.choice, Quot.sound]
'Verif.C32.good_partial' depends on axioms: [propext, Classical.choice, Quot.sound]
'Verif.C32.client_sync_durable_partial' depends on axioms: [propext, Classical.choice, Quot.sound]
'Verif.C32.as_written_not_refined' depends on axioms: [propext, Classical.choice, Quot.sound]
'Verif.C32.source_sync_inv_not_inductive' depends on axioms: [propext, Quot.sound]
'Verif.Codec.exists_codec' depends on axioms: [propext, Classical.choice, Quot.sound]
'Verif.C33.answered_after_later_write' depends on axioms: [propext, Classical.choice, Quot.sound]
'Verif.C33.answered_once' depends on axioms: [propext, Classical.choice, Quot.sound]
'Verif.C33.pending_exact' depends on axioms: [propext, Classical.choice, Quot.sound]
'Verif.C33.answered_by_second_completion' depends on axioms: [propext, Classical.choice, Quot.sound]
'Verif.C33.pending_means_write_outstanding' depends on axioms: [propext, Classical.choice, Quot.sound]
'Verif.C33.can_always_answer' depends on axioms: [propext, Classical.choice, Quot.sound]
'Verif.C33.no_executable_unmarshall' depends on axioms: [propext, Quot.sound]
'Verif.C34.ext' depends on axioms: [propext, Quot.sound]
'Verif.C34.active_iff' depends on axioms: [propext, Classical.choice, Quot.sound]
'Verif.C34.prefix_get' depends on axioms: [propext, Quot.sound]
'Verif.C34.prefix_len' depends on axioms: [propext, Quot.sound]
'Verif.C34.suffix_get' depends on axioms: [propext, Quot.sound]
'Verif.C34.suffix_len' depends on axioms: [propext, Quot.sound]
'Verif.C34.append_get' depends on axioms: [propext, Quot.sound]
'Verif.C34.append_get_new' depends on axioms: [propext, Quot.sound]
'Verif.C34.append_len' depends on axioms: [propext, Quot.sound]
'Verif.C34.prefix_suffix_comm' depends on axioms: [propext, Classical.choice, Quot.sound]
'Verif.C34.prefix_prefix' depends on axioms: [propext, Quot.sound]
'Verif.C34.suffix_suffix' depends on axioms: [propext, Quot.sound]
'Verif.C34.append_last' depends on axioms: [propext, Quot.sound]
'Verif.C34.append_dropLast' depends on axioms: [propext, Quot.sound]
'Verif.C35.write_buffer_is_replay' depends on axioms: [propext, Classical.choice, Quot.sound]
'Verif.C35.batching_irrelevant' depends on axioms: [propext, Classical.choice, Quot.sound]
'Verif.C35.batches_concat' depends on axioms: [propext, Quot.sound]
'Verif.C35.untouched_key' depends on axioms: [propext, Classical.choice, Quot.sound]
'Verif.C36.roundtrip_impossible' depends on axioms: [propext, Classical.choice, Quot.sound]
'Verif.C36.put_only_empty' depends on axioms: [propext, Classical.choice, Quot.sound]
'Verif.C36.put_refused' depends on axioms: [propext, Classical.choice, Quot.sound]
'Verif.C36.never_grows' depends on axioms: [propext, Classical.choice, Quot.sound]
'Verif.C36.discard_label_mismatch' depends on axioms: [propext, Classical.choice, Quot.sound]
'Verif.C36.refines_partial' depends on axioms: [propext, Classical.choice, Quot.sound]
'Verif.C36.contents_exact_partial' depends on axioms: [propext, Classical.choice, Quot.sound]
'Verif.C36.recovery_reads_partial' depends on axioms: [propext, Classical.choice, Quot.sound]
'Verif.C36.index_walk_partial' depends on axioms: [propext, Classical.choice, Quot.sound]
'Verif.C36.can_read_partial' depends on axioms: [propext, Classical.choice, Quot.sound]
'Verif.C36.can_put' depends on axioms: [propext, Classical.choice, Quot.sound]
'Verif.C36.frozen_on_disk_partial' depends on axioms: [propext, Classical.choice, Quot.sound]
'Verif.C36.frozen_stays_partial' depends on axioms: [propext, Classical.choice, Quot.sound]
'Verif.C37.index_agrees' depends on axioms: [propext, Classical.choice, Quot.sound]
'Verif.C37.index_domain' depends on axioms: [propext, Classical.choice, Quot.sound]
'Verif.C37.every_block_indexed' depends on axioms: [propext, Classical.choice, Quot.sound]
'Verif.C37.write_fresh' depends on axioms: [propext, Classical.choice, Quot.sound]
'Verif.C37.blocks_immutable' depends on axioms: [propext, Classical.choice, Quot.sound]
'Verif.C37.given_back_unused' depends on axioms: [propext, Classical.choice, Quot.sound]
'Verif.C37.truncation_gives_exactly' depends on axioms: [propext, Classical.choice, Quot.sound]
'Verif.C37.ledger_exact' depends on axioms: [propext, Classical.choice, Quot.sound]
'Verif.C37.blocks_in_held_units' depends on axioms: [propext, Classical.choice, Quot.sound]
'Verif.C37.frozen_opens' depends on axioms: [propext, Classical.choice, Quot.sound]
'Verif.C37.refines_linked' depends on axioms: [propext, Classical.choice, Quot.sound]
'Verif.C37.can_truncate' depends on axioms: [propext, Classical.choice, Quot.sound]
'Verif.C37.can_freeze' depends on axioms: [propext, Classical.choice, Quot.sound]
'Verif.C37.can_write' depends on axioms: [propext, Classical.choice, Quot.sound]
'Verif.C38.counts_exact' depends on axioms: [propext, Classical.choice, Quot.sound]
'Verif.C38.countIs_unique' depends on axioms: [propext, Classical.choice, Quot.sound]
'Verif.C38.counted_iff' depends on axioms: [propext, Classical.choice, Quot.sound]
'Verif.C38.nodes_unshared' depends on axioms: [propext, Classical.choice, Quot.sound]
'Verif.C38.counted_kept' depends on axioms: [propext, Classical.choice, Quot.sound]
'Verif.C38.dropped_unreferenced' depends on axioms: [propext, Classical.choice, Quot.sound]
'Verif.C38.release' depends on axioms: [propext, Classical.choice, Quot.sound]
'Verif.C38.same_runs' depends on axioms: [propext, Classical.choice, Quot.sound]
'Verif.C38.acts_as_map' depends on axioms: [propext, Classical.choice, Quot.sound]
'Verif.C38.demo' depends on axioms: [propext, Classical.choice, Quot.sound]
'Verif.C38.shared_counts' depends on axioms: [propext, Classical.choice, Quot.sound]
'Verif.C39.inv_is_tree' depends on axioms: [propext, Classical.choice, Quot.sound]
'Verif.C39.no_sharing' depends on axioms: [propext, Classical.choice, Quot.sound]
'Verif.C39.query_same' depends on axioms: [propext, Classical.choice, Quot.sound]
'Verif.C39.holds_same' depends on axioms: [propext, Quot.sound]
'Verif.C39.query_is_lookup' depends on axioms: [propext, Classical.choice, Quot.sound]
'Verif.C39.insert_same' depends on axioms: [propext, Classical.choice, Quot.sound]
'Verif.C39.append_same' depends on axioms: [propext, Classical.choice, Quot.sound]
'Verif.C39.grow_same' depends on axioms: [propext, Classical.choice, Quot.sound]
'Verif.C39.split_same' depends on axioms: [propext, Classical.choice, Quot.sound]
'Verif.C39.enabled' depends on axioms: [propext, Classical.choice, Quot.sound]
'Verif.C39.insert_always_possible' depends on axioms: [propext, Classical.choice, Quot.sound]
'Verif.C39.op_step' depends on axioms: [propext, Classical.choice, Quot.sound]
'Verif.C39.any_sequence' depends on axioms: [propext, Classical.choice, Quot.sound]
'Verif.C40.int_frugal' depends on axioms: [propext, Classical.choice, Quot.sound]
'Verif.C40.array_frugal' depends on axioms: [propext, Classical.choice, Quot.sound]
'Verif.C40.pair_frugal' depends on axioms: [propext, Classical.choice, Quot.sound]
'Verif.C40.table_not_frugal' depends on axioms: [propext, Quot.sound]
'Verif.C40.page_not_frugal' depends on axioms: [propext, Quot.sound]
'Verif.C40.checked_agrees' depends on axioms: [propext, Classical.choice, Quot.sound]
'Verif.C40.checked_frugal' depends on axioms: [propext, Classical.choice, Quot.sound]
'Verif.C40.frugal_partial' depends on axioms: [propext, Classical.choice, Quot.sound]
'Verif.C41.refines_partial' depends on axioms: [propext, Classical.choice, Quot.sound]
'Verif.C41.good_partial' depends on axioms: [propext, Classical.choice, Quot.sound]
'Verif.C41.client_sync_durable_partial' depends on axioms: [propext, Classical.choice, Quot.sound]
'Verif.C41.can_always_execute' depends on axioms: [propext, Classical.choice, Quot.sound]
'Verif.C41.unrestored_not_good' depends on axioms: [propext, Quot.sound]
'Verif.C41.as_written_forgets' depends on axioms: [propext, Quot.sound]
'Verif.C41.as_written_never_answers_query' depends on axioms: [propext]
'Verif.C41.source_inv_broken' depends on axioms: [propext, Classical.choice, Quot.sound]
'Verif.C42.unit_counts_exact' depends on axioms: [propext, Classical.choice, Quot.sound]
'Verif.C42.unit_used_iff' depends on axioms: [propext, Classical.choice, Quot.sound]
'Verif.C42.free_unit_unused' depends on axioms: [propext, Classical.choice, Quot.sound]
'Verif.C42.runs_linked' depends on axioms: [propext, Classical.choice, Quot.sound]
'Verif.C42.acts_as_map' depends on axioms: [propext, Classical.choice, Quot.sound]
'Verif.C42.step_possible' depends on axioms: [propext, Classical.choice, Quot.sound]
'Verif.C42.release' depends on axioms: [propext, Classical.choice, Quot.sound]
'Verif.C42.demo' depends on axioms: [propext, Classical.choice, Quot.sound]
'Verif.C43.refines_abstract' depends on axioms: [propext, Classical.choice, Quot.sound]
'Verif.C43.refines_separate' depends on axioms: [propext, Classical.choice, Quot.sound]
'Verif.C43.images_untouched' depends on axioms: [propext, Classical.choice, Quot.sound]
'Verif.C43.reads_kept' depends on axioms: [propext, Classical.choice, Quot.sound]
'Verif.C43.live_readable' depends on axioms: [propext, Classical.choice, Quot.sound]
'Verif.C43.written_fresh' depends on axioms: [propext, Classical.choice, Quot.sound]
'Verif.C43.given_back_unused' depends on axioms: [propext, Classical.choice, Quot.sound]
'Verif.C43.taken_fresh' depends on axioms: [propext, Classical.choice, Quot.sound]
'Verif.C43.load_reads' depends on axioms: [propext, Classical.choice, Quot.sound]
'Verif.C43.crash_recovers' depends on axioms: [propext, Classical.choice, Quot.sound]
'Verif.C43.persisted_never_lost' depends on axioms: [propext, Classical.choice, Quot.sound]
'Verif.C43.reported_stays' depends on axioms: [propext, Classical.choice, Quot.sound]
'Verif.C43.load_possible' depends on axioms: [propext, Classical.choice, Quot.sound]
'Verif.C43.commit_possible' depends on axioms: [propext, Classical.choice, Quot.sound]
'Verif.C43.commit_completes' depends on axioms: [propext, Classical.choice, Quot.sound]
'Verif.C43.reads_unique' depends on axioms: [propext, Classical.choice, Quot.sound]
'Verif.C43.demo_reach' depends on axioms: [propext, Classical.choice, Quot.sound]
'Verif.C44.inv_always' depends on axioms: [propext, Classical.choice, Quot.sound]
'Verif.C44.pages_exact' depends on axioms: [propext, Classical.choice, Quot.sound]
'Verif.C44.page_taken_once' depends on axioms: [propext, Classical.choice, Quot.sound]
'Verif.C44.writes_own_pages' depends on axioms: [propext, Classical.choice, Quot.sound]
'Verif.C44.summary_exact' depends on axioms: [propext, Classical.choice, Quot.sound]
'Verif.C44.given_back_unused' depends on axioms: [propext, Classical.choice, Quot.sound]
'Verif.C44.answers' depends on axioms: [propext, Classical.choice, Quot.sound]
'Verif.C44.sealed_frozen' depends on axioms: [propext, Classical.choice, Quot.sound]
'Verif.C44.seal_possible' depends on axioms: [propext, Classical.choice, Quot.sound]
'Verif.C44.any_contents' depends on axioms: [propext, Classical.choice, Quot.sound]
'Verif.C44.one_page_only' depends on axioms: [propext, Classical.choice, Quot.sound]
'Verif.C44.split_never' depends on axioms: [propext, Classical.choice, Quot.sound]
'Verif.C44.contains_inverted' depends on axioms: [propext, Classical.choice, Quot.sound]
'Verif.C44.contains_wrong' depends on axioms: [propext, Classical.choice, Quot.sound]
'Verif.C44.demo_code' depends on axioms: [propext, Classical.choice, Quot.sound]
'Verif.C44.demo_grow' depends on axioms: [propext, Classical.choice, Quot.sound]
'Verif.C45.ledger' depends on axioms: [propext, Classical.choice, Quot.sound]
'Verif.C45.one_owner' depends on axioms: [propext, Classical.choice, Quot.sound]
'Verif.C45.pages_owned' depends on axioms: [propext, Classical.choice, Quot.sound]
'Verif.C45.inv_always' depends on axioms: [propext, Classical.choice, Quot.sound]
'Verif.C45.counts_exact' depends on axioms: [propext, Classical.choice, Quot.sound]
'Verif.C45.step_honest' depends on axioms: [propext, Classical.choice, Quot.sound]
'Verif.C45.undisturbed' depends on axioms: [propext, Classical.choice, Quot.sound]
'Verif.C45.can_persist' depends on axioms: [propext, Classical.choice, Quot.sound]
'Verif.C45.can_split' depends on axioms: [propext, Classical.choice, Quot.sound]
'Verif.C45.can_flush' depends on axioms: [propext, Classical.choice, Quot.sound]
'Verif.C45.can_release' depends on axioms: [propext, Classical.choice, Quot.sound]
'Verif.C45.demo' depends on axioms: [propext, Classical.choice, Quot.sound]
'Verif.C46.code_wrong' depends on axioms: [propext, Classical.choice, Quot.sound]
'Verif.C46.code_refuses' depends on axioms: [propext, Classical.choice, Quot.sound]
'Verif.C46.two_refused' depends on axioms: [propext, Classical.choice, Quot.sound]
'Verif.C46.acts_as_map_partial' depends on axioms: [propext, Classical.choice, Quot.sound]
'Verif.C46.query_exact_partial' depends on axioms: [propext, Classical.choice, Quot.sound]
'Verif.C46.internal_invisible_partial' depends on axioms: [propext, Classical.choice, Quot.sound]
'Verif.C46.without_compaction_partial' depends on axioms: [propext, Classical.choice, Quot.sound]
'Verif.C46.can_compact_partial' depends on axioms: [propext, Classical.choice, Quot.sound]
'Verif.C46.state_answer' depends on axioms: [propext, Classical.choice, Quot.sound]
'Verif.C46.image_answer' depends on axioms: [propext, Classical.choice, Quot.sound]
'Verif.C46.demo' depends on axioms: [propext, Classical.choice, Quot.sound]
'Verif.C47.linearizable' depends on axioms: [propext, Classical.choice, Quot.sound]
'Verif.C47.system_refines' depends on axioms: [propext, Quot.sound]
'Verif.C47.in_turns' depends on axioms: [propext]
'Verif.C47.success_payable' depends on axioms: [propext, Classical.choice, Quot.sound]
'Verif.C47.refusal_justified' depends on axioms: [propext, Classical.choice, Quot.sound]
'Verif.C47.free_exact' depends on axioms: [propext, Classical.choice, Quot.sound]
'Verif.C47.balances_exact' depends on axioms: [propext, Classical.choice, Quot.sound]
'Verif.C47.demo' depends on axioms: [propext]
'Verif.C48.conserved' depends on axioms: [propext, Classical.choice, Quot.sound]
'Verif.C48.conserved_at_rest' depends on axioms: [propext, Classical.choice, Quot.sound]
'Verif.C48.ledger_total' depends on axioms: [propext, Classical.choice, Quot.sound]
'Verif.C48.balance_fits' depends on axioms: [propext, Classical.choice, Quot.sound]
'Verif.C48.tokens_conserve' depends on axioms: [propext, Classical.choice, Quot.sound]
'Verif.C48.spec_mints' depends on axioms: [propext, Quot.sound]
'Verif.C48.demo' depends on axioms: [propext]
'Verif.C49.never_stuck' depends on axioms: [propext, Classical.choice, Quot.sound]
'Verif.C49.bounded' depends on axioms: [propext, Classical.choice, Quot.sound]
'Verif.C49.finished' depends on axioms: [propext, Classical.choice, Quot.sound]
'Verif.C49.can_finish' depends on axioms: [propext, Classical.choice, Quot.sound]
'Verif.C49.demo' depends on axioms: [propext]
'Verif.C50.check_exact' depends on axioms: [propext, Classical.choice, Quot.sound]
'Verif.C50.total_of_moments' depends on axioms: [propext, Classical.choice, Quot.sound]
'Verif.C50.total_quiet' depends on axioms: [propext, Classical.choice, Quot.sound]
'Verif.C50.total_torn' depends on axioms: [propext, Classical.choice, Quot.sound]
'Verif.C50.demo' depends on axioms: [propext, Quot.sound]
'Verif.C51.system_partial' depends on axioms: [propext, Classical.choice, Quot.sound]
'Verif.C51.map_partial' depends on axioms: [propext, Classical.choice, Quot.sound]
'Verif.C51.answers_partial' depends on axioms: [propext, Classical.choice, Quot.sound]
'Verif.C51.send_possible' depends on axioms: [propext, Classical.choice, Quot.sound]
'Verif.C51.false_sync' depends on axioms: [propext, Classical.choice, Quot.sound]
'Verif.C51.unasked_sync' depends on axioms: [propext, Classical.choice, Quot.sound]
'Verif.C51.ids_repeat' depends on axioms: [propext, Classical.choice, Quot.sound]
'Verif.C51.demo' depends on axioms: [propext, Classical.choice, Quot.sound]
'Verif.C52.response_promise' depends on axioms: [propext, Classical.choice, Quot.sound]
'Verif.C52.request_promise' depends on axioms: [propext, Classical.choice, Quot.sound]
'Verif.C52.actual_state' depends on axioms: [propext, Classical.choice, Quot.sound]
'Verif.C52.promise_other_world' depends on axioms: [propext, Classical.choice, Quot.sound]
'Verif.C52.reachable_obligation' does not depend on any axioms
'Verif.C52.demo' depends on axioms: [propext, Classical.choice, Quot.sound]
'Verif.C52.demo_run' depends on axioms: [propext, Classical.choice, Quot.sound]
'Verif.C53.acts_as_ideal_store' depends on axioms: [propext, Classical.choice, Quot.sound]
'Verif.C53.recoverable' depends on axioms: [propext, Classical.choice, Quot.sound]
'Verif.C53.no_dangling' depends on axioms: [propext, Classical.choice, Quot.sound]
'Verif.C53.no_collision' depends on axioms: [propext, Classical.choice, Quot.sound]
'Verif.C53.page_in' depends on axioms: [propext, Classical.choice, Quot.sound]
'Verif.C53.demo' depends on axioms: [propext, Classical.choice, Quot.sound]
'Verif.C54.acts_as_ideal_journal' depends on axioms: [propext, Classical.choice, Quot.sound]
'Verif.C54.recoverable' depends on axioms: [propext, Classical.choice, Quot.sound]
'Verif.C54.no_collision' depends on axioms: [propext, Classical.choice, Quot.sound]
'Verif.C54.demo' depends on axioms: [propext, Classical.choice, Quot.sound]
'Verif.C55.acts_as_durable_map' depends on axioms: [propext, Classical.choice, Quot.sound]
'Verif.C55.composite_map' depends on axioms: [propext, Classical.choice, Quot.sound]
'Verif.C55.current' depends on axioms: [propext, Classical.choice, Quot.sound]
'Verif.C55.synced_is_kept' depends on axioms: [propext, Quot.sound]
'Verif.C55.demo' depends on axioms: [propext, Classical.choice, Quot.sound]
'Verif.C56.acts_as_durable_map' depends on axioms: [propext, Classical.choice, Quot.sound]
'Verif.C56.synced_is_kept' depends on axioms: [propext, Classical.choice, Quot.sound]
'Verif.C56.recoverable' depends on axioms: [propext, Classical.choice, Quot.sound]
'Verif.C56.demo' depends on axioms: [propext, Classical.choice, Quot.sound]
'Verif.C57.acts_as_map' depends on axioms: [propext, Classical.choice, Quot.sound]
'Verif.C57.query_enabled' depends on axioms: [propext, Classical.choice, Quot.sound]
'Verif.C57.store_is_durable_map' depends on axioms: [propext, Classical.choice, Quot.sound]
'Verif.C57.demo' depends on axioms: [propext, Classical.choice, Quot.sound]
'Verif.C58.acts_as_map' depends on axioms: [propext, Classical.choice, Quot.sound]
'Verif.C58.query_enabled' depends on axioms: [propext, Classical.choice, Quot.sound]
'Verif.C58.lookup_right' depends on axioms: [propext, Classical.choice, Quot.sound]
'Verif.C58.nodes_wf' depends on axioms: [propext, Classical.choice, Quot.sound]
'Verif.C58.store_is_durable_map' depends on axioms: [propext, Classical.choice, Quot.sound]
'Verif.C58.demo' depends on axioms: [propext, Classical.choice, Quot.sound]
'Verif.C59.acts_as_ideal' depends on axioms: [propext, Classical.choice, Quot.sound]
'Verif.C59.written_out' depends on axioms: [propext, Classical.choice, Quot.sound]
'Verif.C59.read_back' depends on axioms: [propext, Classical.choice, Quot.sound]
'Verif.C59.accepts_iff' depends on axioms: [propext, Classical.choice, Quot.sound]
'Verif.C59.no_overflow' depends on axioms: [propext, Classical.choice, Quot.sound]
'Verif.C59.demo' depends on axioms: [propext, Classical.choice, Quot.sound]
'Verif.C60.acts_as_durable_map' depends on axioms: [propext, Classical.choice, Quot.sound]
'Verif.C60.synced_is_kept' depends on axioms: [propext, Classical.choice, Quot.sound]
'Verif.C60.no_conflict' depends on axioms: [propext, Classical.choice, Quot.sound]
'Verif.C60.demo' depends on axioms: [propext, Classical.choice, Quot.sound]
'Verif.C61.never_opens' depends on axioms: [propext, Classical.choice, Quot.sound]
'Verif.C61.recoverable_partial' depends on axioms: [propext, Classical.choice, Quot.sound]
'Verif.C61.demo' depends on axioms: [propext, Classical.choice, Quot.sound]
'Verif.C61.demo_never' depends on axioms: [propext, Classical.choice, Quot.sound]
'Verif.C62.acts_as_durable_map' depends on axioms: [propext, Classical.choice, Quot.sound]
'Verif.C62.synced_is_kept' depends on axioms: [propext, Classical.choice, Quot.sound]
'Verif.C62.no_conflict' depends on axioms: [propext, Classical.choice, Quot.sound]
'Verif.C62.superblocks_good' depends on axioms: [propext, Classical.choice, Quot.sound]
'Verif.C62.cleanUp_enabled' depends on axioms: [propext, Classical.choice, Quot.sound]
'Verif.C62.superblock_reads_back' depends on axioms: [propext, Classical.choice, Quot.sound]
'Verif.C62.demo_superblock' does not depend on any axioms
'Verif.C62.demo' depends on axioms: [propext, Classical.choice, Quot.sound]
'Verif.C62.demo_cleanUp' depends on axioms: [propext, Classical.choice, Quot.sound]
'Verif.C63.reads_back' depends on axioms: [propext, Classical.choice, Quot.sound]
'Verif.C63.one_encoding' depends on axioms: [propext, Quot.sound]
'Verif.C63.size_right' depends on axioms: [propext]
'Verif.C63.superblock_reads_back' depends on axioms: [propext, Classical.choice, Quot.sound]
'Verif.C63.table_reads_back' depends on axioms: [propext, Classical.choice, Quot.sound]
'Verif.C63.node_reads_back' depends on axioms: [propext, Classical.choice, Quot.sound]
'Verif.C63.reads_well_formed' depends on axioms: [propext, Classical.choice, Quot.sound]
'Verif.C63.demo_value' depends on axioms: [propext, Quot.sound]
'Verif.C63.demo_bytes' depends on axioms: [propext, Classical.choice, Quot.sound]
'Verif.C63.demo_node' depends on axioms: [propext, Classical.choice, Quot.sound]
'Verif.C63.demo_table' depends on axioms: [propext, Classical.choice, Quot.sound]
'Verif.C63.demo_superblock' depends on axioms: [propext, Classical.choice, Quot.sound]
'Verif.C64.fresh_file' depends on axioms: [propext, Classical.choice, Quot.sound]
'Verif.C64.acts_as_durable_map' depends on axioms: [propext, Classical.choice, Quot.sound]
'Verif.C64.synced_is_kept' depends on axioms: [propext, Classical.choice, Quot.sound]
'Verif.C64.no_conflict' depends on axioms: [propext, Classical.choice, Quot.sound]
'Verif.C64.demo_file' depends on axioms: [propext, Quot.sound]
'Verif.C64.demo' depends on axioms: [propext, Classical.choice, Quot.sound]
'Verif.C65.read_iff' depends on axioms: [propext, Classical.choice, Quot.sound]
'Verif.C65.table_follows' depends on axioms: [propext, Classical.choice, Quot.sound]
'Verif.C65.offers_garbage' depends on axioms: [propext, Classical.choice, Quot.sound]
'Verif.C65.finds_all_garbage' depends on axioms: [propext, Classical.choice, Quot.sound]
'Verif.C65.finds_unwritten' depends on axioms: [propext, Classical.choice, Quot.sound]
'Verif.C65.frozen_finds_unwritten' depends on axioms: [propext, Classical.choice, Quot.sound]
'Verif.C65.bitmap_exact' depends on axioms: [propext, Classical.choice, Quot.sound]
'Verif.C66.moves' depends on axioms: [propext, Classical.choice, Quot.sound]
'Verif.C66.nothing_lost' depends on axioms: [propext, Classical.choice, Quot.sound]
'Verif.C66.fits' depends on axioms: [propext, Quot.sound]
'Verif.C66.stops_when_full' depends on axioms: [propext, Quot.sound]
'Verif.C66.makes_progress' depends on axioms: [propext, Classical.choice, Quot.sound]
'Verif.C66.demo_ok' does not depend on any axioms
'Verif.C66.demo' depends on axioms: [propext, Quot.sound]
'Verif.C66.demo_full' depends on axioms: [propext, Quot.sound]
'Verif.C67.acts_as_durable_map' depends on axioms: [propext, Classical.choice, Quot.sound]
'Verif.C67.synced_is_kept' depends on axioms: [propext, Classical.choice, Quot.sound]
'Verif.C67.no_conflict' depends on axioms: [propext, Classical.choice, Quot.sound]
'Verif.C67.cache_bounded' depends on axioms: [propext, Classical.choice, Quot.sound]
'Verif.C67.answers_handled' depends on axioms: [propext, Classical.choice, Quot.sound]
'Verif.C67.demo' depends on axioms: [propext, Classical.choice, Quot.sound]
'Verif.C68.burst_detected' depends on axioms: [propext, Classical.choice, Quot.sound]
'Verif.C68.odd_detected' depends on axioms: [propext, Classical.choice, Quot.sound]
'Verif.C68.few_detected' depends on axioms: [propext, Classical.choice, Quot.sound]
'Verif.C68.not_read' depends on axioms: [propext, Classical.choice, Quot.sound]
'Verif.C68.disk_assumption' depends on axioms: [propext, Classical.choice, Quot.sound]
'Verif.C68.journal_detected' depends on axioms: [propext, Classical.choice, Quot.sound]
'Verif.C68.burst_33_undetected' depends on axioms: [propext, Classical.choice, Quot.sound]
'Verif.C68.demo' depends on axioms: [propext, Classical.choice, Quot.sound]
'Verif.C69.check_value' depends on axioms: [propext]
'Verif.C69.definition' depends on axioms: [propext, Classical.choice, Quot.sound]
'Verif.C69.computes' depends on axioms: [propext, Classical.choice, Quot.sound]
'Verif.C69.computes_padded' depends on axioms: [propext, Classical.choice, Quot.sound]
'Verif.C69.table' depends on axioms: [propext, Classical.choice, Quot.sound]
'Verif.C69.demo' depends on axioms: [propext, Classical.choice, Quot.sound]
'Verif.C70.is_a_map' depends on axioms: [propext, Classical.choice, Quot.sound]
'Verif.C70.bounded' depends on axioms: [propext, Classical.choice, Quot.sound]
'Verif.C70.half_empty' depends on axioms: [propext, Classical.choice, Quot.sound]
'Verif.C70.demo' depends on axioms: [propext, Quot.sound]
'Verif.C70.demo_grows' depends on axioms: [propext, Quot.sound]
'Verif.C71.is_a_queue' depends on axioms: [propext, Classical.choice, Quot.sound]
'Verif.C71.bounded' depends on axioms: [propext, Classical.choice, Quot.sound]
'Verif.C71.linked_both_ways' depends on axioms: [propext, Classical.choice, Quot.sound]
'Verif.C71.insert_before' depends on axioms: [propext, Classical.choice, Quot.sound]
'Verif.C71.insert_after' depends on axioms: [propext, Classical.choice, Quot.sound]
'Verif.C71.insert_ends' depends on axioms: [propext, Classical.choice, Quot.sound]
'Verif.C71.removal' depends on axioms: [propext, Classical.choice, Quot.sound]
'Verif.C71.demo' depends on axioms: [propext, Quot.sound]
'Verif.C71.demo_list' depends on axioms: [propext]
'Verif.C72.is_a_set' depends on axioms: [propext, Classical.choice, Quot.sound]
'Verif.C72.never_in_use' depends on axioms: [propext, Classical.choice, Quot.sound]
'Verif.C72.least_free' depends on axioms: [propext, Classical.choice, Quot.sound]
'Verif.C72.no_leak' depends on axioms: [propext, Classical.choice, Quot.sound]
'Verif.C72.implements' depends on axioms: [propext, Classical.choice, Quot.sound]
'Verif.C72.implements_init' depends on axioms: [propext, Quot.sound]
'Verif.C72.demo' depends on axioms: [propext, Quot.sound]
'Verif.C72.demo_twice' depends on axioms: [propext, Quot.sound]
'Verif.C72.demo_init' depends on axioms: [propext, Quot.sound]
'Verif.C73.never_stuck' depends on axioms: [propext, Classical.choice, Quot.sound]
'Verif.C73.is_a_map' depends on axioms: [propext, Classical.choice, Quot.sound]
'Verif.C73.in_order' depends on axioms: [propext, Classical.choice, Quot.sound]
'Verif.C73.balanced' depends on axioms: [propext, Classical.choice, Quot.sound]
'Verif.C73.shallow' depends on axioms: [propext, Classical.choice, Quot.sound]
'Verif.C73.from_seq' depends on axioms: [propext, Classical.choice, Quot.sound]
'Verif.C73.round_trip' depends on axioms: [propext, Classical.choice, Quot.sound]
'Verif.C73.demo' depends on axioms: [propext, Classical.choice, Quot.sound]
'Verif.C73.demo_weight' depends on axioms: [propext]
'Verif.C74.nodes_within_limits' depends on axioms: [propext, Classical.choice, Quot.sound]
'Verif.C74.table_within_limit' depends on axioms: [propext, Classical.choice, Quot.sound]
'Verif.C74.can_be_written' depends on axioms: [propext, Classical.choice, Quot.sound]
'Verif.C74.demo' depends on axioms: [propext, Classical.choice, Quot.sound]
'Verif.C75.always_writable' depends on axioms: [propext, Classical.choice, Quot.sound]
'Verif.C75.lengths' depends on axioms: [propext, Classical.choice, Quot.sound]
'Verif.C75.demo' depends on axioms: [propext, Classical.choice, Quot.sound]
'Verif.C75.root_ok' depends on axioms: [propext, Quot.sound]
'Verif.C75.longer_clone_unreadable' depends on axioms: [propext, Classical.choice, Quot.sound]
'Verif.C76.reads_last_write' depends on axioms: [propext, Classical.choice, Quot.sound]
'Verif.C76.one_slot' depends on axioms: [propext, Classical.choice, Quot.sound]
'Verif.C76.alone' depends on axioms: [propext, Classical.choice, Quot.sound]
'Verif.C76.held_stays' depends on axioms: [propext, Classical.choice, Quot.sound]
'Verif.C76.on_disk' depends on axioms: [propext, Classical.choice, Quot.sound]
'Verif.C76.clean_on_disk' depends on axioms: [propext, Classical.choice, Quot.sound]
'Verif.C76.count_exact' depends on axioms: [propext, Classical.choice, Quot.sound]
'Verif.C76.count_no_wrap' depends on axioms: [propext, Classical.choice, Quot.sound]
'Verif.C76.waits_for_load' depends on axioms: [propext, Classical.choice, Quot.sound]
'Verif.C76.waits_for_disk_partial' depends on axioms: [propext, Classical.choice, Quot.sound]
'Verif.C76.waits_for_reader' depends on axioms: [propext, Classical.choice, Quot.sound]
'Verif.C76.asWritten_reachable' depends on axioms: [propext, Quot.sound]
'Verif.C76.writer_waits_for_ever' depends on axioms: [propext, Classical.choice, Quot.sound]
'Verif.C76.never_evictable' depends on axioms: [propext, Classical.choice, Quot.sound]
'Verif.C76.demo' depends on axioms: [propext, Classical.choice, Quot.sound]
'Verif.C76.demo_waits' depends on axioms: [propext, Quot.sound]
'Verif.C76.demo_waits_disk' depends on axioms: [propext, Classical.choice, Quot.sound]
'Verif.C76.demo_for_ever' depends on axioms: [propext, Classical.choice, Quot.sound]
'Verif.C77.answers_as_in_turn' depends on axioms: [propext, Classical.choice, Quot.sound]
'Verif.C77.array_as_in_turn' depends on axioms: [propext, Classical.choice, Quot.sound]
'Verif.C77.in_between' depends on axioms: [propext, Classical.choice, Quot.sound]
'Verif.C77.never_stuck' depends on axioms: [propext, Classical.choice, Quot.sound]
'Verif.C77.nearer' depends on axioms: [propext, Classical.choice, Quot.sound]
'Verif.C77.demo' does not depend on any axioms
'Verif.C77.start_init' does not depend on any axioms
'Verif.C78.finds_last_insert' depends on axioms: [propext, Quot.sound]
'Verif.C78.answers_own_call' depends on axioms: [propext, Quot.sound]
'Verif.C78.one_slot' depends on axioms: [propext, Quot.sound]
'Verif.C78.empty_is_absent' depends on axioms: [propext, Quot.sound]
'Verif.C78.goes_on_partial' depends on axioms: [propext, Classical.choice, Quot.sound]
'Verif.C78.absent_never_answers' depends on axioms: [propext, Quot.sound]
'Verif.C78.empty_no_step' depends on axioms: [propext]
'Verif.C78.end_for_ever' depends on axioms: [propext, Quot.sound]
'Verif.C78.demo' does not depend on any axioms
'Verif.C78.demo_end' does not depend on any axioms
'Verif.C78.start_init' does not depend on any axioms
'Verif.C79.held_is_there' depends on axioms: [propext, Classical.choice, Quot.sound]
'Verif.C79.saved_is_out' depends on axioms: [propext, Classical.choice, Quot.sound]
'Verif.C79.owner_is_alone' depends on axioms: [propext, Classical.choice, Quot.sound]
'Verif.C79.counter_exact' depends on axioms: [propext, Classical.choice, Quot.sound]
'Verif.C79.can_be_got_back' depends on axioms: [propext, Classical.choice, Quot.sound]
'Verif.C79.demo' depends on axioms: [propext, Classical.choice, Quot.sound]
'Verif.C79.twice' depends on axioms: [propext, Classical.choice, Quot.sound]
'Verif.C79.below_zero' depends on axioms: [propext, Classical.choice, Quot.sound]
'Verif.C80.succ_gives_first' depends on axioms: [propext, Classical.choice, Quot.sound]
'Verif.C80.no_more_than_asked' depends on axioms: [propext, Quot.sound]
'Verif.C80.demo' depends on axioms: [propext, Classical.choice, Quot.sound]
'Verif.C81.acts_as_durable_map' depends on axioms: [propext, Classical.choice, Quot.sound]
'Verif.C81.synced_is_kept' depends on axioms: [propext, Classical.choice, Quot.sound]
'Verif.C81.driver_acts_as_real_disk' depends on axioms: [propext, Classical.choice, Quot.sound]
'Verif.C81.trusted_writes_only_that' depends on axioms: [propext, Classical.choice, Quot.sound]
'Verif.C81.not_the_trusted_disk' depends on axioms: [propext, Classical.choice, Quot.sound]
'Verif.C81.demo' depends on axioms: [propext, Classical.choice, Quot.sound]
'Verif.C82.answered_once' depends on axioms: [propext, Classical.choice, Quot.sound]
'Verif.C82.ids_differ' depends on axioms: [propext, Classical.choice, Quot.sound]
'Verif.C82.answered_in_file' depends on axioms: [propext, Classical.choice, Quot.sound]
'Verif.C82.nothing_lost' depends on axioms: [propext, Classical.choice, Quot.sound]
'Verif.C82.at_most_eight' depends on axioms: [propext, Classical.choice, Quot.sound]
'Verif.C82.wait_ok' depends on axioms: [propext, Classical.choice, Quot.sound]
'Verif.C82.complete_ok_partial' depends on axioms: [propext, Classical.choice, Quot.sound]
'Verif.C82.complete_can_fail' depends on axioms: [propext, Quot.sound]
'Verif.C82.demo_nine' depends on axioms: [propext, Classical.choice, Quot.sound]
'Verif.C82.demo_one' depends on axioms: [propext, Classical.choice, Quot.sound]
'Verif.C82.demo_complete' depends on axioms: [propext, Classical.choice, Quot.sound]
'Verif.C83.waits_for_a_write' depends on axioms: [propext, Classical.choice, Quot.sound]
'Verif.C83.sync_wait_ok' depends on axioms: [propext, Classical.choice, Quot.sound]
'Verif.C83.syncWaits_asks' depends on axioms: [propext, Quot.sound]
'Verif.C83.advanceWaits_asks' depends on axioms: [propext]
'Verif.C83.demo' depends on axioms: [propext, Classical.choice, Quot.sound]
'Verif.C84.tree' depends on axioms: [propext, Classical.choice, Quot.sound]
'Verif.C84.one_name' depends on axioms: [propext, Classical.choice, Quot.sound]
'Verif.C84.named' depends on axioms: [propext, Classical.choice, Quot.sound]
'Verif.C84.listed' does not depend on any axioms
'Verif.C84.demo' depends on axioms: [propext, Classical.choice, Quot.sound]
'Verif.C85.moves_partial' depends on axioms: [propext, Classical.choice, Quot.sound]
'Verif.C85.old_gone' depends on axioms: [propext, Classical.choice, Quot.sound]
'Verif.C85.onto_itself' depends on axioms: [propext, Classical.choice, Quot.sound]
'Verif.C85.beneath_itself' depends on axioms: [propext, Classical.choice, Quot.sound]
'Verif.C85.root_ends' depends on axioms: [propext, Classical.choice, Quot.sound]
'Verif.C85.not_always' depends on axioms: [propext, Classical.choice, Quot.sound]
'Verif.C85.demo' depends on axioms: [propext, Classical.choice, Quot.sound]
'Verif.C86.effect' depends on axioms: [propext, Classical.choice, Quot.sound]
'Verif.C86.allowed' depends on axioms: [propext, Classical.choice, Quot.sound]
'Verif.C86.dataWrite_spec' depends on axioms: [propext, Classical.choice, Quot.sound]
'Verif.C86.dataTruncate_spec' depends on axioms: [propext, Quot.sound]
'Verif.C86.demo' depends on axioms: [propext, Classical.choice, Quot.sound]
'Verif.C87.shown' depends on axioms: [propext, Classical.choice, Quot.sound]
'Verif.C87.listing_partial' depends on axioms: [propext, Classical.choice, Quot.sound]
'Verif.C87.done_says_nothing' depends on axioms: [propext, Classical.choice, Quot.sound]
'Verif.C87.not_complete' depends on axioms: [propext, Classical.choice, Quot.sound]
'Verif.C87.repaired_allowed' does not depend on any axioms
'Verif.C87.pieces_partial' depends on axioms: [propext, Classical.choice, Quot.sound]
'Verif.C87.demo' depends on axioms: [propext, Classical.choice, Quot.sound]
'Verif.C88.free_partial' depends on axioms: [propext, Classical.choice, Quot.sound]
'Verif.C88.stays_lost' depends on axioms: [propext, Classical.choice, Quot.sound]
'Verif.C88.lost_for_ever' depends on axioms: [propext, Classical.choice, Quot.sound]
'Verif.C88.demo' depends on axioms: [propext, Classical.choice, Quot.sound]
'Verif.C89.grows' depends on axioms: [propext, Classical.choice, Quot.sound]
'Verif.C89.made' depends on axioms: [propext, Classical.choice, Quot.sound]
'Verif.C89.cuts' depends on axioms: [propext, Classical.choice, Quot.sound]
'Verif.C89.searches' depends on axioms: [propext, Classical.choice, Quot.sound]
'Verif.C89.searches_end' depends on axioms: [propext, Classical.choice, Quot.sound]
'Verif.C89.unique' depends on axioms: [propext, Classical.choice, Quot.sound]
'Verif.C89.demo' depends on axioms: [propext]
'Verif.C89.demo_sorted' depends on axioms: [propext, Classical.choice, Quot.sound]
'Verif.C90.query_answers' depends on axioms: [propext, Classical.choice, Quot.sound]
'Verif.C90.stands_for' depends on axioms: [propext, Classical.choice, Quot.sound]
'Verif.C90.goes_on' depends on axioms: [propext, Classical.choice, Quot.sound]
'Verif.C90.prefix_answers' depends on axioms: [propext, Classical.choice, Quot.sound]
'Verif.C90.unsorted_answers' depends on axioms: [propext, Classical.choice, Quot.sound]
'Verif.C90.demo' depends on axioms: [propext, Classical.choice, Quot.sound]
'Verif.C91.flushes' depends on axioms: [propext, Classical.choice, Quot.sound]
'Verif.C91.demo' depends on axioms: [propext, Classical.choice, Quot.sound]
'Verif.C92.translates' depends on axioms: [propext, Classical.choice, Quot.sound]
'Verif.C92.checks' depends on axioms: [propext, Classical.choice, Quot.sound]
'Verif.C92.checks_all' depends on axioms: [propext, Classical.choice, Quot.sound]
'Verif.C92.demo' depends on axioms: [propext, Classical.choice, Quot.sound]
'Verif.C93.from_start' depends on axioms: [propext, Classical.choice, Quot.sound]
'Verif.C93.from_key' depends on axioms: [propext, Classical.choice, Quot.sound]
'Verif.C93.above_key' depends on axioms: [propext, Classical.choice, Quot.sound]
'Verif.C93.one_list' depends on axioms: [propext]
'Verif.C93.demo' depends on axioms: [propext, Classical.choice, Quot.sound]
