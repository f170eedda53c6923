{
 "claims": [
  {
   "property": "C01",
   "status": "proved",
   "theorems": [
    "Scalopus.C01.ring_is_bounded_queue",
    "Scalopus.C01.ring_size_zero_refused",
    "Scalopus.C01.available_distance"
   ],
   "note": ""
  },
  {
   "property": "C02",
   "status": "proved",
   "theorems": [
    "Scalopus.C02.ring_concurrent_safe",
    "Scalopus.C02.push_refused_iff_full",
    "Scalopus.C02.everything_can_be_popped",
    "Scalopus.C02.size_counts_seen",
    "Scalopus.C02.pop_into_returns_seen"
   ],
   "note": ""
  },
  {
   "property": "C03",
   "status": "proved",
   "theorems": [
    "Scalopus.C03.messages_round_trip"
   ],
   "note": "For fields that fit the wire format and reads that are satisfied in full; other reads are C04."
  },
  {
   "property": "C04",
   "status": "partial",
   "theorems": [
    "Scalopus.C04.framing_independent_of_splits_partial",
    "Scalopus.C04.short_read_truncates",
    "Scalopus.C04.framing_depends_on_splits"
   ],
   "note": "The full property is false of the code (a short read ends the loop with success); its negation is proved."
  },
  {
   "property": "C05",
   "status": "partial",
   "theorems": [
    "Scalopus.C05.oversized_name_keeps_framing_partial",
    "Scalopus.C05.oversized_payload_leftover",
    "Scalopus.C05.phantom_message",
    "Scalopus.C05.oversized_payload_violation",
    "Scalopus.C05.harmless_iff"
   ],
   "note": "True for names of any length; false for payloads of 2^32 bytes and more, negation proved."
  },
  {
   "property": "C10",
   "status": "partial",
   "theorems": [
    "Scalopus.C10.no_corrupted_answer_partial",
    "Scalopus.C10.broken_before_payload_fulfils_empty",
    "Scalopus.C10.corrupted_answer_possible",
    "Scalopus.C10.broken_inside_header_is_ub",
    "Scalopus.C10.broken_exact",
    "Scalopus.C10.broken_in_payload_truncates",
    "Scalopus.C10.broken_in_field_undefined",
    "Scalopus.C10.broken_between_fields_partial",
    "Scalopus.C10.failed_read_noticed",
    "Scalopus.C10.failed_read_fulfils_empty"
   ],
   "note": "The full property is false of the code; negation proved. The outcome is proved for every offset: no request is fulfilled wrongly only in front of the name."
  },
  {
   "property": "C06",
   "status": "partial",
   "theorems": [
    "Scalopus.C06.answers_belong_to_requests_partial",
    "Scalopus.C06.answer_is_final",
    "Scalopus.C06.foreign_answer_possible",
    "Scalopus.C06.every_request_can_be_misanswered",
    "Scalopus.C06.own_answer_partial",
    "Scalopus.C06.foreign_only_if_early",
    "Scalopus.C06.silent_endpoints"
   ],
   "note": "False in general: a response can be looked up before the promise is stored, and if the client's endpoint answers it the request gets the answer to another payload (negation proved). Partial: all schedules without that reply."
  },
  {
   "property": "C07",
   "status": "partial",
   "theorems": [
    "Scalopus.C07.answered_requests_complete_partial",
    "Scalopus.C07.answered_request_can_hang",
    "Scalopus.C07.hanging_forever",
    "Scalopus.C07.unsent_fails",
    "Scalopus.C07.early_lookup_hangs",
    "Scalopus.C07.every_request_can_hang",
    "Scalopus.C07.each_completes_partial",
    "Scalopus.C07.hangs_iff",
    "Scalopus.C07.never_ready_iff"
   ],
   "note": "False in general (response looked up before the promise is stored), negation proved. Partial: all schedules where the promise is stored first."
  },
  {
   "property": "C08",
   "status": "proved",
   "theorems": [
    "Scalopus.C08.request_ids_unique",
    "Scalopus.C08.request_message_carries_id"
   ],
   "note": ""
  },
  {
   "property": "C09",
   "status": "proved",
   "theorems": [
    "Scalopus.C09.pending_bounds",
    "Scalopus.C09.cleanup_exact"
   ],
   "note": ""
  },
  {
   "property": "C11",
   "status": "proved",
   "theorems": [
    "Scalopus.C11.broadcast_exactly_once",
    "Scalopus.C11.broadcast_to_no_one_else",
    "Scalopus.C11.queue_drained"
   ],
   "note": ""
  },
  {
   "property": "C12",
   "status": "partial",
   "theorems": [
    "Scalopus.C12.broadcasts_in_order_partial",
    "Scalopus.C12.queued_broadcasts_reversed",
    "Scalopus.C12.broadcast_order_violated",
    "Scalopus.C12.later_first",
    "Scalopus.C12.in_order_iff"
   ],
   "note": "False: the queue is emptied from the back; negation proved. Partial: one queued broadcast at a time; in_order_iff shows that the order is kept exactly then."
  },
  {
   "property": "C13",
   "status": "partial",
   "theorems": [
    "Scalopus.C13.destruction_partial",
    "Scalopus.C13.factories",
    "Scalopus.C13.failed_start_violated"
   ],
   "note": "False: destroying a transport that did not start terminates the process; exact characterisation proved."
  },
  {
   "property": "C16",
   "status": "proved",
   "theorems": [
    "Scalopus.C16.getEndpoint_last_added",
    "Scalopus.C16.endpoints_lists_added",
    "Scalopus.C16.endpoint_reaches_transport"
   ],
   "note": ""
  },
  {
   "property": "C14",
   "status": "partial",
   "theorems": [
    "Scalopus.C14.loopback_requests_partial",
    "Scalopus.C14.loopback_no_crash_partial",
    "Scalopus.C14.missing_endpoint_ub",
    "Scalopus.C14.missing_endpoint_crashes",
    "Scalopus.C14.work_crashes_iff",
    "Scalopus.C14.crashes_iff"
   ],
   "note": "False for requests to endpoints the server lacks (null dereference), negation proved. Partial: all histories with requests to known endpoints."
  },
  {
   "property": "C15",
   "status": "partial",
   "theorems": [
    "Scalopus.C15.loopback_broadcast_partial",
    "Scalopus.C15.reply_crashes",
    "Scalopus.C15.answered_reply_terminates",
    "Scalopus.C15.survives_iff"
   ],
   "note": "False if the server cannot take a reply (null dereference or terminate), negation proved."
  },
  {
   "property": "C17",
   "status": "partial",
   "theorems": [
    "Scalopus.C17.discovery_exact_partial",
    "Scalopus.C17.spoofed_server",
    "Scalopus.C17.other_sockets_are_found",
    "Scalopus.C17.line_never_throws",
    "Scalopus.C17.no_server_missed",
    "Scalopus.C17.found_separately"
   ],
   "note": "False if other sockets use the suffix, negation proved. Partial: exact for all tables where only servers do. For every table no server is missed and discovery does not fail (no_server_missed)."
  },
  {
   "property": "C59",
   "status": "partial",
   "theorems": [
    "Scalopus.C59.unix_destinations",
    "Scalopus.C59.unix_form",
    "Scalopus.C59.socketName_eq",
    "Scalopus.C59.loopback_destinations_partial",
    "Scalopus.C59.gone_is_not_live",
    "Scalopus.C59.gone_destinations_collide",
    "Scalopus.C59.recorded_hash_is_reused",
    "Scalopus.C59.loopback_destinations_exact",
    "Scalopus.C59.recorded_hash_reused_always"
   ],
   "note": "Proved for unix. For loopback true while the servers exist, false afterwards; negation proved."
  },
  {
   "property": "C61",
   "status": "proved",
   "theorems": [
    "Scalopus.C61.factory_discovers",
    "Scalopus.C61.factory_connects"
   ],
   "note": ""
  },
  {
   "property": "C18",
   "status": "partial",
   "theorems": [
    "Scalopus.C18.nothing_lost_or_duplicated_partial",
    "Scalopus.C18.nothing_else_collected",
    "Scalopus.C18.every_event_collected_partial",
    "Scalopus.C18.only_failures",
    "Scalopus.C18.late_tracepoint",
    "Scalopus.C18.late_fails",
    "Scalopus.C18.fails_iff",
    "Scalopus.C18.undefined_iff"
   ],
   "note": "Conservation and progress proved for all histories without a tracepoint reached after the thread's buffer was retired; such a late tracepoint is undefined behaviour (negation proved), and exactly the histories with one fail (fails_iff, undefined_iff)."
  },
  {
   "property": "C19",
   "status": "proved",
   "theorems": [
    "Scalopus.C19.order_preserved"
   ],
   "note": ""
  },
  {
   "property": "C20",
   "status": "proved",
   "theorems": [
    "Scalopus.C20.full_buffer_drops_newest"
   ],
   "note": ""
  },
  {
   "property": "C60",
   "status": "partial",
   "theorems": [
    "Scalopus.C60.collected_is_broadcast_partial",
    "Scalopus.C60.collected_without_transport_dropped",
    "Scalopus.C60.sent_exact"
   ],
   "note": "False without a transport: collected events are thrown away; negation proved."
  },
  {
   "property": "C21",
   "status": "proved",
   "theorems": [
    "Scalopus.C21.observations_agree",
    "Scalopus.C21.recorded_iff_on",
    "Scalopus.C21.only_tracepoints_record",
    "Scalopus.C21.nop_records_nothing"
   ],
   "note": ""
  },
  {
   "property": "C22",
   "status": "proved",
   "theorems": [
    "Scalopus.C22.switch_changes_only_by",
    "Scalopus.C22.starts_on",
    "Scalopus.C22.reads_are_switches",
    "Scalopus.C22.reads_answer",
    "Scalopus.C22.listing_exact"
   ],
   "note": ""
  },
  {
   "property": "C25",
   "status": "proved",
   "theorems": [
    "Scalopus.C25.set_exact",
    "Scalopus.C25.get_exact",
    "Scalopus.C25.client_result"
   ],
   "note": ""
  },
  {
   "property": "C62",
   "status": "partial",
   "theorems": [
    "Scalopus.C62.only_late_calls_fail_partial",
    "Scalopus.C62.late_call_is_undefined",
    "Scalopus.C62.fails_iff",
    "Scalopus.C62.undefined_iff"
   ],
   "note": "False: a call after the thread's clean-up is undefined behaviour (negation proved). Everything else is proved safe. Exactly the histories with such a call fail (fails_iff, undefined_iff)."
  },
  {
   "property": "C63",
   "status": "partial",
   "theorems": [
    "Scalopus.C63.malformed_request_terminates",
    "Scalopus.C63.wellformed_request_answered_partial",
    "Scalopus.C63.malformed_info_terminates",
    "Scalopus.C63.wellformed_info_answered_partial",
    "Scalopus.C63.mapping_request_undefined",
    "Scalopus.C63.configurator_survives_iff",
    "Scalopus.C63.info_survives_iff",
    "Scalopus.C63.mapping_survives_iff"
   ],
   "note": "False: a malformed configuration or process information request terminates the server and an empty mapping request is undefined behaviour (negations proved)."
  },
  {
   "property": "C23",
   "status": "proved",
   "theorems": [
    "Scalopus.C23.thread_switch_restored",
    "Scalopus.C23.process_switch_restored",
    "Scalopus.C23.switch_set_inside",
    "Scalopus.C23.overlapping_process_switches",
    "Scalopus.C23.overlapping_switches_always"
   ],
   "note": "The process switch needs other threads not to set it at the same time; overlapping scopes of two threads are shown to leave it changed."
  },
  {
   "property": "C24",
   "status": "proved",
   "theorems": [
    "Scalopus.C24.program_emits",
    "Scalopus.C24.events_nested",
    "Scalopus.C24.viewer_stack",
    "Scalopus.C24.every_path_executes"
   ],
   "note": ""
  },
  {
   "property": "C26",
   "status": "partial",
   "theorems": [
    "Scalopus.C26.id_exists",
    "Scalopus.C26.scope_lines_differ_partial",
    "Scalopus.C26.close_names_differ_partial",
    "Scalopus.C26.start_end_same",
    "Scalopus.C26.line_and_name_collide",
    "Scalopus.C26.names_collide",
    "Scalopus.C26.share_iff",
    "Scalopus.C26.every_id_collides"
   ],
   "note": "False in general: a line based id and a name based id, or two name based ids, can collide (witnesses proved). Proved: ids of plain scopes on different lines differ for all lines below 2^32, and names that differ in at most four bytes get different ids. Exactly which share an id: share_iff; every id is that of some name: every_id_collides."
  },
  {
   "property": "C27",
   "status": "proved",
   "theorems": [
    "Scalopus.C27.compile_time_is_crc32"
   ],
   "note": ""
  },
  {
   "property": "C28",
   "status": "partial",
   "theorems": [
    "Scalopus.C28.far_checksums_differ_partial",
    "Scalopus.C28.close_files_differ_partial",
    "Scalopus.C28.files_collide",
    "Scalopus.C28.share_iff",
    "Scalopus.C28.every_file_collides"
   ],
   "note": "False: two files can have colliding ids (witness proved; every tracepoint collides with some file, every_file_collides). Exactly which tracepoints share an id: share_iff."
  },
  {
   "property": "C29",
   "status": "partial",
   "theorems": [
    "Scalopus.C29.first_use_race",
    "Scalopus.C29.named_or_in_progress_partial",
    "Scalopus.C29.named_when_quiet_partial",
    "Scalopus.C29.named_when_single_partial",
    "Scalopus.C29.name_is_a_macros_name",
    "Scalopus.C29.end_does_not_register",
    "Scalopus.C29.first_use_race_always",
    "Scalopus.C29.end_never_registers",
    "Scalopus.C29.named_iff",
    "Scalopus.C29.name_stays",
    "Scalopus.C29.name_stays_same",
    "Scalopus.C29.gap_is_one_step"
   ],
   "note": "False: a second thread that reaches the tracepoint while the first registers it emits before the name is there (negation proved). When a name is there is stated exactly (named_iff); it stays, and the gap is one step of one thread (gap_is_one_step)."
  },
  {
   "property": "C45",
   "status": "proved",
   "theorems": [
    "Scalopus.C45.calls_are_sequential",
    "Scalopus.C45.placed_within_call",
    "Scalopus.C45.call_keeps_operation",
    "Scalopus.C45.no_deadlock"
   ],
   "note": ""
  },
  {
   "property": "C46",
   "status": "partial",
   "theorems": [
    "Scalopus.C46.names_exact_partial",
    "Scalopus.C46.foreign_name_stays",
    "Scalopus.C46.foreign_name_inherited",
    "Scalopus.C46.macro_once",
    "Scalopus.C46.fails_only_late",
    "Scalopus.C46.foreign_name_always",
    "Scalopus.C46.foreign_name_inherited_always"
   ],
   "note": "False for names set with setThreadName from another thread (negation proved); exact when threads name themselves."
  },
  {
   "property": "C47",
   "status": "partial",
   "theorems": [
    "Scalopus.C47.info_exact",
    "Scalopus.C47.info_lists_live_threads",
    "Scalopus.C47.info_needs_transport",
    "Scalopus.C47.timeout_pid_arbitrary",
    "Scalopus.C47.timeout_not_recognisable",
    "Scalopus.C47.timeout_empty_partial"
   ],
   "note": "False on a timeout: the process id of the result is not initialised (negation proved). Answers in time are exact."
  },
  {
   "property": "C48",
   "status": "proved",
   "theorems": [
    "Scalopus.C48.introspection_exact",
    "Scalopus.C48.introspection_otherwise",
    "Scalopus.C48.introspection_fails"
   ],
   "note": ""
  },
  {
   "property": "C49",
   "status": "partial",
   "theorems": [
    "Scalopus.C49.mapping_exact",
    "Scalopus.C49.mapping_otherwise",
    "Scalopus.C49.empty_request_undefined",
    "Scalopus.C49.other_requests_declined_partial",
    "Scalopus.C49.mapping_well_formed"
   ],
   "note": "False for an empty request, which is undefined behaviour (negation proved)."
  },
  {
   "property": "C30",
   "status": "proved",
   "theorems": [
    "Scalopus.C30.batch_round_trip",
    "Scalopus.C30.counter_round_trip"
   ],
   "note": ""
  },
  {
   "property": "C31",
   "status": "proved",
   "theorems": [
    "Scalopus.C31.interval_exact",
    "Scalopus.C31.interval_time_order",
    "Scalopus.C31.provider_gone",
    "Scalopus.C31.query_failure_escapes"
   ],
   "note": "Order is by reported timestamp (see C64). Needs a provider that is alive and a name query that does not fail; otherwise nothing is returned (also proved)."
  },
  {
   "property": "C32",
   "status": "partial",
   "theorems": [
    "Scalopus.C32.values_of_same_counter",
    "Scalopus.C32.own_value_shown",
    "Scalopus.C32.own_value_kept",
    "Scalopus.C32.counters_exact_partial",
    "Scalopus.C32.not_all_counters_exact"
   ],
   "note": "False when several threads set one counter (negation proved). Exact for counters whose events were recorded in the order of time; isolation and own value proved for all recordings."
  },
  {
   "property": "C33",
   "status": "partial",
   "theorems": [
    "Scalopus.C33.bad_batch_hides_others",
    "Scalopus.C33.unknown_kind_hides_others",
    "Scalopus.C33.earlier_batches_kept_partial",
    "Scalopus.C33.counter_without_value_undefined",
    "Scalopus.C33.first_unknown_ends",
    "Scalopus.C33.complete_iff",
    "Scalopus.C33.undefined_iff",
    "Scalopus.C33.harmless_iff"
   ],
   "note": "False: everything after the bad batch is lost (negation proved). Earlier batches are proved to be kept."
  },
  {
   "property": "C35",
   "status": "proved",
   "theorems": [
    "Scalopus.C35.name_of_own_process",
    "Scalopus.C35.unknown_ids_differ",
    "Scalopus.C35.refresh_merges",
    "Scalopus.C35.refreshed_names_exact",
    "Scalopus.C35.failing_query_escapes",
    "Scalopus.C35.late_process_loses_names",
    "Scalopus.C35.no_manager",
    "Scalopus.C35.all_late_forgets",
    "Scalopus.C35.late_forgets"
   ],
   "note": ""
  },
  {
   "property": "C36",
   "status": "partial",
   "theorems": [
    "Scalopus.C36.series_exact",
    "Scalopus.C36.count_series_empty",
    "Scalopus.C36.count_not_shown",
    "Scalopus.C36.plain_name_count_partial",
    "Scalopus.C36.counter_id_of_name",
    "Scalopus.C36.same_registered"
   ],
   "note": "False: TRACE_COUNT without a series gives an empty series name (negation proved)."
  },
  {
   "property": "C64",
   "status": "partial",
   "theorems": [
    "Scalopus.C64.timestamps_monotone",
    "Scalopus.C64.timestamps_accurate",
    "Scalopus.C64.timestamps_below",
    "Scalopus.C64.timestamps_collide",
    "Scalopus.C64.not_distinct",
    "Scalopus.C64.timestamps_distinct_partial"
   ],
   "note": "False for large times: two times can give one timestamp (witness proved). Monotone and accurate to one part in 2^51."
  },
  {
   "property": "C34",
   "status": "proved",
   "theorems": [
    "Scalopus.C34.arrived_is_returned",
    "Scalopus.C34.returned_arrived",
    "Scalopus.C34.never_twice",
    "Scalopus.C34.in_order",
    "Scalopus.C34.overlapping_call_comes_later"
   ],
   "note": "A call that delivers data and overlaps a start, stop or finish may count as before or after it."
  },
  {
   "property": "C37",
   "status": "proved",
   "theorems": [
    "Scalopus.C37.chunks_exact",
    "Scalopus.C37.end_exact"
   ],
   "note": "For events whose strings are UTF-8; other events are C65."
  },
  {
   "property": "C38",
   "status": "proved",
   "theorems": [
    "Scalopus.C38.commands_in_order",
    "Scalopus.C38.command_can_be_processed",
    "Scalopus.C38.categories_exact",
    "Scalopus.C38.start_exact",
    "Scalopus.C38.unknown_ignored",
    "Scalopus.C37.end_exact"
   ],
   "note": ""
  },
  {
   "property": "C39",
   "status": "partial",
   "theorems": [
    "Scalopus.C39.never_sends_to_closed",
    "Scalopus.C39.data_to_own_session",
    "Scalopus.C39.data_is_given",
    "Scalopus.C39.replies_in_order",
    "Scalopus.C39.reply_to_other_connection",
    "Scalopus.C39.replies_to_own_connection_partial",
    "Scalopus.C39.every_reply_can_go_astray"
   ],
   "note": "False: a waiting reply goes to a new connection that uses the same address (negation proved). Everything else is proved; replies too while addresses are not used again early."
  },
  {
   "property": "C40",
   "status": "proved",
   "theorems": [
    "Scalopus.C40.file_exact",
    "Scalopus.C40.bad_name_fails"
   ],
   "note": ""
  },
  {
   "property": "C41",
   "status": "partial",
   "theorems": [
    "Scalopus.C41.start_all_providers",
    "Scalopus.C41.unstarted_cannot_be_destroyed",
    "Scalopus.C41.any_order_fails",
    "Scalopus.C41.stopped_cannot_be_destroyed",
    "Scalopus.C41.lifecycle_partial",
    "Scalopus.C41.calls_work_iff",
    "Scalopus.C41.destroy_works_iff"
   ],
   "note": "False: destroying a recorder that was not started or was already stopped fails (negation proved). Exactly which sequences of calls work is proved (calls_work_iff, destroy_works_iff)."
  },
  {
   "property": "C65",
   "status": "partial",
   "theorems": [
    "Scalopus.C65.malformed_message_terminates",
    "Scalopus.C65.other_json_terminates",
    "Scalopus.C65.name_terminates",
    "Scalopus.C65.wellformed_continues_partial",
    "Scalopus.C65.bad_event_terminates",
    "Scalopus.C65.failing_source_terminates",
    "Scalopus.C65.ends_program",
    "Scalopus.C65.continues_iff",
    "Scalopus.C65.ended_iff"
   ],
   "note": "False: text that is not JSON, JSON that is not an object, names that are not UTF-8 and failing sources terminate the server (negation proved). Exactly these do (continues_iff, ended_iff)."
  },
  {
   "property": "C66",
   "status": "partial",
   "theorems": [
    "Scalopus.C66.sources_race",
    "Scalopus.C66.running_race",
    "Scalopus.C66.not_NoRace",
    "Scalopus.C66.no_other_race_partial",
    "Scalopus.C66.no_message_before_published",
    "Scalopus.C66.worker_ends",
    "Scalopus.C66.destructor_returns",
    "Scalopus.C66.running_race_always",
    "Scalopus.C66.sources_race_always"
   ],
   "note": "False: two races (negation proved), shown to be the only ones."
  },
  {
   "property": "C42",
   "status": "proved",
   "theorems": [
    "Scalopus.C42.one_per_server",
    "Scalopus.C42.transports_live",
    "Scalopus.C42.dead_transports_removed",
    "Scalopus.C42.live_transports_kept",
    "Scalopus.C42.discovered_connected"
   ],
   "note": ""
  },
  {
   "property": "C43",
   "status": "proved",
   "theorems": [
    "Scalopus.C43.endpoints_exact",
    "Scalopus.C43.found_by_name",
    "Scalopus.C43.addFactory_exact"
   ],
   "note": ""
  },
  {
   "property": "C44",
   "status": "partial",
   "theorems": [
    "Scalopus.C44.refused_terminates",
    "Scalopus.C44.every_refusal_terminates",
    "Scalopus.C44.null_transport_undefined",
    "Scalopus.C44.never_retried",
    "Scalopus.C44.slow_server_lost",
    "Scalopus.C44.good_poll_ends_partial",
    "Scalopus.C44.bad_answer_escapes",
    "Scalopus.C44.bad_answer_always"
   ],
   "note": "False: a refused connection ends the process and a late server never gets endpoints (negations proved)."
  },
  {
   "property": "C57",
   "status": "partial",
   "theorems": [
    "Scalopus.C57.entries_exact",
    "Scalopus.C57.entries_with_others",
    "Scalopus.C57.late_process_hides_other",
    "Scalopus.C57.exact_partial",
    "Scalopus.C57.failing_query_escapes",
    "Scalopus.C57.last_answer_counts"
   ],
   "note": "False when a process answers late (negation proved); exact otherwise."
  },
  {
   "property": "C67",
   "status": "proved",
   "theorems": [
    "Scalopus.C67.polling_exact"
   ],
   "note": "Calls from one thread. The flag itself is a plain bool shared with the polling thread, as in C66."
  },
  {
   "property": "C50",
   "status": "partial",
   "theorems": [
    "Scalopus.C50.lines_parsed_partial",
    "Scalopus.C50.brace_loses_fields",
    "Scalopus.C50.not_lines_parsed",
    "Scalopus.C50.brace_cuts_context",
    "Scalopus.C50.comma_forges_field"
   ],
   "note": "Every line whose values other than integers contain neither '}' nor ', ' is parsed to exactly its time, host, domain, name and integer fields. The full claim is false: a string field with a closing brace hides the fields after it (not_lines_parsed), for every such line (brace_cuts_context), and a string that ends with ', k = n' forges the field k and replaces the real one (comma_forges_field)."
  },
  {
   "property": "C51",
   "status": "partial",
   "theorems": [
    "Scalopus.C51.any_line_partial",
    "Scalopus.C51.time_throws",
    "Scalopus.C51.field_throws",
    "Scalopus.C51.not_tolerant",
    "Scalopus.C51.every_such_time_throws",
    "Scalopus.C51.every_such_field_throws"
   ],
   "note": "Any line parses to an event or throws std::out_of_range, the latter only if a part of the line is a number out of range. The full claim is false: such numbers throw (not_tolerant)."
  },
  {
   "property": "C52",
   "status": "partial",
   "theorems": [
    "Scalopus.C52.values_of_same_counter",
    "Scalopus.C52.kept_apart_partial",
    "Scalopus.C52.not_kept_apart",
    "Scalopus.C52.mixed_always"
   ],
   "note": "False when two processes use a counter of the same name (negation proved, and that it fails in all such recordings); holds otherwise."
  },
  {
   "property": "C68",
   "status": "proved",
   "theorems": [
    "Scalopus.C68.interval_exact",
    "Scalopus.C68.timestamps_monotone",
    "Scalopus.C68.counters_exact"
   ],
   "note": "Over everything babeltrace prints in the documented format, through the parser."
  },
  {
   "property": "C69",
   "status": "partial",
   "theorems": [
    "Scalopus.C68.interval_exact",
    "Scalopus.C68.incomplete_event_loses_all",
    "Scalopus.C68.default_contexts_incomplete",
    "Scalopus.C68.line_without_time_undefined"
   ],
   "note": "Holds for complete events of other domains. False otherwise: an event without the contexts or of an unknown kind makes finishInterval fail as a whole, and a line without a time leads to a read of an uninitialised value (proved)."
  },
  {
   "property": "C53",
   "status": "partial",
   "theorems": [
    "Scalopus.C53.recording_session_has_all",
    "Scalopus.C53.received_is_prefix",
    "Scalopus.C53.never_after_removed",
    "Scalopus.C53.source_events_partial",
    "Scalopus.C53.keeps_running_partial",
    "Scalopus.C53.stop_races",
    "Scalopus.C53.stop_can_terminate",
    "Scalopus.C53.received_while_stopped",
    "Scalopus.C53.pushed_to_destroyed",
    "Scalopus.C53.event_of_old_interval",
    "Scalopus.C53.not_only_recording"
   ],
   "note": "Delivery to sessions is exact in all executions. For sources the claim is false: stopping an interval races with the parser, which can terminate the process, deliver after the stop, or write to a destroyed source (negations proved); exact if no method of a source runs while an event is passed on."
  },
  {
   "property": "C70",
   "status": "partial",
   "theorems": [
    "Scalopus.C70.lines_in_order",
    "Scalopus.C70.all_passed_at_end",
    "Scalopus.C70.end_reached",
    "Scalopus.C70.delay_bounded_partial",
    "Scalopus.C70.not_all_passed",
    "Scalopus.C70.long_line_never_passed",
    "Scalopus.C70.long_line_split",
    "Scalopus.C70.long_line_spoils_interval"
   ],
   "note": "In order and, at the end of the output, complete. False otherwise: lines printed together wait in the buffer of the C library until more is printed (at most 4096 bytes), and lines longer than 1022 characters are torn apart (proved)."
  },
  {
   "property": "C71",
   "status": "partial",
   "theorems": [
    "Scalopus.C71.halt_returns_partial",
    "Scalopus.C71.early_halt_hangs",
    "Scalopus.C71.halt_in_line_hangs",
    "Scalopus.C71.not_halt_returns",
    "Scalopus.C71.worker_exists_iff",
    "Scalopus.C71.ends_with_babeltrace"
   ],
   "note": "False: halting before the thread has begun, or in the middle of a line, hangs (negations proved); returns otherwise."
  },
  {
   "property": "C72",
   "status": "partial",
   "theorems": [
    "Scalopus.C72.only_babeltrace_partial",
    "Scalopus.C72.failed_exec_runs_twice",
    "Scalopus.C72.failed_fork_signals_everyone",
    "Scalopus.C72.not_only_babeltrace"
   ],
   "note": "Holds if fork, dup2 and execvp succeed. False otherwise: if execvp fails a second copy of the program runs, and if fork fails halt signals every process (proved)."
  },
  {
   "property": "C54",
   "status": "partial",
   "theorems": [
    "Scalopus.C54.round_trip_partial",
    "Scalopus.C54.large_number_fails",
    "Scalopus.C54.not_round_trip",
    "Scalopus.C54.round_trip_iff"
   ],
   "note": "Holds for values of any depth whose integers are signed 64 bit numbers. Unsigned numbers of 2^63 and more, which JSON holds, convert to Python but not back (proved)."
  },
  {
   "property": "C73",
   "status": "partial",
   "theorems": [
    "Scalopus.C73.plain_round_trip",
    "Scalopus.C73.tuple_becomes_list",
    "Scalopus.C73.key_refused",
    "Scalopus.C73.large_int_refused",
    "Scalopus.C73.unknown_becomes_none",
    "Scalopus.C73.surrogates_refused",
    "Scalopus.C73.refused_iff",
    "Scalopus.C73.refused_always"
   ],
   "note": "The round trip is proved; the refusal part is false for objects of other types, which silently become None (proved). Sets come back as lists: see C157."
  },
  {
   "property": "C55",
   "status": "proved",
   "theorems": [
    "Scalopus.C55.unique_ids",
    "Scalopus.C55.returns_sequence"
   ],
   "note": "For all interleavings of atomic increments."
  },
  {
   "property": "C56",
   "status": "partial",
   "theorems": [
    "Scalopus.C56.restored_partial",
    "Scalopus.C56.alone_restored",
    "Scalopus.C56.recursion_disables",
    "Scalopus.C56.not_restored",
    "Scalopus.C56.two_threads_disable",
    "Scalopus.C56.two_threads_enable",
    "Scalopus.C56.overlapping_calls_swap",
    "Scalopus.C56.alone_restored_iff"
   ],
   "note": "Holds if no function is called while it is already being called. False for recursive functions (tracing always ends up off) and for functions that several threads call: all calls share one switcher (proved)."
  },
  {
   "property": "C74",
   "status": "partial",
   "theorems": [
    "Scalopus.C74.own_name_partial",
    "Scalopus.C74.not_own_name",
    "Scalopus.C74.explicit_first_loses",
    "Scalopus.C74.ids_run_out",
    "Scalopus.C74.own_name_iff",
    "Scalopus.C74.explicit_takes_over",
    "Scalopus.C74.counter_takes_over"
   ],
   "note": "Holds if no context has an explicit id; an explicit id can collide with the counter (proved)."
  },
  {
   "property": "C75",
   "status": "partial",
   "theorems": [
    "Scalopus.C75.balanced_partial",
    "Scalopus.C75.traced_balanced",
    "Scalopus.C75.not_balanced"
   ],
   "note": "Holds for traced functions, and with suppressed ones if none is called while it is already being called; a recursive suppressed function makes an exit disappear (proved)."
  },
  {
   "property": "C58",
   "status": "proved",
   "theorems": [
    "Scalopus.C58.reaches_viewer_once",
    "Scalopus.C58.drained_is_captured"
   ],
   "note": "Composition of the models of tracepoints, ring buffers, sender, server transport, wire, client transport, provider, sources, name query and conversion. Connections to the consumer do not break, all processes answer the query for names, and messages are shorter than 4 GiB."
  },
  {
   "property": "C76",
   "status": "partial",
   "theorems": [
    "Scalopus.C76.calls_return_partial",
    "Scalopus.C76.stop_returns_partial",
    "Scalopus.C76.start_stop_effect",
    "Scalopus.C76.stop_hangs",
    "Scalopus.C76.call_hangs",
    "Scalopus.C76.call_hangs_without_polling",
    "Scalopus.C76.not_CallsReturn",
    "Scalopus.C76.one_runs",
    "Scalopus.C76.every_call_can_hang",
    "Scalopus.C76.every_second_call_hangs",
    "Scalopus.C76.hangs_iff"
   ],
   "note": "Holds as long as no Python logger or factory is registered. False otherwise: the calls keep the interpreter lock while they wait for the mutex or the thread, which waits for the interpreter lock; then the whole interpreter is stuck (proved). hangs_iff gives the exact condition."
  },
  {
   "property": "C77",
   "status": "partial",
   "theorems": [
    "Scalopus.C77.converted_exactly",
    "Scalopus.C77.not_converted",
    "Scalopus.C77.strings_differ",
    "Scalopus.C77.request_sends",
    "Scalopus.C77.request_refused",
    "Scalopus.C77.answers_partial",
    "Scalopus.C77.good_methods_never_stop_partial",
    "Scalopus.C77.raise_stops",
    "Scalopus.C77.not_NeverStops"
   ],
   "note": "Conversion and answers are exact. False is only that the server goes on: a handler that raises, or returns a list with something else than bytes, ends the process (proved)."
  },
  {
   "property": "C78",
   "status": "partial",
   "theorems": [
    "Scalopus.C78.result_partial",
    "Scalopus.C78.repeated_until_answer_partial",
    "Scalopus.C78.never_with_lock",
    "Scalopus.C78.not_OnlyWithLock",
    "Scalopus.C78.again_undefined",
    "Scalopus.C78.not_Repeatable",
    "Scalopus.C78.undefined_iff",
    "Scalopus.C78.waits_undefined_iff"
   ],
   "note": "The result is right. False: the result object is made after the interpreter lock was given up, and waiting again after the answer was taken is undefined (proved)."
  },
  {
   "property": "C79",
   "status": "partial",
   "theorems": [
    "Scalopus.C79.calls_return_partial",
    "Scalopus.C79.destroy_returns_partial",
    "Scalopus.C79.second_request_hangs",
    "Scalopus.C79.destroy_hangs",
    "Scalopus.C79.not_CallsReturn",
    "Scalopus.C79.one_runs",
    "Scalopus.C79.each_once",
    "Scalopus.C79.call_hangs_always",
    "Scalopus.C79.every_use_can_hang",
    "Scalopus.C79.hangs_iff"
   ],
   "note": "Holds if no endpoint of the server is written in Python; otherwise the second request, or the destruction, can deadlock with the handler of the first (proved). hangs_iff gives the exact condition."
  },
  {
   "property": "C80",
   "status": "partial",
   "theorems": [
    "Scalopus.C80.gives_context_partial",
    "Scalopus.C80.different_names_differ",
    "Scalopus.C80.one_per_name_partial",
    "Scalopus.C80.reserved_gives_no_context",
    "Scalopus.C80.not_GivesContext",
    "Scalopus.C80.not_OnePerName",
    "Scalopus.C80.settled_partial"
   ],
   "note": "Holds for names that are no attributes of the helper itself, and sameness for lookups by one thread, and by any threads once nobody is in the middle of asking for the name for the first time (settled_partial). False for prefix, ctx_type and the like, and for threads that ask for a new name at the same time (proved)."
  },
  {
   "property": "C81",
   "status": "partial",
   "theorems": [
    "Scalopus.C81.as_asked_partial",
    "Scalopus.C81.listing_partial",
    "Scalopus.C81.unnamed_thread_ignored",
    "Scalopus.C81.not_AsAsked",
    "Scalopus.C81.missing_info_stops",
    "Scalopus.C81.late_answer_switches_off",
    "Scalopus.C81.equal_pids_fail",
    "Scalopus.C81.as_seen",
    "Scalopus.C81.equal_pids_always"
   ],
   "note": "Holds for named threads if every process answers the query for information in time. False otherwise: threads without a name are ignored, a process without process information ends the command, and one that answers late is treated as if it had an arbitrary process id (proved)."
  },
  {
   "property": "C82",
   "status": "partial",
   "theorems": [
    "Scalopus.C82.all_listed_partial",
    "Scalopus.C82.missing_info_hides_all",
    "Scalopus.C82.not_AllListed",
    "Scalopus.C82.equal_pids_hide_all",
    "Scalopus.C82.missing_info_hides",
    "Scalopus.C82.listed_exactly",
    "Scalopus.C82.all_listed_iff"
   ],
   "note": "Holds if every process serves process information. Otherwise the command ends with an exception and lists nothing (proved). listed_exactly describes the listing for all answering times and for processes without introspection."
  },
  {
   "property": "C83",
   "status": "partial",
   "theorems": [
    "Scalopus.C83.printed_partial",
    "Scalopus.C83.ascii",
    "Scalopus.C83.runtime_error_loses_all",
    "Scalopus.C83.other_error_unfinished",
    "Scalopus.C83.unprintable_unfinished",
    "Scalopus.C83.not_AllPrinted",
    "Scalopus.C83.bad_name_loses_all",
    "Scalopus.C83.printed_iff"
   ],
   "note": "Holds if both sources give their events. If one of them fails, the events of the other are lost, or the text is not JSON (proved). printed_iff: with the sources of the library, the events are printed exactly if no name in any of them has bytes that are not UTF-8; otherwise all are lost, with pybind11 before 2.8 without any notice."
  },
  {
   "property": "C84",
   "status": "partial",
   "theorems": [
    "Scalopus.C84.python_exact_partial",
    "Scalopus.C84.default_port_partial",
    "Scalopus.C84.always_default",
    "Scalopus.C84.not_OnAskedPort",
    "Scalopus.C84.other_argument",
    "Scalopus.C84.any_number",
    "Scalopus.C84.both_providers"
   ],
   "note": "Holds for the Python command. False for scalopus_catapult_server: it always listens on 9222, whatever port it was asked for and says that it uses (proved)."
  },
  {
   "property": "C85",
   "status": "partial",
   "theorems": [
    "Scalopus.C85.start_exact_partial",
    "Scalopus.C85.never_started",
    "Scalopus.C85.late_settings_ignored",
    "Scalopus.C85.second_start_terminates",
    "Scalopus.C85.failure_unnoticed",
    "Scalopus.C85.not_Serves"
   ],
   "note": "Holds if start is called once, after all settings, and the port can be listened on. A second start ends the process, and failing to listen is not reported (proved)."
  },
  {
   "property": "C86",
   "status": "proved",
   "theorems": [
    "Scalopus.C86.version_page",
    "Scalopus.C86.list_page",
    "Scalopus.C86.other_pages"
   ],
   "note": ""
  },
  {
   "property": "C87",
   "status": "partial",
   "theorems": [
    "Scalopus.C87.safe_partial",
    "Scalopus.C87.destroy_hangs",
    "Scalopus.C87.copied_without_lock",
    "Scalopus.C87.not_Safe",
    "Scalopus.C87.hangs_iff"
   ],
   "note": "Holds without a logger from Python. With one, the destruction deadlocks if the server's thread is about to log, and every connection copies the logger without the interpreter lock (proved). hangs_iff: this is the only way for it to hang."
  },
  {
   "property": "C88",
   "status": "partial",
   "theorems": [
    "Scalopus.C88.maps_safe",
    "Scalopus.C88.no_other_race_partial",
    "Scalopus.C88.never_terminates",
    "Scalopus.C88.polling_race",
    "Scalopus.C88.logger_race",
    "Scalopus.C88.not_NoRace",
    "Scalopus.C88.polling_race_always",
    "Scalopus.C88.logger_race_always"
   ],
   "note": "The maps are never raced for, whatever the threads call. Two members are: is_polling_ when polling is stopped, logger_ when the logger is set while another thread logs (proved, with: there is no other race)."
  },
  {
   "property": "C89",
   "status": "partial",
   "theorems": [
    "Scalopus.C89.never_hangs_partial",
    "Scalopus.C89.reentrant_hangs",
    "Scalopus.C89.stop_in_poller",
    "Scalopus.C89.not_NeverHangs"
   ],
   "note": "Holds if loggers and factories do not use the manager. One that does hangs for good, with every thread that waits for the manager; one that stops the polling from the polling thread terminates the process (proved)."
  },
  {
   "property": "C90",
   "status": "proved",
   "theorems": [
    "Scalopus.C90.viewer_gets_events",
    "Scalopus.C90.file_gets_events",
    "Scalopus.C90.events_shown"
   ],
   "note": "For lists and tuples of plain values (see Spec/PyJson: None, booleans, 64-bit integers, doubles, strings, lists, dictionaries with string keys). What is written for a double is a parameter."
  },
  {
   "property": "C91",
   "status": "partial",
   "theorems": [
    "Scalopus.C91.survives_iff_good_partial",
    "Scalopus.C91.recorder_survives_iff_good_partial",
    "Scalopus.C91.ok_iff_good",
    "Scalopus.C91.bad_sources",
    "Scalopus.C91.not_NeverStops",
    "Scalopus.C91.none_is_used"
   ],
   "note": "False: a source whose finishInterval raises, or returns anything but a list, tuple or set of convertible values or bytes, ends the program, and one that a provider returns as None is undefined behaviour (proved). The sources that are safe are characterised exactly."
  },
  {
   "property": "C92",
   "status": "partial",
   "theorems": [
    "Scalopus.C92.guarded_safe",
    "Scalopus.C92.no_other_race_partial",
    "Scalopus.C92.never_terminates",
    "Scalopus.C92.running_race",
    "Scalopus.C92.connected_race",
    "Scalopus.C92.endpoint_race",
    "Scalopus.C92.logger_race",
    "Scalopus.C92.not_NoRace",
    "Scalopus.C92.running_race_always",
    "Scalopus.C92.connected_race_always",
    "Scalopus.C92.endpoint_race_always",
    "Scalopus.C92.logger_race_always"
   ],
   "note": "Pending requests, broadcasts and writing to sockets are never raced for, whatever the threads and endpoints call. False for four members: running_ when the transport is destroyed, client_fd_ when the connection is lost while another thread asks for it or sends, endpoints_ when an endpoint is added while a message arrives (the server looks it up without the mutex), logger_ when it is set while the worker logs (proved, with: there is no other race)."
  },
  {
   "property": "C93",
   "status": "partial",
   "theorems": [
    "Scalopus.C93.never_hangs_partial",
    "Scalopus.C93.reentrant_hangs",
    "Scalopus.C93.destroy_in_endpoint",
    "Scalopus.C93.not_NeverHangs"
   ],
   "note": "Holds if endpoints only broadcast and ask for the connection in unsolicited, and do not destroy the transport. Other calls in unsolicited hang for good, with every thread in such a call and the destructor; destroying the transport in an endpoint terminates the process (proved). Sockets are taken not to block."
  },
  {
   "property": "C94",
   "status": "partial",
   "theorems": [
    "Scalopus.C94.disconnected_only_if_gone",
    "Scalopus.C94.lost_is_noticed",
    "Scalopus.C94.worker_can_step",
    "Scalopus.C94.lost_for_good",
    "Scalopus.C94.waiting_forever",
    "Scalopus.C94.not_WaitingFail",
    "Scalopus.C94.destroyed_fails"
   ],
   "note": "False for requests that are waiting when the connection ends: they stay waiting for good (proved), and fail only when the client is destroyed (proved). The rest is proved for all histories."
  },
  {
   "property": "C95",
   "status": "partial",
   "theorems": [
    "Scalopus.C95.one_client_stops_all",
    "Scalopus.C95.full_buffer",
    "Scalopus.C95.unfinished_message",
    "Scalopus.C95.not_OthersDoNotMatter",
    "Scalopus.C95.goes_on_partial",
    "Scalopus.C95.two_parts",
    "Scalopus.C95.stopped_iff"
   ],
   "note": "False: a client that does not read until its buffer is full, or that stops in the middle of a message, stops the worker: no other client is answered and the destructor does not return, until that client goes on or closes (proved for every buffer size and every continuation). If all clients read and finish what they began, every request can be answered and the server destroyed."
  },
  {
   "property": "C96",
   "status": "partial",
   "theorems": [
    "Scalopus.C96.safe_partial",
    "Scalopus.C96.destructor_returns",
    "Scalopus.C96.use_after_drop",
    "Scalopus.C96.sender_after_drop",
    "Scalopus.C96.moved_sender",
    "Scalopus.C96.sender_races",
    "Scalopus.C96.not_NeverDangling",
    "Scalopus.C96.hold_drop_transport",
    "Scalopus.C96.hold_drop_endpoint",
    "Scalopus.C96.use_iff"
   ],
   "note": "False: an endpoint keeps a plain pointer to its transport, so using one after its transport was released is undefined, and a trace sender that is kept by anyone but its transport uses it by itself (proved). Holds if whoever keeps an endpoint keeps its transport; destruction then ends, whatever the sender's thread is doing (proved). Races on transport_ and running_ of a sender: proved."
  },
  {
   "property": "C97",
   "status": "partial",
   "theorems": [
    "Scalopus.C97.safe_partial",
    "Scalopus.C97.no_leak",
    "Scalopus.C97.connect_while_walking",
    "Scalopus.C97.last_in_worker",
    "Scalopus.C97.not_AlwaysSafe",
    "Scalopus.C97.gone_is_quiet",
    "Scalopus.C97.wrong_iff"
   ],
   "note": "False: connecting while the server's worker delivers a broadcast changes the list that the worker walks through; dropping the last references while it delivers makes the worker destroy the server and join itself, which terminates the process (proved for all such states). Otherwise safe, and nothing is leaked (proved)."
  },
  {
   "property": "C98",
   "status": "partial",
   "theorems": [
    "Scalopus.C98.never_hangs_partial",
    "Scalopus.C98.waits_forever",
    "Scalopus.C98.self_call",
    "Scalopus.C98.mutual_calls",
    "Scalopus.C98.not_NeverHangs",
    "Scalopus.C98.round_exact",
    "Scalopus.C98.self_call_always",
    "Scalopus.C98.own_client_blocks",
    "Scalopus.C98.crossed_clients_block"
   ],
   "note": "False: an endpoint that uses the client it was called through, or endpoints that use each other's clients, hang for good, with every call on these clients (proved for every continuation). Holds if clients are used in a fixed order."
  },
  {
   "property": "C99",
   "status": "partial",
   "theorems": [
    "Scalopus.C99.harmless_partial",
    "Scalopus.C99.no_leak",
    "Scalopus.C99.shutdown_hits_other",
    "Scalopus.C99.double_close_hits_other",
    "Scalopus.C99.high_descriptor",
    "Scalopus.C99.not_Harmless",
    "Scalopus.C99.destructor_closes",
    "Scalopus.C99.double_close_always"
   ],
   "note": "False: connections are closed before they are shut down, so a file that another thread opened in between is shut down, or closed when the connection is closed twice; and with a descriptor of 1024 or more FD_SET is undefined behaviour (each proved). Holds if no other thread opens files while a connection is being closed and descriptors are below 1024. That no socket is left open is proved without conditions."
  },
  {
   "property": "C100",
   "status": "partial",
   "theorems": [
    "Scalopus.C100.works_partial",
    "Scalopus.C100.server_on_zero",
    "Scalopus.C100.client_on_zero",
    "Scalopus.C100.connected_on_zero",
    "Scalopus.C100.not_Works",
    "Scalopus.C100.connected_on_zero_always"
   ],
   "note": "False: 0 stands for 'no descriptor', so a server on descriptor 0 stops at its first client, one with a client on descriptor 0 stops when that client goes, and a client on descriptor 0 says it is not connected (proved for all such states). Holds while descriptor 0 is used by something else."
  },
  {
   "property": "C101",
   "status": "proved",
   "theorems": [
    "Scalopus.C101.every_call_parsed",
    "Scalopus.C101.viewer_shows_calls",
    "Scalopus.C101.viewer_shows_values",
    "Scalopus.C101.backends_agree"
   ],
   "note": "For lines that babeltrace prints with the contexts that the test script adds, and that reach the source (C53, C70); counters of processes are not told apart, see C52."
  },
  {
   "property": "C102",
   "status": "partial",
   "theorems": [
    "Scalopus.C102.calls_return_partial",
    "Scalopus.C102.server_add_returns_partial",
    "Scalopus.C102.destroy_hangs",
    "Scalopus.C102.client_hangs",
    "Scalopus.C102.two_adds_hang",
    "Scalopus.C102.not_CallsReturn",
    "Scalopus.C102.method_returns",
    "Scalopus.C102.native_served",
    "Scalopus.C102.hangs_iff"
   ],
   "note": "Holds if no endpoint is written in Python, and for adding endpoints to a server from one thread. With endpoints written in Python, dropping the transport, adding to a client, requests and adding from two threads can hang, and the interpreter with them (proved for all such states). hangs_iff gives the exact condition under which a call hangs."
  },
  {
   "property": "C103",
   "status": "partial",
   "theorems": [
    "Scalopus.C103.safe_partial",
    "Scalopus.C103.destroy_with_viewer_hangs",
    "Scalopus.C103.destroy_hangs_iff",
    "Scalopus.C103.not_Safe",
    "Scalopus.C103.lock_used"
   ],
   "note": "Holds if no provider is written in Python. With one, the destruction hangs exactly if a viewer is connected or connecting (proved)."
  },
  {
   "property": "C104",
   "status": "partial",
   "theorems": [
    "Scalopus.C104.gone_partial",
    "Scalopus.C104.inherited_keeps_server",
    "Scalopus.C104.not_Gone"
   ],
   "note": "Holds in histories in which no program with a server starts another one. The sockets are inherited by programs that are started: as long as one runs, the server is reported, its clients do not notice and the program cannot serve again (proved for all such histories)."
  },
  {
   "property": "C105",
   "status": "partial",
   "theorems": [
    "Scalopus.C105.in_order",
    "Scalopus.C105.lines_arrive_partial",
    "Scalopus.C105.warnings_hold_up",
    "Scalopus.C105.not_NothingHeldUp",
    "Scalopus.C105.all_arrive_iff"
   ],
   "note": "Order holds always; arrival if all warnings together fit into the pipe. Nothing reads the pipe: after more warnings than it holds no line arrives any more (proved for all outputs and capacities)."
  },
  {
   "property": "C106",
   "status": "partial",
   "theorems": [
    "Scalopus.C106.goes_on_iff",
    "Scalopus.C106.never_blocked_partial",
    "Scalopus.C106.both_blocked",
    "Scalopus.C106.broadcasts_block",
    "Scalopus.C106.request_blocks",
    "Scalopus.C106.not_NeverBlocked",
    "Scalopus.C106.destructors_return"
   ],
   "note": "Holds if the client's worker never writes. The exact condition for the deadlock is proved: both workers write more than the buffers hold; then nothing returns, destructors included."
  },
  {
   "property": "C107",
   "status": "partial",
   "theorems": [
    "Scalopus.C107.left_recording",
    "Scalopus.C107.ended_partial",
    "Scalopus.C107.never_started",
    "Scalopus.C107.sources_stay",
    "Scalopus.C107.not_NothingKept",
    "Scalopus.C107.kept_exactly",
    "Scalopus.C107.left_behind_iff"
   ],
   "note": "Holds for viewers whose end was handled before they left, and for those that never started. A viewer that leaves while it records keeps recording for ever: proved for all histories that everything that arrives is kept. Every viewer that ever connected leaves a source behind."
  },
  {
   "property": "C108",
   "status": "partial",
   "theorems": [
    "Scalopus.C108.released_iff",
    "Scalopus.C108.released_partial",
    "Scalopus.C108.factory_keeps_manager",
    "Scalopus.C108.weak_factory_raises",
    "Scalopus.C108.not_AllReleased",
    "Scalopus.C108.numbers_differ",
    "Scalopus.C108.forgotten_goes",
    "Scalopus.C108.deleted_goes",
    "Scalopus.C108.replaced_factory_goes",
    "Scalopus.C108.replaced_endpoint_goes"
   ],
   "note": "Exactly characterised for all programs: what is not in use is released unless a circle with a reference held by C++ leads to it. A factory that leads to its manager makes such a circle; the helper that should avoid it always raises NameError."
  },
  {
   "property": "C109",
   "status": "partial",
   "theorems": [
    "Scalopus.C109.kept_partial",
    "Scalopus.C109.not_kept_ends",
    "Scalopus.C109.dangling",
    "Scalopus.C109.not_EveryMessage",
    "Scalopus.C109.always_possible",
    "Scalopus.C109.let_go",
    "Scalopus.C109.get_transport_borrows",
    "Scalopus.C109.last_reference",
    "Scalopus.C109.endpoint_outlives"
   ],
   "note": "Holds while the program keeps the Python object that it got for the transport. On a manager's transport that the factory does not keep, the first message ends the program; an object from getTransport() may outlive its transport."
  },
  {
   "property": "C110",
   "status": "partial",
   "theorems": [
    "Scalopus.C110.has_iff",
    "Scalopus.C110.listed_partial",
    "Scalopus.C110.not_switched",
    "Scalopus.C110.switched_if_added",
    "Scalopus.C110.recorded",
    "Scalopus.C110.two_exposers_fail",
    "Scalopus.C110.not_AllCommands",
    "Scalopus.C110.has_unknown",
    "Scalopus.C110.two_exposers_always"
   ],
   "note": "Holds for listing and recording. DefaultExposer does not add the endpoint for switching, so trace_configure never switches such a process (proved for all command lines) unless the program adds that endpoint itself. Two exposers with different names in one process make 'discover' raise."
  },
  {
   "property": "C111",
   "status": "partial",
   "theorems": [
    "Scalopus.C111.holds",
    "Scalopus.C111.set_up_first_partial",
    "Scalopus.C111.late_call_races",
    "Scalopus.C111.not_NoRace",
    "Scalopus.C111.connected_unchanged",
    "Scalopus.C111.connect_gets_all",
    "Scalopus.C111.call_returns"
   ],
   "note": "Holds if the server is set up before it is started. Later calls race with the web thread: nothing protects the list of providers and the logger (proved for every state in which the web thread is about to read them)."
  },
  {
   "property": "C112",
   "status": "partial",
   "theorems": [
    "Scalopus.C112.undisturbed_partial",
    "Scalopus.C112.stays_connected",
    "Scalopus.C112.round_serves",
    "Scalopus.C112.signal_blocks",
    "Scalopus.C112.signal_blocks_first",
    "Scalopus.C112.signal_drops_all",
    "Scalopus.C112.signal_closes_twice",
    "Scalopus.C112.not_AllUndisturbed",
    "Scalopus.C112.client_undisturbed_partial",
    "Scalopus.C112.client_blocks",
    "Scalopus.C112.client_two_signals",
    "Scalopus.C112.broadcast_reaches",
    "Scalopus.C112.signal_in_accept",
    "Scalopus.C112.signal_in_read",
    "Scalopus.C112.client_round",
    "Scalopus.C112.client_destroyed",
    "Scalopus.C112.client_signal_ready"
   ],
   "note": "Holds for histories without an interrupted select. When select is interrupted its result is not looked at and the sets are left as they were filled: the worker waits for connections or data that need not come, or closes every connection."
  },
  {
   "property": "C113",
   "status": "partial",
   "theorems": [
    "Scalopus.C113.only_succeeded_partial",
    "Scalopus.C113.cut_swallows",
    "Scalopus.C113.cut_accepted",
    "Scalopus.C113.next_vanishes",
    "Scalopus.C113.wrong_answer",
    "Scalopus.C113.not_OnlySucceeded"
   ],
   "note": "Holds for connections on which no message broke off. After a message of which only a part was accepted the connection continues to be used, so the receiver takes the next messages for its rest."
  },
  {
   "property": "C114",
   "status": "partial",
   "theorems": [
    "Scalopus.C114.whole_partial",
    "Scalopus.C114.exact_iff",
    "Scalopus.C114.quiet_swaps_partial",
    "Scalopus.C114.torn_lost",
    "Scalopus.C114.swap_loses",
    "Scalopus.C114.torn_inside",
    "Scalopus.C114.not_AlwaysExact",
    "Scalopus.C114.torn_inside_always"
   ],
   "note": "Holds for scopes during which no other backend is set. Entry and exit each look up the backend anew, so a scope that is open during a swap has its entry at one backend and its exit at another."
  },
  {
   "property": "C115",
   "status": "partial",
   "theorems": [
    "Scalopus.C115.none_is_skipped_partial",
    "Scalopus.C115.failing_cuts_short",
    "Scalopus.C115.never_made_up",
    "Scalopus.C115.raising_spreads",
    "Scalopus.C115.not_OnlyItsOwn"
   ],
   "note": "Holds for functions that return an endpoint or None. An exception leaves the manager in the middle of its round: the remaining endpoints of that server are never made, later servers are not connected in that round, and a polling thread ends the process."
  },
  {
   "property": "C116",
   "status": "partial",
   "theorems": [
    "Scalopus.C116.shown_as",
    "Scalopus.C116.running_named_partial",
    "Scalopus.C116.ended_unknown",
    "Scalopus.C116.reused_misnamed",
    "Scalopus.C116.not_NamesKept",
    "Scalopus.C116.poll_connects",
    "Scalopus.C116.emit_recorded"
   ],
   "note": "Holds for processes that run when the recording is finished. Names are asked for only then, so events of processes that have ended are shown as unknown, or with the names of a process that got the same process id."
  },
  {
   "property": "C117",
   "status": "partial",
   "theorems": [
    "Scalopus.C117.found_iff",
    "Scalopus.C117.kept_by_manager",
    "Scalopus.C117.round_connects",
    "Scalopus.C117.dropped_in_round",
    "Scalopus.C117.dropped_unseen_partial",
    "Scalopus.C117.quiet_survives_partial",
    "Scalopus.C117.kept_run",
    "Scalopus.C117.not_Disappears",
    "Scalopus.C117.destroy_iff"
   ],
   "note": "Holds for servers that no manager has connected to, and for managers whose rounds no drop interrupts. A loopback client is always connected and holds the server, so a manager keeps a dropped server for as long as it exists; a server dropped between discovery and connection gives the manager a null pointer that it uses."
  },
  {
   "property": "C118",
   "status": "proved",
   "theorems": [
    "Scalopus.C118.push_never_waits",
    "Scalopus.C118.pop_never_waits"
   ],
   "note": "For the ring buffer under release and acquire; three steps for a push, size + 2 for the consumer's calls. The first tracepoint of a thread, which registers the buffer under a mutex, is not covered by this."
  },
  {
   "property": "C119",
   "status": "partial",
   "theorems": [
    "Scalopus.C119.split_partial",
    "Scalopus.C119.not_twice_partial",
    "Scalopus.C119.round_partial",
    "Scalopus.C119.race_reachable",
    "Scalopus.C119.sent_twice",
    "Scalopus.C119.waiting_meets",
    "Scalopus.C119.phantom",
    "Scalopus.C119.not_EachGetsAll"
   ],
   "note": "The senders share the ring buffers, which are made for one consumer. As long as rounds do not overlap each event is sent by exactly one sender; when they overlap, events are sent twice, without their data, and events are sent that nobody emitted."
  },
  {
   "property": "C120",
   "status": "proved",
   "theorems": [
    "Scalopus.C120.traced_does_the_same",
    "Scalopus.C120.traced_call",
    "Scalopus.C120.plain_has_no_tracing",
    "Scalopus.C120.limit_is_needed",
    "Scalopus.C120.reserved_section"
   ],
   "note": "For an embedded Python-like language over an arbitrary state; the traced and the plain program are run by the same evaluator. The trace ids are unsigned int on the C++ side, so the theorem is for programs in which the counter stays within 2^32."
  },
  {
   "property": "C121",
   "status": "partial",
   "theorems": [
    "Scalopus.C121.own_events_partial",
    "Scalopus.C121.child_works_partial",
    "Scalopus.C121.sent_whose",
    "Scalopus.C121.sent_twice",
    "Scalopus.C121.fork_in_insert",
    "Scalopus.C121.fork_in_read",
    "Scalopus.C121.no_sender_no_events",
    "Scalopus.C121.answers_whose",
    "Scalopus.C121.wrong_pid",
    "Scalopus.C121.not_OnceUnderOwn",
    "Scalopus.C121.fork_iff",
    "Scalopus.C121.lock_returned"
   ],
   "note": "Holds if the program forks when nothing waits in the buffers and the mutex of the collector's map is free, and creates its endpoints after the fork. Waiting events are copied and sent by both processes; a mutex that another thread holds is never released in the new process."
  },
  {
   "property": "C122",
   "status": "partial",
   "theorems": [
    "Scalopus.C122.ends_well_partial",
    "Scalopus.C122.can_end",
    "Scalopus.C122.call_ok",
    "Scalopus.C122.outlives",
    "Scalopus.C122.joins",
    "Scalopus.C122.threads_of_global_partial",
    "Scalopus.C122.end_of_named_partial",
    "Scalopus.C122.answer_ub_iff",
    "Scalopus.C122.late_tracepoint",
    "Scalopus.C122.main_locals",
    "Scalopus.C122.traced_destructor",
    "Scalopus.C122.named_end",
    "Scalopus.C122.detached_thread",
    "Scalopus.C122.exposer_ub",
    "Scalopus.C122.not_NeverUndefined",
    "Scalopus.C122.late_place",
    "Scalopus.C122.place_registered",
    "Scalopus.C122.only_running_act"
   ],
   "note": "Holds if the other threads have ended when main returns and destructors of global objects do not trace; threads that a global object joins are safe if what they use was first used before the object was made. False otherwise: a destructor of a global object that traces after the main thread has traced, a thread that is not joined, and a global exposer made before the first tracepoint."
  },
  {
   "property": "C123",
   "status": "partial",
   "theorems": [
    "Scalopus.C123.answer_is_last",
    "Scalopus.C123.request_answered",
    "Scalopus.C123.name_set",
    "Scalopus.C123.early_names_partial",
    "Scalopus.C123.set_while_read",
    "Scalopus.C123.late_name",
    "Scalopus.C123.two_setters",
    "Scalopus.C123.not_AnyTime",
    "Scalopus.C123.undefined_iff"
   ],
   "note": "Holds for names set before the endpoint is used. The name is written and read without a mutex: a name set while a request is answered is a data race, also from Python."
  },
  {
   "property": "C124",
   "status": "partial",
   "theorems": [
    "Scalopus.C124.undefined_iff",
    "Scalopus.C124.ends_iff",
    "Scalopus.C124.safe_partial",
    "Scalopus.C124.looked_at",
    "Scalopus.C124.others_work",
    "Scalopus.C124.kept",
    "Scalopus.C124.not_NoneIsSafe",
    "Scalopus.C124.gives_none"
   ],
   "note": "Holds for programs that do not give None for an endpoint, the factory of a manager, the manager of a GeneralProvider, a provider of a server or the logger of a server; for those the theorems say which later call is undefined or ends the process."
  },
  {
   "property": "C125",
   "status": "proved",
   "theorems": [
    "Scalopus.C125.records",
    "Scalopus.C125.off_records_nothing",
    "Scalopus.C125.runs_happens",
    "Scalopus.C125.runs_unique",
    "Scalopus.C125.runs_nested",
    "Scalopus.C125.ids_differ",
    "Scalopus.C125.reentry"
   ],
   "note": "The specification is a natural semantics without switches, ids or contexts that gives the events of a run; records and runs_happens are the two directions, runs_unique says that it leaves no choice. reentry shows that the condition on suppressed functions is needed."
  },
  {
   "property": "C126",
   "status": "proved",
   "theorems": [
    "Scalopus.C126.read_back",
    "Scalopus.C126.written_iff",
    "Scalopus.C126.refused",
    "Scalopus.C126.injective",
    "Scalopus.C126.whole_or_error",
    "Scalopus.C126.longer_fails",
    "Scalopus.C126.shorter_fails",
    "Scalopus.C126.long_strings_lost"
   ],
   "note": "The limit of two gigabytes is needed: long_strings_lost. The library is not part of the sources and modelled from its documentation."
  },
  {
   "property": "C127",
   "status": "partial",
   "theorems": [
    "Scalopus.C127.short_is_safe_partial",
    "Scalopus.C127.deep_message_overflows",
    "Scalopus.C127.deep_prefix_overflows",
    "Scalopus.C127.flat_is_safe",
    "Scalopus.C127.not_NeverOverflows",
    "Scalopus.C127.fuel_enough",
    "Scalopus.C127.overflows_iff",
    "Scalopus.C127.value_only_if_whole",
    "Scalopus.C127.whole_read_iff"
   ],
   "note": "False: the reader calls itself for every level; for every stack there is a message of six bytes for each level that ends the process. Shorter messages are safe, and so are all messages that the writer makes of values that are not nested deeper."
  },
  {
   "property": "C128",
   "status": "partial",
   "theorems": [
    "Scalopus.C128.info_arrives",
    "Scalopus.C128.endpoints_arrive",
    "Scalopus.C128.mapping_arrives",
    "Scalopus.C128.switches_arrive",
    "Scalopus.C128.cut_query_throws",
    "Scalopus.C128.cut_answer_throws",
    "Scalopus.C128.info_large_id",
    "Scalopus.C128.large_id_not_sent",
    "Scalopus.C128.not_AlwaysAnswered",
    "Scalopus.C128.names_on_the_wire",
    "Scalopus.C128.info_bytes",
    "Scalopus.C128.numbers_fit",
    "Scalopus.C128.field_bytes",
    "Scalopus.C128.info_answered_iff"
   ],
   "note": "Holds for ids of threads below 2^63, which are all that Linux gives. A larger id in the table, which a program can give a name to, cannot be written: the server's handler throws."
  },
  {
   "property": "C129",
   "status": "partial",
   "theorems": [
    "Scalopus.C129.got_prefix",
    "Scalopus.C129.open_loses_nothing",
    "Scalopus.C129.closes_iff",
    "Scalopus.C129.closed_is_final",
    "Scalopus.C129.small_recording_arrives_partial",
    "Scalopus.C129.idle_viewer",
    "Scalopus.C129.keeping_up_arrives_partial",
    "Scalopus.C129.large_text_closes",
    "Scalopus.C129.recording_arrives_partial",
    "Scalopus.C129.utf8_injective",
    "Scalopus.C129.not_AlwaysArrives"
   ],
   "note": "False: a recording that does not fit into the buffer of the connection closes it (not_AlwaysArrives: for every size of the buffer and however fast the viewer reads). Holds for recordings that fit, and for viewers that keep up. seasocks is not part of the sources; its buffer is modelled from its documentation."
  },
  {
   "property": "C130",
   "status": "proved",
   "theorems": [
    "Scalopus.C130.answered_during",
    "Scalopus.C130.info_during",
    "Scalopus.C130.endpoints_during",
    "Scalopus.C130.names_during",
    "Scalopus.C130.switches_during",
    "Scalopus.C130.handled_once",
    "Scalopus.C130.own_switches",
    "Scalopus.C130.addressed_by",
    "Scalopus.C130.added",
    "Scalopus.C130.each_answered",
    "Scalopus.C130.client_acts",
    "Scalopus.C130.empty_names_query",
    "Scalopus.C130.changed"
   ],
   "note": "For fewer than 2^64 calls on a connection. The handler is one step: the tables are read under their locks; the accesses to single switches are atomic and are treated one by one in C22 and C24. A thread id of 2^63 or more ends the process instead of an answer (C128)."
  },
  {
   "property": "C131",
   "status": "partial",
   "theorems": [
    "Scalopus.C131.as_written_partial",
    "Scalopus.C131.switches_partial",
    "Scalopus.C131.raises",
    "Scalopus.C131.items_lost",
    "Scalopus.C131.item_not_sent",
    "Scalopus.C131.not_AsWritten",
    "Scalopus.C131.as_written_without_items",
    "Scalopus.C131.as_written_iff"
   ],
   "note": "Holds for programs without assignments to, and deletions of, single entries of thread_state: these change a copy and are lost without an error (items_lost, for every place in every program). Values of Python types other than None, bool, int and one that cannot be converted are not modelled."
  },
  {
   "property": "C132",
   "status": "partial",
   "theorems": [
    "Scalopus.C132.add_partial",
    "Scalopus.C132.message_to_last",
    "Scalopus.C132.named_iff",
    "Scalopus.C132.defaults",
    "Scalopus.C132.method_gives",
    "Scalopus.C132.own_setTransport",
    "Scalopus.C132.not_AllOrNothing"
   ],
   "note": "Adding holds for classes that do not define setTransport: a class that does never learns its transport, and if its method raises, addEndpoint raises although the endpoint stays registered (own_setTransport, for all such classes)."
  },
  {
   "property": "C133",
   "status": "proved",
   "theorems": [
    "Scalopus.C133.received_in_order",
    "Scalopus.C133.log_eq",
    "Scalopus.C133.all_received",
    "Scalopus.C133.ends",
    "Scalopus.C133.one_sender",
    "Scalopus.C133.long_may_be_cut",
    "Scalopus.C133.rest_read_past_end"
   ],
   "note": "The condition on the length is needed: for every longer payload there is an interleaving in which it is cut (long_may_be_cut; C04), and one in which the worker reads past its buffer if fewer than eight bytes are left (rest_read_past_end)."
  },
  {
   "property": "C134",
   "status": "partial",
   "theorems": [
    "Scalopus.C134.decorated_call",
    "Scalopus.C134.decorators_reach_the_call_only",
    "Scalopus.C134.suppressed_is_recorded",
    "Scalopus.C134.traced_is_outside",
    "Scalopus.C134.body_recorded",
    "Scalopus.C134.nested_partial",
    "Scalopus.C134.pause_in_section",
    "Scalopus.C134.pause_in_switcher"
   ],
   "note": "False of the code: the decorators surround only the making of a generator, everything later is as without them. Proved of with statements: each body records its events in order, with as many exits as entries at its end; nesting and the state of the thread hold if bodies pause outside of with statements, and are refuted otherwise."
  },
  {
   "property": "C135",
   "status": "partial",
   "theorems": [
    "Scalopus.C135.decode_iff",
    "Scalopus.C135.encode_iff",
    "Scalopus.C135.read_back",
    "Scalopus.C135.info_read",
    "Scalopus.C135.readable_iff",
    "Scalopus.C135.traces_iff",
    "Scalopus.C135.text_partial",
    "Scalopus.C135.discover_partial",
    "Scalopus.C135.one_bad_name",
    "Scalopus.C135.not_AllNamesReadable",
    "Scalopus.C135.maps_run"
   ],
   "note": "False of the code for names that are not UTF-8: one of them hides all names of its process, and discover lists nothing. For names that are text everything holds; conversion is proved to be the UTF-8 encoding in both directions."
  },
  {
   "property": "C136",
   "status": "partial",
   "theorems": [
    "Scalopus.C136.descriptors_partial",
    "Scalopus.C136.pipe_fails",
    "Scalopus.C136.own_process",
    "Scalopus.C136.children_stay",
    "Scalopus.C136.starts_bounded",
    "Scalopus.C136.not_everyone_partial",
    "Scalopus.C136.full_table",
    "Scalopus.C136.worn_out",
    "Scalopus.C136.ignoring_signals_others",
    "Scalopus.C136.not_NothingLeft",
    "Scalopus.C136.everyone_iff"
   ],
   "note": "False of the code: nobody waits for the processes, so they stay in the system's table until the program ends, and the halting of a tool that could not be started any more signals every process of the user. Proved: descriptors are closed if pipes can be made, signals to single processes go to children of the program unless it ignores SIGCHLD, and the number of starts is bounded by the table."
  },
  {
   "property": "C137",
   "status": "partial",
   "theorems": [
    "Scalopus.C137.runs_on_partial",
    "Scalopus.C137.one_source_each",
    "Scalopus.C137.start_calls",
    "Scalopus.C137.end_calls",
    "Scalopus.C137.end_counts",
    "Scalopus.C137.left_out",
    "Scalopus.C137.no_makeSource",
    "Scalopus.C137.start_raises",
    "Scalopus.C137.stop_raises",
    "Scalopus.C137.not_AnyMethodLeftOut",
    "Scalopus.C137.finish_raises",
    "Scalopus.C137.make_fails",
    "Scalopus.C137.none_source",
    "Scalopus.C137.none_made",
    "Scalopus.C137.others_kept",
    "Scalopus.C137.leaves",
    "Scalopus.C137.asked_run"
   ],
   "note": "False of the code for makeSource, which the Python base class has but which ends the program at the first viewer, and for methods that raise. Everything else may be left out."
  },
  {
   "property": "C138",
   "status": "partial",
   "theorems": [
    "Scalopus.C138.never_waits_for_itself",
    "Scalopus.C138.used_exists",
    "Scalopus.C138.owned_stays",
    "Scalopus.C138.never_leaked",
    "Scalopus.C138.destroyed_once",
    "Scalopus.C138.gone_no_thread",
    "Scalopus.C138.no_deadlock",
    "Scalopus.C138.destructors_return",
    "Scalopus.C138.can_be_done",
    "Scalopus.C138.remains_exactly",
    "Scalopus.C138.all_released",
    "Scalopus.C138.session_has_server",
    "Scalopus.C138.owned_sources_finish",
    "Scalopus.C138.viewer_source_each",
    "Scalopus.C138.lost",
    "Scalopus.C138.taken_sources",
    "Scalopus.C138.not_SourcesGoOn",
    "Scalopus.C138.recorder_source_each",
    "Scalopus.C138.made"
   ],
   "note": "False of the code only for the last part: a source taken from a native provider uses a null pointer in finishInterval once that provider is gone. Everything else is proved, also for sources of viewers and recorders."
  },
  {
   "property": "C139",
   "status": "partial",
   "theorems": [
    "Scalopus.C139.written",
    "Scalopus.C139.written_at_end",
    "Scalopus.C139.one_source_each",
    "Scalopus.C139.start_again",
    "Scalopus.C139.never_twice_partial",
    "Scalopus.C139.written_again",
    "Scalopus.C139.not_NeverTwice",
    "Scalopus.C139.nothing_before",
    "Scalopus.C139.restart_loses",
    "Scalopus.C139.unopened_loses",
    "Scalopus.C139.bad_event_loses",
    "Scalopus.C139.bad_event_terminates",
    "Scalopus.C139.stopped_writes_nothing",
    "Scalopus.C139.no_file_at_end",
    "Scalopus.C139.not_EveryEventWritten"
   ],
   "note": "What is written is proved exactly. That nothing is written again is false for LTTng sources: their events are in every further file. The last part is false of the code: events that arrived are lost if the recorder is stopped and started before it writes, if the file cannot be opened, or if one event cannot be written."
  },
  {
   "property": "C140",
   "status": "partial",
   "theorems": [
    "Scalopus.C140.server_as_written",
    "Scalopus.C140.configure_as_written",
    "Scalopus.C140.configure_without_state",
    "Scalopus.C140.ids_need_state",
    "Scalopus.C140.alone",
    "Scalopus.C140.run_was_named",
    "Scalopus.C140.unknown_command",
    "Scalopus.C140.unknown_option",
    "Scalopus.C140.help_given",
    "Scalopus.C140.command_help_given",
    "Scalopus.C140.errors_reported_partial",
    "Scalopus.C140.no_arguments",
    "Scalopus.C140.not_ErrorsReported",
    "Scalopus.C140.option_between",
    "Scalopus.C140.not_AnyPlace",
    "Scalopus.C140.help_with_letters"
   ],
   "note": "False in two places: without arguments the exit status is 0, as parser.exit() comes before sys.exit(1); and an option of trace_configure between the state and the ids is an error. argparse is modelled as it is in Python 3.11."
  },
  {
   "property": "C141",
   "status": "partial",
   "theorems": [
    "Scalopus.C141.process_holds",
    "Scalopus.C141.process_off_silent",
    "Scalopus.C141.thread_holds",
    "Scalopus.C141.thread_off_silent",
    "Scalopus.C141.returned_done",
    "Scalopus.C141.never_lost",
    "Scalopus.C141.handler_ends",
    "Scalopus.C141.all_answered",
    "Scalopus.C141.answer_tells",
    "Scalopus.C141.answer_confirms",
    "Scalopus.C141.not_FailedChangesNothing",
    "Scalopus.C141.not_OneMoment",
    "Scalopus.C141.not_OnlyThoseNamed",
    "Scalopus.C141.not_AllNamed",
    "Scalopus.C141.answer_confirms_thread"
   ],
   "note": "False in four places: a command that was not answered in time is done all the same; an answer may combine switches that never were so at the same time; a thread that began after the command, with the id of one that ended, is switched off in its place; a thread that has not traced yet is not switched off."
  },
  {
   "property": "C142",
   "status": "partial",
   "theorems": [
    "Scalopus.C142.part_is_refused",
    "Scalopus.C142.shown_exact",
    "Scalopus.C142.each_in_order",
    "Scalopus.C142.part_hides_later",
    "Scalopus.C142.field_undefined",
    "Scalopus.C142.end_noticed",
    "Scalopus.C142.end_between_harmless_partial",
    "Scalopus.C142.other_process_hidden",
    "Scalopus.C142.consumer_undefined",
    "Scalopus.C142.name_text"
   ],
   "note": "False: the part of a batch is recorded like a batch, and finishing stops there, so that what any process sends after it is lost; a process that ends inside a number or the name makes the consumer read past a buffer."
  },
  {
   "property": "C143",
   "status": "partial",
   "theorems": [
    "Scalopus.C143.readme_says",
    "Scalopus.C143.readme_shown",
    "Scalopus.C143.server_says",
    "Scalopus.C143.recorder_says",
    "Scalopus.C143.nested_partial",
    "Scalopus.C143.marker_says",
    "Scalopus.C143.marker_shown",
    "Scalopus.C143.toggle_says",
    "Scalopus.C143.toggle_shown",
    "Scalopus.C143.showcases_not_nested",
    "Scalopus.C143.not_AllNested",
    "Scalopus.C143.count_says",
    "Scalopus.C143.count_overflows",
    "Scalopus.C143.random_nested",
    "Scalopus.C143.random_levels",
    "Scalopus.C143.random_depth",
    "Scalopus.C143.options_used",
    "Scalopus.C143.options_negative",
    "Scalopus.C143.options_large",
    "Scalopus.C143.options_text",
    "Scalopus.C143.one_thread_no_race",
    "Scalopus.C143.threads_race",
    "Scalopus.C143.threads_race_reached",
    "Scalopus.C143.recorder_file"
   ],
   "note": "Holds for readme_example, the embedded examples, the counters up to 2^31 rounds, and the nesting and names of random_callstacks. False for two showcases, in which b is left twice; the random generator is shared by threads without a lock."
  },
  {
   "property": "C144",
   "status": "partial",
   "theorems": [
    "Scalopus.C144.all_printed_partial",
    "Scalopus.C144.none_found",
    "Scalopus.C144.unreachable_hides_all",
    "Scalopus.C144.late_info_undefined",
    "Scalopus.C144.late_list_is_null",
    "Scalopus.C144.bad_text_hides_all",
    "Scalopus.C144.throw_hides_all",
    "Scalopus.C144.not_AllPrinted",
    "Scalopus.C144.undefined_iff",
    "Scalopus.C144.printed_only"
   ],
   "note": "Holds if all servers can be connected and answer in time. One that cannot be connected ends the program before anything is printed; a late process id is used without a value."
  },
  {
   "property": "C145",
   "status": "partial",
   "theorems": [
    "Scalopus.C145.running_named_partial",
    "Scalopus.C145.row_exact",
    "Scalopus.C145.rows_nested",
    "Scalopus.C145.together_apart",
    "Scalopus.C145.emit_recorded",
    "Scalopus.C145.ended_unnamed",
    "Scalopus.C145.reused_misnamed",
    "Scalopus.C145.not_OwnRows"
   ],
   "note": "Names hold for threads that exist when the recording is finished; threads that exist at the same time have different rows. What an ended thread recorded has no name, or is in the row and under the name of a later thread with its id; the row is still nested."
  },
  {
   "property": "C146",
   "status": "partial",
   "theorems": [
    "Scalopus.C146.released_partial",
    "Scalopus.C146.bounded_partial",
    "Scalopus.C146.piles_up",
    "Scalopus.C146.not_Bounded"
   ],
   "note": "With a sender, the buffer of an ended thread is released after one whole round. Without one (a program that traces and is not exposed) every thread that ever traced leaves its buffer behind for good."
  },
  {
   "property": "C147",
   "status": "partial",
   "theorems": [
    "Scalopus.C147.shown_exact",
    "Scalopus.C147.exact_partial",
    "Scalopus.C147.drains",
    "Scalopus.C147.early_shown",
    "Scalopus.C147.late_missing",
    "Scalopus.C147.shown_in_next",
    "Scalopus.C147.not_Exact"
   ],
   "note": "Events count from when they arrive. What is shown is proved exactly for all histories: what was on the way at the start is shown too, what is on the way at the stop is missing, and may be shown in the next recording. It holds when nothing is on the way at both."
  },
  {
   "property": "C148",
   "status": "partial",
   "theorems": [
    "Scalopus.C148.shown_exact",
    "Scalopus.C148.calls_exact",
    "Scalopus.C148.no_marks",
    "Scalopus.C148.not_HelperForAll"
   ],
   "note": "What is shown and what every call gives is proved exactly for all programs. The module has no helper for marks: a program that uses only what the module has cannot make any."
  },
  {
   "property": "C149",
   "status": "partial",
   "theorems": [
    "Scalopus.C149.sections_run",
    "Scalopus.C149.counters_run",
    "Scalopus.C149.readme_ends",
    "Scalopus.C149.readme_fixed_partial",
    "Scalopus.C149.not_ReadmeRuns",
    "Scalopus.C149.exec_keeps",
    "Scalopus.C149.source_exact",
    "Scalopus.C149.source_covers",
    "Scalopus.C149.source_past_end",
    "Scalopus.C149.not_Within",
    "Scalopus.C149.within_iff"
   ],
   "note": "The example of the readme uses a helper that does not exist and ends in its first round, whatever the number of rounds; with such a helper it would run. The others run. The last section of the source ends after the interval unless this has a whole number of seconds."
  },
  {
   "property": "C150",
   "status": "partial",
   "theorems": [
    "Scalopus.C150.native_partial",
    "Scalopus.C150.lttng_partial",
    "Scalopus.C150.set_back_lost",
    "Scalopus.C150.set_back_shown",
    "Scalopus.C150.not_AlwaysExact"
   ],
   "note": "Holds for both backends if the clock does not go back between two events of the thread. The native backend takes the time of day, and the entries are sorted by it: a scope during which the clock was set back by more than its duration is not shown as what it was, whatever else was recorded."
  },
  {
   "property": "C151",
   "status": "partial",
   "theorems": [
    "Scalopus.C151.recorded_sublist",
    "Scalopus.C151.kept_up_partial",
    "Scalopus.C151.whole_lost_partial",
    "Scalopus.C151.lost_exit_shown",
    "Scalopus.C151.lost_entry_shown",
    "Scalopus.C151.overrun_happens",
    "Scalopus.C151.not_NoFalseSections"
   ],
   "note": "Holds if the collection keeps up, or if only whole scopes, marks and counters are lost. If one of the two events of a scope is lost, the scope or the one around it is shown with the wrong end; with buffers of every size there are programs in which this happens."
  },
  {
   "property": "C152",
   "status": "partial",
   "theorems": [
    "Scalopus.C152.whole_partial",
    "Scalopus.C152.once_partial",
    "Scalopus.C152.switches_restored",
    "Scalopus.C152.run_kept",
    "Scalopus.C152.scoped_partial",
    "Scalopus.C152.off_and_on_shown",
    "Scalopus.C152.not_AlwaysRight"
   ],
   "note": "Holds if no scope is entered and left with the switches in different positions, if tracing is on from one moment to another (this includes recordings that begin and end anywhere), and for scoped switches, nested in any way. If tracing is switched off and on again in the middle of nested scopes, the inner scope is shown with the end of the outer one."
  },
  {
   "property": "C153",
   "status": "partial",
   "theorems": [
    "Scalopus.C153.guarded_safe",
    "Scalopus.C153.no_other_race_partial",
    "Scalopus.C153.only_with_partial",
    "Scalopus.C153.can_finish",
    "Scalopus.C153.destroy_races",
    "Scalopus.C153.transport_races",
    "Scalopus.C153.size_races",
    "Scalopus.C153.not_NoRace"
   ],
   "note": "The five maps and lists are safe in every history, every call can end from every state, and there are no other races than three: on the size of buffers if it is set while another thread traces for the first time, on the flag that ends the worker of the sender when the sender is destroyed, and on the sender's transport when it is added. Each of the three can happen from every state in which the calls can be made."
  },
  {
   "property": "C154",
   "status": "partial",
   "theorems": [
    "Scalopus.C154.general_fresh",
    "Scalopus.C154.scope_fresh_partial",
    "Scalopus.C154.name_shown_partial",
    "Scalopus.C154.nothing_else",
    "Scalopus.C154.can_finish",
    "Scalopus.C154.stale_shown",
    "Scalopus.C154.not_Fresh",
    "Scalopus.C154.late_hides",
    "Scalopus.C154.failed_hides"
   ],
   "note": "Holds for processes and threads, of which the provider asks with its mutex locked, if the questions of all viewers are answered. For tracepoints it holds if no other viewer is in the middle of asking when the recording is ended; otherwise that viewer can store its older answers over the newer ones, and new names are shown as unknown (proved from every such state). A process that does not answer another viewer in time loses its names for this one, too."
  },
  {
   "property": "C155",
   "status": "partial",
   "theorems": [
    "Scalopus.C155.recorded",
    "Scalopus.C155.delivered_once_partial",
    "Scalopus.C155.end_again",
    "Scalopus.C155.released_partial",
    "Scalopus.C155.kept",
    "Scalopus.C155.never_started",
    "Scalopus.C155.goes_on",
    "Scalopus.C155.can_handle",
    "Scalopus.C155.delivered_often",
    "Scalopus.C155.not_DeliveredOnce",
    "Scalopus.C155.not_Released"
   ],
   "note": "What an end delivers is exact for all sources. Delivered once and released: holds for native sources. An LTTng source keeps what it delivered until the next start, and delivers it again for every further end: proved for all histories."
  },
  {
   "property": "C156",
   "status": "partial",
   "theorems": [
    "Scalopus.C156.shown",
    "Scalopus.C156.accurate",
    "Scalopus.C156.same_time",
    "Scalopus.C156.order_within",
    "Scalopus.C156.one_axis_partial",
    "Scalopus.C156.native_too_late",
    "Scalopus.C156.lttng_too_late",
    "Scalopus.C156.not_one_axis"
   ],
   "note": "Proved: accuracy of both backends, the order within one backend, and the strict order of events of any backends that are more than one part in 2^50 apart. False for closer events of different backends, because they round differently: witnesses in both directions, 200 ns apart."
  },
  {
   "property": "C157",
   "status": "partial",
   "theorems": [
    "Scalopus.C157.set_to_list_partial",
    "Scalopus.C157.same_list",
    "Scalopus.C157.list_ascends",
    "Scalopus.C157.all_kept",
    "Scalopus.C157.elements_lost",
    "Scalopus.C157.same_conversion",
    "Scalopus.C157.nan_loses",
    "Scalopus.C157.nan_undefined",
    "Scalopus.C157.rounded_lost",
    "Scalopus.C157.mixed_kept",
    "Scalopus.C157.floats_ascend"
   ],
   "note": "Proved for sets of None, booleans, strings, tuples of any depth, and either integers or floats other than NaN: all elements, each once, in ascending order, the same for every order of walking through the set; for a set with both, for an integer below 2^53 and a float with a whole value. False for sets with two elements that convert to the same (bytes and the tuple of their values, None and an object of another type), with NaN (an element is lost; with two integers the behaviour is undefined), and with a float that an integer above 2^53 is rounded to."
  },
  {
   "property": "C158",
   "status": "partial",
   "theorems": [
    "Scalopus.C158.converted_partial",
    "Scalopus.C158.converted_iff",
    "Scalopus.C158.deep_ends",
    "Scalopus.C158.circle_ends",
    "Scalopus.C158.inside_ends",
    "Scalopus.C158.every_stack_ends",
    "Scalopus.C158.not_SomeStack"
   ],
   "note": "Proved for objects in which nothing contains itself, nested at most as deep as the stack has room for, however often an object is shared; exact characterisation of what is converted. False otherwise: a container that contains itself ends the process with every stack, and every stack is too small for some value (both proved for all such objects). How much of the stack one level needs is not modelled."
  },
  {
   "property": "C159",
   "status": "partial",
   "theorems": [
    "Scalopus.C159.answered_iff",
    "Scalopus.C159.doubles_taken",
    "Scalopus.C159.other_doubles_undefined",
    "Scalopus.C159.others_refused",
    "Scalopus.C159.not_Refused",
    "Scalopus.C159.pid_taken",
    "Scalopus.C159.thread_undefined",
    "Scalopus.C159.answers_orderly_partial",
    "Scalopus.C159.requests_orderly_partial",
    "Scalopus.C159.truncate_iff",
    "Scalopus.C159.info_says",
    "Scalopus.C159.mapping_says",
    "Scalopus.C159.switches_say"
   ],
   "note": "Proved for messages without doubles: every result is a value or an exception, and anything but a number as the id of a thread throws. False for doubles: what is before their point is taken for the id, and a double that is out of range, infinite or NaN is undefined behaviour in the server and in the client (both proved for all such doubles and states); booleans are taken for process ids. Integers are taken modulo the size of the type (C128.numbers_fit). info_says, mapping_says and switches_say say exactly what a client takes from any bytes; answered_iff says exactly which bytes a server answers, which is also C63 for the switches. The casts of nlohmann::json are modelled from its documentation."
  },
  {
   "property": "C160",
   "status": "partial",
   "theorems": [
    "Scalopus.C160.orderly_partial",
    "Scalopus.C160.each_leaves_one_open",
    "Scalopus.C160.closed_iff",
    "Scalopus.C160.restored_iff",
    "Scalopus.C160.entered_stays_open",
    "Scalopus.C160.switched_off_for_good",
    "Scalopus.C160.any_can_stay_open",
    "Scalopus.C160.not_Orderly",
    "Scalopus.C160.off_is_silent",
    "Scalopus.C160.never_switched_on",
    "Scalopus.C160.inside_is_harmless",
    "Scalopus.C160.undisturbed",
    "Scalopus.C160.passed_on"
   ],
   "note": "Holds unless a handler raises in __enter__ after its call or in __exit__ before its call. False for those, for every section and every suppressed function: the section stays open, the thread stays off and nothing that it runs later is recorded. closed_iff and restored_iff say exactly when sections are closed (programs without switchers) and when the switch is restored (no switcher inside of another). The moments at which CPython runs handlers are taken from its documentation: before and after calls."
  },
  {
   "property": "C161",
   "status": "partial",
   "theorems": [
    "Scalopus.C161.no_effect_partial",
    "Scalopus.C161.no_effect_all_partial",
    "Scalopus.C161.brace_loses_all",
    "Scalopus.C161.braced_loses_all",
    "Scalopus.C161.name_forges_process",
    "Scalopus.C161.not_NoEffect"
   ],
   "note": "Holds for all intervals in which the further contexts are integers or strings without a closing brace and ', '. The full claim is false (not_NoEffect): one process with a closing brace in its name, recorded before the ids, makes every interval fail that contains one of its events (brace_loses_all), and a process whose name ends with ', vpid = n' is shown as process n (name_forges_process)."
  }
 ]
}