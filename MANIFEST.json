{
 "claims": [
  {
   "property": "C01",
   "status": "proved",
   "theorems": [
    "Verif.Journal.C01_clean_restart",
    "Verif.Journal.C01_exactly_the_log",
    "Verif.Conform.event_log_test",
    "Verif.Conform.driver_event_test",
    "Verif.Conform.open_close_test",
    "Verif.Conform.single_event_test",
    "Verif.Conform.multi_boot_test"
   ],
   "note": "Any number of sessions; the event handler is a parameter, instantiated with one that records events."
  },
  {
   "property": "C02",
   "status": "partial",
   "theorems": [
    "Verif.Journal.C02_crash_loses_everything_violated",
    "Verif.Journal.C02_acknowledged_events_are_in_the_file_partial"
   ],
   "note": "The code violates the property: without a clean close the journal is always refused. Proved for every history; partial: the events are intact in the file."
  },
  {
   "property": "C03",
   "status": "proved",
   "theorems": [
    "Verif.Journal.C03_truncation_detected"
   ],
   "note": "Every cut after the 64-byte header; an accepted prefix is the file of an earlier clean shutdown."
  },
  {
   "property": "C04",
   "status": "proved",
   "theorems": [
    "Verif.Journal.C04_payload_corruption_detected"
   ],
   "note": "Concrete CRC-64/XZ; any damage inside any window of at most 8 bytes of a payload, any continuation of the file."
  },
  {
   "property": "C05",
   "status": "partial",
   "theorems": [
    "Verif.Journal.C05_recovered_driver_poisons_violated",
    "Verif.Journal.C05_fresh_journal_never_recovers_violated",
    "Verif.Journal.C05_check_on_healthy_journal_partial"
   ],
   "note": "The code violates the property: after a failed commit and a successful recovery check the journal can never be opened again. Proved for every history and every failure."
  },
  {
   "property": "C06",
   "status": "proved",
   "theorems": [
    "Verif.Enc.C06_values_round_trip",
    "Verif.Enc.C06_form_is_unique",
    "Verif.Enc.C06_fuel_suffices",
    "Verif.Conform.cell_encoding_test",
    "Verif.Conform.layer_field_tests",
    "Verif.Conform.fieldmap_test"
   ],
   "note": "Every well-formed value, both readers (journal payload and batch file), any following bytes; and the on-disk form is unique."
  },
  {
   "property": "C07",
   "status": "proved",
   "theorems": [
    "Verif.Enc.C07_dictionaries_round_trip",
    "Verif.Enc.C07_fuel_suffices",
    "Verif.Conform.dict_encoding_test"
   ],
   "note": "Every dictionary of any depth; a hash map is a list of entries with distinct keys in any order."
  },
  {
   "property": "C08",
   "status": "proved",
   "theorems": [
    "Verif.Enc.C08_events_round_trip",
    "Verif.Enc.C08_nothing_left_over",
    "Verif.Enc.C08_payload_determines_event",
    "Verif.Conform.event_encoding_tests"
   ],
   "note": "All eleven events with any names, identifiers, columns and properties."
  },
  {
   "property": "C09",
   "status": "partial",
   "theorems": [
    "Verif.Gns.C09_restart_rebuilds_the_catalogue_partial",
    "Verif.Gns.C09_without_null_env_partial",
    "Verif.Server.C09_query_texts_partial",
    "Verif.Gns.C09_env_null_violated",
    "Verif.Gns.C09_failed_drop_violated",
    "Verif.Conform.chain_space_tests",
    "Verif.Conform.chain_model_tests"
   ],
   "note": "Any number of sessions of any statements (also as texts of queries) with any failures, down to the bytes of the log. The code violates the property for spaces whose env was set to null and for a forced DROP SPACE whose commit fails; everything else is rebuilt exactly."
  },
  {
   "property": "C10",
   "status": "proved",
   "theorems": [
    "Verif.Header.C10_accepted_iff",
    "Verif.Header.C10_own_files_accepted",
    "Verif.Header.C10_other_files_rejected",
    "Verif.Header.C10_never_aborts"
   ],
   "note": "Every file content; accepted iff the first 64 bytes are a header of this class, kind, revision and versions."
  },
  {
   "property": "C11",
   "status": "partial",
   "theorems": [
    "Verif.Batch.C11_restarts_are_invisible_partial",
    "Verif.Batch.C11_failed_update_violated",
    "Verif.Batch.C11_null_key_violated",
    "Verif.Batch.C11_inserted_row_lost_violated",
    "Verif.Batch.C11_version_regress_violated",
    "Verif.Conform.model_data_empty_test",
    "Verif.Conform.model_data_inserts_test",
    "Verif.Conform.model_data_updates_test"
   ],
   "note": "Any statements, batches and clean restarts down to the bytes of the file, for a model whose columns do not change and statements that run one after the other. The code violates the property for UPDATEs that fail halfway, null primary keys and two statements at once (a row is lost; the server does not start)."
  },
  {
   "property": "C12",
   "status": "partial",
   "theorems": [
    "Verif.Batch.C12_only_additions_partial",
    "Verif.Batch.C12_values_go_by_position_violated",
    "Verif.Batch.C12_removed_violated",
    "Verif.Batch.C12_updated_violated"
   ],
   "note": "The code violates the property: values of a batch are given to the columns of today by position, so after removing or updating a column they move to other columns. Partial: columns that are only added."
  },
  {
   "property": "C13",
   "status": "partial",
   "theorems": [
    "Verif.Batch.C13_deleted_stays_deleted_partial",
    "Verif.Batch.C13_update_of_a_deleted_row_violated",
    "Verif.Batch.C13_split_over_batches_violated",
    "Verif.Batch.C13_older_delete_violated"
   ],
   "note": "The code violates the property: three interleavings of UPDATE and DELETE after which the deleted row is back on restart. Partial: statements one after the other."
  },
  {
   "property": "C14",
   "status": "partial",
   "theorems": [
    "Verif.Batch.C14_books_partial",
    "Verif.Batch.C14_unhealthy",
    "Verif.Batch.C14_without_errors_partial",
    "Verif.Batch.C14_errors_end_in_an_abort_violated",
    "Verif.Batch.C14_retry_violated",
    "Verif.Batch.C14_second_row_violated",
    "Verif.Batch.C14_end_of_batch_violated"
   ],
   "note": "Any interleaving of statements, counting, tasks, recoveries and failing system calls, down to the bytes. The code violates the property: a failed batch counts changes twice or loses them, after which the writer aborts, and the file cannot be opened. Partial: the exact books for every history; everything holds without I/O errors."
  },
  {
   "property": "C15",
   "status": "proved",
   "theorems": [
    "Verif.Trie.C15_is_a_map",
    "Verif.Trie.C15_compact",
    "Verif.Conform.trie_empty_tests",
    "Verif.Conform.trie_spam_tests"
   ],
   "note": "Hash trie with 16 levels, any hash function (including one where all keys collide), any sequence of operations by one thread; results, contents, count and iteration. Concurrent use is C40."
  },
  {
   "property": "C16",
   "status": "partial",
   "theorems": [
    "Verif.Ord.C16_is_a_map",
    "Verif.Ord.C16_drop_frees_everything",
    "Verif.Ord.C16_order_of_last_write",
    "Verif.Ord.C16_declaration_order_partial",
    "Verif.Ord.C16_owned_iterator_partial",
    "Verif.Ord.C16_columns",
    "Verif.Ord.C16_update_reorders_violated",
    "Verif.Ord.C16_every_update_reorders_violated",
    "Verif.Ord.C16_owned_iterator_violated",
    "Verif.Ord.C16_owned_back_violated",
    "Verif.Conform.ord_simple_tests",
    "Verif.Conform.ord_crud_tests",
    "Verif.Conform.ord_compact_test",
    "Verif.Conform.ord_iter_tests"
   ],
   "note": "The code violates the order: an update moves the column to the end, and the consuming iterator reads freed memory (from the front at every step, from the back at the second one). Proved for every operation sequence, allocator and allocation strategy: it is a map, all memory accesses are valid, the order is that of the last write; declaration order without rewrites (partial)."
  },
  {
   "property": "C17",
   "status": "proved",
   "theorems": [
    "Verif.Queue.C17_linearizable",
    "Verif.Queue.C17_memory_safe",
    "Verif.Queue.C17_nothing_lost_or_doubled",
    "Verif.Queue.C17_no_thread_waits"
   ],
   "note": "Any number of threads, any schedule at the level of single atomic accesses, any allocator that may hand out freed addresses again. Sequentially consistent memory (weak memory is C74); the epoch scheme is represented by its guarantee."
  },
  {
   "property": "C18",
   "status": "proved",
   "theorems": [
    "Verif.Lex.C18_keyword_exact",
    "Verif.Lex.C18_keyword_any_case",
    "Verif.Lex.C18_keyword_spelling_injective",
    "Verif.Lex.C18_symbol_exact"
   ],
   "note": "Perfect-hash lookup of keywords and symbols, for every byte string."
  },
  {
   "property": "C19",
   "status": "proved",
   "theorems": [
    "Verif.Lex.C19_parameters_cannot_change_structure",
    "Verif.Lex.C19_same_positions",
    "Verif.Lex.C19_every_question_mark",
    "Verif.Conform.safe_query_less_param",
    "Verif.Conform.safe_query_param_empty"
   ],
   "note": "Whole secure lexer, for every text and every parameter bytes. Float parsing is an abstract function."
  },
  {
   "property": "C20",
   "status": "proved",
   "theorems": [
    "Verif.Lex.C20_parameters_arrive_unchanged",
    "Verif.Conform.safe_query_all_literals",
    "Verif.Conform.safe_query_single",
    "Verif.Conform.safe_params_shuffled"
   ],
   "note": "For every list of parameter values of every kind."
  },
  {
   "property": "C21",
   "status": "partial",
   "theorems": [
    "Verif.Ql.C21_no_crash_partial",
    "Verif.Ql.C21_select_crash_violated",
    "Verif.Ql.C21_insert_crash_violated",
    "Verif.Ql.C21_create_model_crash_violated",
    "Verif.Ql.C21_alter_model_crash_violated",
    "Verif.Ql.C21_alter_add_crash_violated",
    "Verif.Ql.C21_select_all_crash_violated",
    "Verif.Ql.C21_cut_insert_violated",
    "Verif.Ql.C21_cut_insert_map_violated",
    "Verif.Ql.C21_cut_delete_violated"
   ],
   "note": "All statements, any tokens, any current space, root or not. The code violates the property: six shapes of statements crash the parser and three are accepted although they are cut off. Partial: token lists without the six shapes never crash. Stack depth is not modelled."
  },
  {
   "property": "C22",
   "status": "proved",
   "theorems": [
    "Verif.Net.C22_split_independent",
    "Verif.Conform.exchange_stages",
    "Verif.Conform.staged_all"
   ],
   "note": "Every query, every parameter bytes, every way of splitting the packet into reads."
  },
  {
   "property": "C23",
   "status": "partial",
   "theorems": [
    "Verif.Net.C23_query_length_panics_violated",
    "Verif.Net.C23_small_size_hangs_violated",
    "Verif.Net.C23_pipelined_packet_hangs_violated",
    "Verif.Net.C23_every_stream_partial",
    "Verif.Net.C23_wrong_marker_partial",
    "Verif.Conform.exchange_errors"
   ],
   "note": "The code violates the property: a query length larger than the packet panics; too small a packet size and a pipelined packet make the connection wait. Partial: all streams, panic only in that case."
  },
  {
   "property": "C24",
   "status": "proved",
   "theorems": [
    "Verif.Net.C24_split_independent",
    "Verif.Conform.handshake_stages",
    "Verif.Conform.rounds_test"
   ],
   "note": "Every user name, password and way of splitting the handshake into reads."
  },
  {
   "property": "C25",
   "status": "partial",
   "theorems": [
    "Verif.Net.C25_invalid_fields_panic_violated",
    "Verif.Net.C25_length_overflow_reads_out_of_bounds_violated",
    "Verif.Net.C25_every_stream_partial",
    "Verif.Net.C25_one_invalid_field_partial",
    "Verif.Conform.handshake_errors"
   ],
   "note": "The code violates the property: two invalid static fields panic; lengths adding up to 2^64 or more read out of bounds. Partial: for every stream these are the only bad cases, and one invalid field gets its own error."
  },
  {
   "property": "C26",
   "status": "proved",
   "theorems": [
    "Verif.Net.Reply.C26_replies_are_decodable",
    "Verif.Net.Reply.C26_replies_are_unambiguous",
    "Verif.Net.Reply.C26_connections"
   ],
   "note": "Every reply of the server, any rows, any nesting. The text of doubles is a parameter assumed to have no line feed and to be parsed back; the text NaN does not say which NaN."
  },
  {
   "property": "C27",
   "status": "proved",
   "theorems": [
    "Verif.Num.C27_print_u64",
    "Verif.Num.C27_print_i64",
    "Verif.Num.C27_scan_u64_exact",
    "Verif.Num.C27_scan_i64_exact",
    "Verif.Num.C27_roundtrip_u64",
    "Verif.Num.C27_roundtrip_i64",
    "Verif.Conform.u64_tests",
    "Verif.Conform.u64_result_tests",
    "Verif.Conform.i64_tests",
    "Verif.Conform.i64_overflow_test",
    "Verif.Conform.accumulate_tests",
    "Verif.Conform.Values.numbuf_tests"
   ],
   "note": "Printer with the digit-pair table, scanners; for every number and every buffer. A lone line feed scans as 0 (u64) and '-\\n' as 0 (i64)."
  },
  {
   "property": "C28",
   "status": "proved",
   "theorems": [
    "Verif.Server.C28_only_root",
    "Verif.Server.C28_history",
    "Verif.Server.C28_refused",
    "Verif.Server.C28_permission_error",
    "Verif.Gns.C28_only_root_partial"
   ],
   "note": "From the bytes of a query through lexer, parser and execution to the state of the server; any query, any state, any number of sessions. A session that is not root changes nothing, and every query that would change the catalogue for root gets the permission error."
  },
  {
   "property": "C29",
   "status": "proved",
   "theorems": [
    "Verif.Gns.C29_root_survives",
    "Verif.Gns.C29_session",
    "Verif.Gns.C29_login_exact"
   ],
   "note": "Any history with restarts; within a session any statements at all. The password hash function is a parameter."
  },
  {
   "property": "C30",
   "status": "proved",
   "theorems": [
    "Verif.C30_insert_accepts_exactly_the_type",
    "Verif.Conform.layer_numbers",
    "Verif.Conform.layer_values"
   ],
   "note": "For every declared type and every value. A list literal never contains null (the parser cannot produce one), stated as a hypothesis."
  },
  {
   "property": "C31",
   "status": "partial",
   "theorems": [
    "Verif.Dml.C31_refines_a_map_partial",
    "Verif.Dml.C31_simple_statements_partial",
    "Verif.Dml.C31_key_as_declared",
    "Verif.Dml.C31_null_key_violated",
    "Verif.Dml.C31_null_key_unreachable_violated",
    "Verif.Dml.C31_failed_update_violated",
    "Verif.Conform.exec_insert_tests",
    "Verif.Conform.exec_delete_tests",
    "Verif.Conform.exec_select_tests",
    "Verif.Conform.exec_select_all_tests"
   ],
   "note": "Any list of statements, any iteration order of the index. The code violates the property for nullable primary keys and for the UPDATEs of C32; a full refinement to a map is proved for everything else."
  },
  {
   "property": "C32",
   "status": "partial",
   "theorems": [
    "Verif.Dml.C32_update_partial",
    "Verif.Dml.C32_check_is_ignored_violated",
    "Verif.Dml.C32_out_of_range_violated",
    "Verif.Dml.C32_unsupported_operator_violated",
    "Verif.Dml.C32_null_and_list_unchecked_violated",
    "Verif.Dml.C32_aborts_violated",
    "Verif.Dml.C32_error_changes_row_violated",
    "Verif.Conform.exec_update_tests",
    "Verif.Conform.exec_update_errors"
   ],
   "note": "The code violates the property: the range check is ignored, an unsupported operator stores null, null columns and list elements are not checked, the roll back is incomplete, division by zero aborts. Partial: every other UPDATE of any row is exact and all-or-nothing."
  },
  {
   "property": "C33",
   "status": "partial",
   "theorems": [
    "Verif.Dml.C33_other_columns_partial",
    "Verif.Dml.C33_new_rows_partial",
    "Verif.Dml.C33_first_change_is_skipped_violated",
    "Verif.Dml.C33_select_star_fails_violated",
    "Verif.Dml.C33_added_violated",
    "Verif.Dml.C33_removed_violated",
    "Verif.Dml.C33_update_violated",
    "Verif.Dml.C33_type_confusion_violated"
   ],
   "note": "The code violates the property: every row misses the first change of the columns after its insertion. Partial: all other columns are right, for any history without UPDATE; the exact behaviour is proved too."
  },
  {
   "property": "C34",
   "status": "proved",
   "theorems": [
    "Verif.Dml.C34_values_stay_valid",
    "Verif.Dml.C34_statement",
    "Verif.Dml.C34_table_stays_valid"
   ],
   "note": "Any request, any column, any value."
  },
  {
   "property": "C35",
   "status": "partial",
   "theorems": [
    "Verif.Gns.C35_consistent_partial",
    "Verif.Server.C35_query_texts_partial",
    "Verif.Gns.C35_primary_keys_not_null_partial",
    "Verif.Gns.C35_statements_return_partial",
    "Verif.Gns.C35_if_exists",
    "Verif.Gns.C35_failed_drop_violated",
    "Verif.Gns.C35_nullable_primary_key_violated",
    "Verif.Gns.C35_null_nullable_violated",
    "Verif.Locks.C35_agree_concurrently_partial",
    "Verif.Locks.C35_alter_model_panics_violated",
    "Verif.Conform.create_model_tests",
    "Verif.Conform.exec_create_model_test",
    "Verif.Conform.plan_tests",
    "Verif.Conform.plan_errors",
    "Verif.Conform.bad_casts",
    "Verif.Conform.more_bad_casts",
    "Verif.Conform.exec_alter_model_tests"
   ],
   "note": "The code violates the property in three ways (failed forced DROP SPACE, nullable first column without a primary one, nullable: null in ALTER MODEL); invariant proved for all other histories; the agreement of the two maps also for any number of clients at once, in any schedule."
  },
  {
   "property": "C36",
   "status": "partial",
   "theorems": [
    "Verif.Locks.C36_no_deadlock_partial",
    "Verif.Locks.C36_every_run_ends",
    "Verif.Locks.C36_alter_model_deadlock_violated",
    "Verif.Locks.C36_deadlock_stops_all_rows_violated",
    "Verif.Locks.C36_spaces_and_users",
    "Verif.Locks.C36_models",
    "Verif.Locks.C36_inspect",
    "Verif.Locks.C36_rows",
    "Verif.Locks.C36_tasks"
   ],
   "note": "The code violates the property: ALTER MODEL takes the model map before the space map, CREATE MODEL, DROP MODEL and the forced DROP SPACE take them the other way round, and the two can wait for each other for ever, after which no statement on rows ever finishes. Partial: every mix of statements and background tasks without such a pair, any number of threads, any schedule, also when waiting writers go first."
  },
  {
   "property": "C37",
   "status": "partial",
   "theorems": [
    "Verif.Fractal.C37_good_status_partial",
    "Verif.Fractal.C37_exact_status_partial",
    "Verif.Fractal.C37_known_fault",
    "Verif.Fractal.C37_model_fault_is_not_reported_violated",
    "Verif.Fractal.C37_recovery_makes_status_bad_violated",
    "Verif.Fractal.C37_fault_makes_status_good_violated",
    "Verif.Fractal.C37_drop_violated",
    "Verif.Fractal.C37_overlap_violated",
    "Verif.Fractal.C37_drift_violated"
   ],
   "note": "The code violates the property: faults of models are never counted, but their recoveries are counted down (exact law for every history). Partial: histories without failing batches."
  },
  {
   "property": "C38",
   "status": "partial",
   "theorems": [
    "Verif.Gns.C38_alter_space_merges_partial",
    "Verif.Gns.C38_exact_behaviour",
    "Verif.Gns.C38_alter_space_statement",
    "Verif.Gns.C38_env_reset_only_if_missing",
    "Verif.Gns.C38_new_dictionary_lost_violated",
    "Verif.Gns.C38_value_for_dictionary_violated",
    "Verif.Conform.dictionary_tests",
    "Verif.Conform.create_space_tests",
    "Verif.Conform.exec_alter_space_tests"
   ],
   "note": "The code violates the property: a new nested dictionary is acknowledged and lost; a value given for an existing dictionary deletes it instead of being refused. Partial: holds for all other requests; exact behaviour proved for every request."
  },
  {
   "property": "C39",
   "status": "proved",
   "theorems": [
    "Verif.C39_type_name_exact",
    "Verif.C39_declaration_exact",
    "Verif.Conform.layer_views"
   ],
   "note": "For every identifier and every chain of layers."
  },
  {
   "property": "C40",
   "status": "proved",
   "theorems": [
    "Verif.Trie.Conc.C40_linearizable",
    "Verif.Trie.Conc.C40_memory_safe",
    "Verif.Trie.Conc.C40_retired_once",
    "Verif.Trie.Conc.C40_references_stay_valid"
   ],
   "note": "Any number of threads, any schedule at the level of single atomic accesses, any hash function, any allocator that may hand out freed addresses again. Sequentially consistent memory; the epoch scheme is represented by its guarantee; the length counter is left out."
  },
  {
   "property": "C41",
   "status": "partial",
   "theorems": [
    "Verif.Journal.C41_buffered_writes_reach_file_partial",
    "Verif.Journal.C41_short_write_corrupts_violated",
    "Verif.Journal.C41_short_write_hangs_violated",
    "Verif.Journal.C41_short_write_at_start_violated",
    "Verif.Conform.Values.vfs_buffering_test"
   ],
   "note": "The code violates the property: a short write is retried from the start of the buffer. Partial: holds if every system call accepts all bytes."
  },
  {
   "property": "C42",
   "status": "proved",
   "theorems": [
    "Verif.Lex.C42_text_is_split_exactly",
    "Verif.Conform.insecure_lexer_tests"
   ],
   "note": "Every query text, against an inductive description of words, blanks and symbols."
  },
  {
   "property": "C43",
   "status": "proved",
   "theorems": [
    "Verif.Journal.C43_missing_records_detected",
    "Verif.Journal.C43_repeated_record_detected"
   ],
   "note": "Every history of the event log, every continuation of the file."
  },
  {
   "property": "C44",
   "status": "partial",
   "theorems": [
    "Verif.Gns.C44_alter_user_never_works_violated",
    "Verif.Gns.C44_drop_and_create_partial"
   ],
   "note": "The code violates the property: the statement is refused for every client. Partial: dropping and creating the user works."
  },
  {
   "property": "C45",
   "status": "partial",
   "theorems": [
    "Verif.Header.C45_all_releases_are_zero_violated",
    "Verif.Header.C45_any_text_is_zero_violated",
    "Verif.Header.C45_driver_versions_differ_partial"
   ],
   "note": "The code violates the property: every release has the number 0. Partial: the driver versions of the two storage formats differ."
  },
  {
   "property": "C46",
   "status": "partial",
   "theorems": [
    "Verif.Dml.C46_no_null_partial",
    "Verif.Dml.C46_new_column_violated",
    "Verif.Dml.C46_operator_violated"
   ],
   "note": "The code violates the property: added columns are null in existing rows even if they are not nullable, and unsupported operators store null. Partial: holds for all other statements."
  },
  {
   "property": "C47",
   "status": "proved",
   "theorems": [
    "Verif.Ql.C47_parser_is_grammar",
    "Verif.Ql.C47_one_meaning",
    "Verif.Ql.C47_nothing_else",
    "Verif.Ql.C47_one_column_refused",
    "Verif.Ql.C47_empty_row_refused",
    "Verif.Ql.calls_iff",
    "Verif.Ql.ldfunc_iff",
    "Verif.Conform.dict_tests",
    "Verif.Conform.deep_dict_tests",
    "Verif.Conform.null_dict_tests",
    "Verif.Conform.fuzz_dict",
    "Verif.Conform.misc_tests",
    "Verif.Conform.dcl_tests",
    "Verif.Conform.list_tests",
    "Verif.Conform.tuple_tests",
    "Verif.Conform.map_tests",
    "Verif.Conform.insert_tests",
    "Verif.Conform.select_tests",
    "Verif.Conform.expression_tests",
    "Verif.Conform.update_tests",
    "Verif.Conform.delete_tests",
    "Verif.Conform.relational_tests",
    "Verif.Conform.where_tests",
    "Verif.Conform.select_all_tests",
    "Verif.Conform.alter_space_tests",
    "Verif.Conform.tymeta_tests",
    "Verif.Conform.tymeta_split_tests",
    "Verif.Conform.layer_tests",
    "Verif.Conform.fuzz_layer",
    "Verif.Conform.field_tests",
    "Verif.Conform.schema_tests",
    "Verif.Conform.expanded_tests",
    "Verif.Conform.alter_remove_tests",
    "Verif.Conform.alter_add_tests",
    "Verif.Conform.alter_update_tests",
    "Verif.Conform.drop_tests"
   ],
   "note": "All statements. The grammar is an inductive relation between token lists and statements; forms that the code accepts although their end is missing are part of it and marked lax. The statements refused for being short are listed by the relation Short. The depth of the recursion is not bounded in the model."
  },
  {
   "property": "C48",
   "status": "partial",
   "theorems": [
    "Verif.Server.C48_from_text",
    "Verif.Server.C48_inspect_global",
    "Verif.Server.C48_inspect_model",
    "Verif.Server.C48_missing",
    "Verif.Server.C48_inspect_space_partial",
    "Verif.Server.C48_inspect_space_violated",
    "Verif.Conform.Client.client_inspect_global"
   ],
   "note": "From the text of the query. The answer to INSPECT SPACE has a closing brace too many and is never JSON; without it the statement holds. Whether the primary key is nullable is not shown."
  },
  {
   "property": "C49",
   "status": "proved",
   "theorems": [
    "Verif.Server.C49_frame",
    "Verif.Server.C49_readers",
    "Verif.Server.C49_rows_depend",
    "Verif.Server.C49_exchange",
    "Verif.Server.C49_new_model"
   ],
   "note": "From the bytes of the query. Names lists what each kind of query names; a forced DROP SPACE names all models of the space. One query at a time."
  },
  {
   "property": "C50",
   "status": "partial",
   "theorems": [
    "Verif.Server.C50_tables_partial",
    "Verif.Server.C50_simple_updates_partial",
    "Verif.Server.C50_violated"
   ],
   "note": "From the bytes of the queries to the answers, any number of sessions, one query at a time. The code violates the property for the reasons of C31, C32 and C33 (witness from texts). Partial: no ALTER or DROP of the table meanwhile, primary key not nullable, UPDATEs as in C32."
  },
  {
   "property": "C51",
   "status": "partial",
   "theorems": [
    "Verif.Cli.C51_plain_partial",
    "Verif.Cli.C51_refused_or_right_partial",
    "Verif.Cli.C51_escapes_violated",
    "Verif.Cli.C51_binary_violated",
    "Verif.Cli.C51_question_mark_violated",
    "Verif.Cli.C51_negative_numbers_violated",
    "Verif.Cli.C51_panic_violated"
   ],
   "note": "The code violates the property: an escape in a text leaves its backslash behind, the closing accent of binary data is sent with them, a typed question mark swallows the next literal, negative numbers are always refused, a query such as 'use café' makes the shell panic. Partial: all queries without these (and without a line feed right after a whole number or a blank right after a floating-point number); without the first three the shell refuses or is right. The client library, which encodes the parameters, is assumed to follow the protocol."
  },
  {
   "property": "C52",
   "status": "partial",
   "theorems": [
    "Verif.Mem.VInline.C52_vinline",
    "Verif.Mem.VInline.C52_nothing_lost_or_doubled",
    "Verif.Mem.VInline.C52_vinline_iter_partial",
    "Verif.Mem.VInline.C52_vinline_iter_violated",
    "Verif.Mem.VInline.C52_vinline_iter_wrong_violated",
    "Verif.Mem.UArray.C52_uarray",
    "Verif.Mem.UArray.C52_uarray_iter",
    "Verif.Mem.UArray.C52_uarray_from_slice",
    "Verif.Mem.FixedVec.C52_fixedvec_partial",
    "Verif.Mem.FixedVec.C52_fixedvec_leak_violated",
    "Verif.Conform.vinline_tests",
    "Verif.Conform.vinline_iter_tests",
    "Verif.Conform.uarray_tests",
    "Verif.Conform.uarray_pop_tests",
    "Verif.Conform.Values.fixed_vec_tests"
   ],
   "note": "The code violates the property: a FixedVec never gives its memory back, and the consuming iterator of VInline reads an element as an Option, which is undefined for element types without a spare bit pattern. Partial: all operations of VInline and UArray, the iterator for types with a spare bit pattern, and FixedVec except for the memory that stays, if callers of its unsafe operations keep to the capacity. Destructors that panic are not modelled."
  },
  {
   "property": "C53",
   "status": "proved",
   "theorems": [
    "Verif.Sync.Rc.C53_counted",
    "Verif.Sync.Rc.C53_counter",
    "Verif.Sync.Rc.C53_no_thread_waits"
   ],
   "note": "Any number of threads and handles, any schedule at the level of single atomic accesses; the abort of rc_clone on too many handles is modelled, and fewer than 2^63 - 1 clones are in progress at once. Sequentially consistent memory; that the orderings used (relaxed increment, release decrement, acquire fence) suffice is C73."
  },
  {
   "property": "C54",
   "status": "proved",
   "theorems": [
    "Verif.Mem.Names.C54_names",
    "Verif.Mem.Names.C54_names_new"
   ],
   "note": "Pointer level: every search in a map with such keys is taken to follow all of them. Any initial columns, schema changes, restored rows (any version, any number of values), and any later schema changes, inserts and reads. Statements one after the other; ALTER MODEL excludes them by its lock (C36)."
  },
  {
   "property": "C55",
   "status": "partial",
   "theorems": [
    "Verif.Config.C55_cli_partial",
    "Verif.Config.C55_env_partial",
    "Verif.Config.C55_file_partial",
    "Verif.Config.C55_nothing_else",
    "Verif.Config.C55_no_panic",
    "Verif.Config.C55_equals_violated",
    "Verif.Config.C55_comma_violated",
    "Verif.Config.C55_ipv6_violated",
    "Verif.Config.C55_short_password_violated",
    "Verif.Config.C55_messages_violated",
    "Verif.Conform.cli_tests",
    "Verif.Conform.cli_validate_test",
    "Verif.Conform.help_tests",
    "Verif.Conform.env_simple_test",
    "Verif.Conform.env_multi_test",
    "Verif.Conform.env_validate_test",
    "Verif.Conform.file_test",
    "Verif.Config.C55_limits"
   ],
   "note": "The code violates the property: values with = in the form --name=value, values with commas in the environment and hosts with a colon are refused, the length of the password is counted in bytes, and some errors name the wrong option or source. Partial: valid settings are accepted if values are free of these characters and the password has as many bytes as characters, and then mean the same in the three forms; what is accepted is always the meaning of what was given (no exclusions, but for the file only its source is stated), and nothing panics. The YAML reader and the file system are parameters."
  },
  {
   "property": "C56",
   "status": "partial",
   "theorems": [
    "Verif.Server.C56_restarts_are_invisible_partial",
    "Verif.Server.C56_every_start_succeeds_partial",
    "Verif.Server.C56_columns_violated",
    "Verif.Server.C56_refused_update_violated",
    "Verif.Server.C56_null_key_violated"
   ],
   "note": "The code violates the property: after a column was removed a restart moves values to other columns (C12), a refused UPDATE changes the row until the next restart (C32), and a row with a null key crashes the shutdown (C31, C35). Partial: a model that is created with a key that is not nullable and not altered or dropped afterwards, UPDATEs that C32 does not except; for every start to succeed also no ALTER MODEL and only UPDATEs that set distinct columns to values of their types. One query is one step. Commits that fail leave nothing in the log (C05 is about those)."
  },
  {
   "property": "C57",
   "status": "partial",
   "theorems": [
    "Verif.Dml.Par.C57_linearizable_partial",
    "Verif.Dml.Par.C57_select_all_partial",
    "Verif.Dml.Par.C57_select_all_violated",
    "Verif.Dml.Par.C57_others_partial",
    "Verif.Dml.Par.C57_old_rows_violated",
    "Verif.Dml.Par.alone_exec"
   ],
   "note": "The code violates the property for SELECT ALL: it locks the rows one by one and UPDATE does not take the latch of the index, so an answer can show a change and not an earlier acknowledged one. Proved for any number of clients and any interleaving: the other statements are linearizable; SELECT ALL shows exactly the keys of one instant and each row as it was at some instant meanwhile; with SELECT ALLs among them the other statements are still linearizable if all rows have the current columns, and not otherwise (C57_old_rows_violated: reading an old row changes what an UPDATE of it does, C33). An operation of the index is one step (C40), and so is the work on a row under its lock; sequentially consistent memory."
  },
  {
   "property": "C58",
   "status": "partial",
   "theorems": [
    "Verif.Server.C58_upgrade_succeeds_partial",
    "Verif.Server.C58_rows_survive_partial",
    "Verif.Server.C58_catalogue_survives_partial",
    "Verif.Server.C58_crash_violated",
    "Verif.Server.C58_stuck_violated",
    "Verif.Server.C58_root_password_violated",
    "Verif.Server.C58_update_violated",
    "Verif.Server.C58_delete_violated",
    "Verif.Server.C58_insert_violated",
    "Verif.Server.C58_columns_violated"
   ],
   "note": "The code violates the property: a row that is updated between the upgrade and the next restart makes that restart crash, a row that is deleted comes back, rows of models whose columns were changed before do not get later columns, a crash between moving the old files and writing the new ones leads to an empty installation, and the root password of the settings is ignored once. Partial: models whose columns were never changed and whose rows are only read until the first restart; then everything holds for all later histories as in C56. Starts from what was loaded from the old files."
  },
  {
   "property": "C59",
   "status": "partial",
   "theorems": [
    "Verif.Old.C59_log_is_read_partial",
    "Verif.Old.C59_reading_again_partial",
    "Verif.Old.C59_truncation_partial",
    "Verif.Old.C59_damage_partial",
    "Verif.Old.C59_missing_event_partial",
    "Verif.Old.C59_reversed_write_partial",
    "Verif.Old.C59_crash_violated",
    "Verif.Old.C59_failed_write_violated",
    "Verif.Old.C59_unknown_event_violated"
   ],
   "note": "The code violates the property: the log is opened for writing while the data files are loaded, and after a crash then it is never accepted again; a write that failed without leaving a whole record makes the log unreadable although the reader provides for this; an unknown event crashes the reader (index outside the table). Partial: logs without such writes, for which the catalogue, cutting off at every place (with identifiers of the variant that the server makes), changed payload bytes, complete reversed records and reading again are proved, with the buffered reader of the code."
  },
  {
   "property": "C60",
   "status": "partial",
   "theorems": [
    "Verif.Old.C60_rows_partial",
    "Verif.Old.C60_reading_again_partial",
    "Verif.Old.C60_damage_partial",
    "Verif.Old.C60_count_partial",
    "Verif.Old.C60_recovery_partial",
    "Verif.Old.C60_crash_violated",
    "Verif.Old.C60_removed_column_violated",
    "Verif.Old.C60_missing_key_violated",
    "Verif.Old.C60_failed_write_violated",
    "Verif.Old.C60_damaged_length_violated",
    "Verif.Old.C60_truncation_violated"
   ],
   "note": "The code violates the property: after a crash while the installation is loaded, every data file that was read is refused for ever; values written before ALTER MODEL REMOVE are read into other columns; a deletion of a row that is not in the file crashes the reader; a batch that was only partly written makes the file unreadable although it is marked as failed; a damaged length crashes the reader before the checksum is looked at; a file that is cut off at some places is accepted without its last batch. Partial: files of complete batches for models whose columns were not changed, complete batches that are marked as failed, changes of bytes that leave the layout of a batch as it is, and reading again."
  },
  {
   "property": "C61",
   "status": "partial",
   "theorems": [
    "Verif.Old.C61_loaded_partial",
    "Verif.Old.C61_answers_partial",
    "Verif.Old.C61_refused_file_partial",
    "Verif.Old.C61_crash_violated",
    "Verif.Old.C61_damaged_users_violated",
    "Verif.Old.C61_cut_users_violated"
   ],
   "note": "The code violates the property: if the reader crashes at one data file, the log of the catalogue stays open and no later start accepts it, even with the data file repaired; the file with the users has no checksum, so that any byte of a password hash can change without notice, and if it was cut off the reader reads behind its end. Partial: installations in which no model had its columns changed and all writes succeeded; rows are only read between the upgrade and the first restart (C58). For these, from the bytes of all files to all later answers, for any later history; and data files that are refused with an error."
  },
  {
   "property": "C62",
   "status": "partial",
   "theorems": [
    "Verif.Cli.C62_prompt_partial",
    "Verif.Cli.C62_errors",
    "Verif.Cli.C62_prompt_violated"
   ],
   "note": "The code violates the property: the shell compares the text with `use null`, so with a blank behind it the prompt names a space `null` although none is used; `use $ current` sets the prompt to a dollar sign; and after `use $current` with a space that has been dropped the prompt still names it. Partial: lines of the other spellings; proved for any sequence of lines, any changes by others in between, the parser of the server and the parameters as they are sent."
  },
  {
   "property": "C63",
   "status": "partial",
   "theorems": [
    "Verif.Cli.C63_shown_partial",
    "Verif.Cli.C63_numbers",
    "Verif.Cli.C63_special_texts",
    "Verif.Cli.C63_shown_violated",
    "Verif.Cli.C63_eval_violated"
   ],
   "note": "The code violates the property: binary data is shown like a list of numbers, a line break in a text like a backslash and an n (a backslash is not escaped), and with --eval texts are shown without quotes, so that a text can look like an error, an empty answer or two columns. Partial: the interactive shell, answers without binary data and without backslashes; colours are part of what is shown. How floating-point numbers are written is a parameter."
  },
  {
   "property": "C64",
   "status": "partial",
   "theorems": [
    "Verif.Cli.Start.C64_settings_partial",
    "Verif.Cli.Start.C64_nothing_else_partial",
    "Verif.Cli.Start.C64_help",
    "Verif.Cli.Start.C64_no_crash",
    "Verif.Cli.Start.C64_eval_partial",
    "Verif.Cli.Start.C64_capitals_violated",
    "Verif.Cli.Start.C64_equals_violated",
    "Verif.Cli.Start.C64_certificate_violated",
    "Verif.Cli.Start.C64_ipv6_violated",
    "Verif.Cli.Start.C64_eval_violated"
   ],
   "note": "The code violates the property: capital letters of a password that is typed are dropped (keys with the shift modifier are ignored; that the terminal library reports capitals so is an assumption), a value with an equals sign is refused in one word, a certificate with an endpoint without TLS is silently ignored, IPv6 addresses are refused, and a query with literals works when typed but not with --eval, where also the exit code is 0 for errors. Partial: everything else, as an equivalence for any order of the options; queries without literals."
  },
  {
   "property": "C65",
   "status": "partial",
   "theorems": [
    "Verif.Server.C65_conversations_partial",
    "Verif.Server.C65_sessions",
    "Verif.Server.C65_strangers_partial",
    "Verif.Server.C65_only_root_partial",
    "Verif.Server.C65_readable",
    "Verif.Server.C65_clients_partial",
    "Verif.Server.C65_codes",
    "Verif.Server.C65_refusals",
    "Verif.Server.C65_pieces_violated",
    "Verif.Server.C65_undefined_violated",
    "Verif.Conform.Client.client_unknown_tokens",
    "Verif.Conform.Client.client_unknown_statements",
    "Verif.Conform.Client.client_space_end_of_tokens",
    "Verif.Conform.Client.client_model_end_of_tokens",
    "Verif.Conform.Client.client_alter_end_of_tokens",
    "Verif.Conform.Client.client_dml_end_of_tokens",
    "Verif.Conform.Client.client_sysctl_end_of_tokens",
    "Verif.Conform.Client.client_status"
   ],
   "note": "The code violates the property: a query that arrives in the same read as the handshake, or two queries in one read, are not executed until the client sends more, so what is executed depends on the pieces; and a client without an account can make the server read outside its buffer (C25). Partial: histories without that read. For them, from bytes to bytes and any number of connections: the messages are those of complete packets, a client that waits for each reply gets exactly the replies to its queries and can read them, strangers change nothing and get only refusals, and without a login of root the catalogue stays. One query is one step (C57 is about concurrent row statements)."
  },
  {
   "property": "C66",
   "status": "partial",
   "theorems": [
    "Verif.Server.C66_no_account_partial",
    "Verif.Server.C66_dropped",
    "Verif.Server.C66_others",
    "Verif.Server.C66_open_sessions_violated",
    "Verif.Server.C66_new_password_violated"
   ],
   "note": "The code violates the property: connections that are open when the account is dropped keep their access, and so do those that logged in with an old password. Partial: new connections are refused until an account of this name is created again, and other accounts keep exactly their logins."
  },
  {
   "property": "C67",
   "status": "partial",
   "theorems": [
    "Verif.Halt.C67_closed_last",
    "Verif.Halt.C67_stops",
    "Verif.Halt.C67_onward",
    "Verif.Halt.C67_no_deadlock",
    "Verif.Halt.C67_lost_partial",
    "Verif.Halt.C67_quiet_partial",
    "Verif.Halt.C67_memory_partial",
    "Verif.Halt.C67_late_change_violated",
    "Verif.Halt.C67_other_change_violated",
    "Verif.Halt.C67_full_queue_violated",
    "Verif.Halt.C67_failed_write_violated",
    "Verif.Halt.C67_freed_memory_violated",
    "Verif.Halt.C67_directories_violated"
   ],
   "note": "The code violates the property: the service that writes the rows gets the signal together with the connections and does not wait for them, so that changes acknowledged meanwhile, and even changes acknowledged before, are not in the files; a statement that fills the queue, or one failed write, then loses everything that is pending; a statement on the blocking pool goes on with the freed session and buffer of its connection; directories of dropped models stay. Proved for all interleavings: the files are closed last, the server stops, at most as many acknowledged changes are lost as are made after the signal if no write fails, and none if no row statement is being executed. Writes happen or fail as a whole here (C14 has their details), and models are fixed."
  },
  {
   "property": "C68",
   "status": "partial",
   "theorems": [
    "Verif.Net.Listener.C68_tcp",
    "Verif.Net.Listener.C68_order",
    "Verif.Net.Listener.C68_backoff",
    "Verif.Net.Listener.C68_tls_partial",
    "Verif.Net.Listener.C68_tls_violated",
    "Verif.Net.Listener.C68_limit_violated"
   ],
   "note": "The code violates the property: the permit is given back as soon as the handler is started, and TLS has none, so that any number of clients is served at the same time; and a client that does not go on with its TLS handshake keeps all others from being accepted. Proved: the order, TCP, the bounds for errors, and TLS as long as handshakes end."
  },
  {
   "property": "C69",
   "status": "partial",
   "theorems": [
    "Verif.Os.Pid.C69_one_server_partial",
    "Verif.Os.Pid.C69_restart",
    "Verif.Os.Pid.C69_two_servers_violated"
   ],
   "note": "The code violates the property: the file of the lock is removed when a server ends, so that a server that has opened it just before locks a file without a name, and the next server locks another one. Proved for all interleavings in which no file is removed between the opening and the lock of another server; and that kills do not leave a lock behind."
  },
  {
   "property": "C70",
   "status": "partial",
   "theorems": [
    "Verif.Mem.C70_words",
    "Verif.Mem.C70_split_fits",
    "Verif.Mem.C70_all_words",
    "Verif.Mem.C70_promotions",
    "Verif.Mem.C70_wide_words",
    "Verif.Mem.C70_values_partial",
    "Verif.Mem.C70_keys",
    "Verif.Mem.C70_compare_partial",
    "Verif.Mem.C70_owned_literal_violated",
    "Verif.Mem.C70_clone_violated",
    "Verif.Mem.C70_compare_violated",
    "Verif.Mem.C70_integer_keys_violated",
    "Verif.Conform.word_tests",
    "Verif.Conform.word_promotion_tests",
    "Verif.Conform.Values.key_collapse_test",
    "Verif.Conform.Values.key_wrong_type_test",
    "Verif.Conform.Values.key_eq_hash_tests",
    "Verif.Conform.Values.cell_tests",
    "Verif.Conform.Values.lit_tests"
   ],
   "note": "The code violates the property: a virtual cell made from a literal that owns its text points to freed memory; cloning a key reads outside an array for integers and leads to a double free for texts; comparing a Boolean with null crashes in one direction; and all integer keys give the hasher the same bytes, so that all rows of a table with an integer key are in one list of the index. The first three are not reached by queries. Partial: all programs without such virtual cells and clones, for which reads, frees, comparisons of keys and hashes are proved; cells that are neither lists nor a Boolean and null are compared as they should be. The memory of a Vec of cells is not modelled."
  },
  {
   "property": "C71",
   "status": "partial",
   "theorems": [
    "Verif.Ddl.C71_one_after_the_other_partial",
    "Verif.Ddl.C71_restart_partial",
    "Verif.Ddl.C71_closed_partial",
    "Verif.Ddl.C71_race_violated"
   ],
   "note": "The code violates the property: the health of the log is tested before its mutex is taken and not afterwards, so that a statement that was waiting writes the record of a statement that failed together with its own; the failed statement is there after a restart, and if it was tried again the log cannot be read any more. Partial: all schedules of any number of clients in which the writes to the log succeed; the log on disk is that of a sequential execution that explains everything the clients have seen, and opens again to its catalogue (with the exceptions of C09). After a write has failed the log stays as it is until it is found in order, if no statement was between the test of its health and its write. Lock waits are modelled; that they can last for ever is C36."
  },
  {
   "property": "C72",
   "status": "partial",
   "theorems": [
    "Verif.Bench.C72_each_query_once",
    "Verif.Bench.C72_keys",
    "Verif.Bench.C72_errors",
    "Verif.Bench.C72_bounded",
    "Verif.Bench.C72_channel",
    "Verif.Bench.C72_ends_partial",
    "Verif.Bench.C72_fewer_queries_violated",
    "Verif.Bench.C72_fast_connection_violated",
    "Verif.Bench.C72_rookie_each_query_once",
    "Verif.Bench.C72_rookie_errors",
    "Verif.Bench.C72_rookie_bounded",
    "Verif.Bench.C72_rookie_ends_partial",
    "Verif.Bench.C72_rookie_fewer_queries_violated",
    "Verif.Bench.C72_rookie_report_violated"
   ],
   "note": "The code violates the property: a connection that gets no query panics and the main task waits for its result for ever; with fewer queries than connections this happens in every interleaving. Everything else is proved for all interleavings; the benchmark ends if no connection panics. Both engines; sequentially consistent memory; the server executes one query at a time (C31, C57)."
  },
  {
   "property": "C73",
   "status": "proved",
   "theorems": [
    "Verif.Weak.Rc.C73_no_race",
    "Verif.Weak.Rc.C73_destroyed_last",
    "Verif.Weak.Rc.C73_release_needed",
    "Verif.Weak.Rc.C73_acquire_alone_fails",
    "Verif.Weak.Rc.C73_fence_needed"
   ],
   "note": "Any number of threads and handles, any schedule, release/acquire semantics with vector views; the counter is only changed by read-modify-write accesses. The last three theorems show that weaker orderings fail."
  },
  {
   "property": "C74",
   "status": "proved",
   "theorems": [
    "Verif.Weak.Queue.C74_no_race",
    "Verif.Weak.Queue.C74_fifo",
    "Verif.Weak.Queue.C74_empty",
    "Verif.Weak.Queue.C74_enqueued",
    "Verif.Weak.Queue.C74_sync",
    "Verif.Weak.Queue.C74_stale_empty",
    "Verif.Weak.Queue.C74_told",
    "Verif.Weak.Queue.C74_release_needed",
    "Verif.Weak.Queue.C74_acquire_needed"
   ],
   "note": "Any number of threads, loads may return any message not older than what the thread knows. C17 (linearizability) is for sequentially consistent memory; C74_stale_empty shows that under weak memory a dequeue can miss an element whose enqueue has returned, if nothing told the thread. Nodes are not freed (reclamation is C17)."
  },
  {
   "property": "C75",
   "status": "proved",
   "theorems": [
    "Verif.Weak.Deltas.C75_never_empty",
    "Verif.Weak.Deltas.C75_no_race",
    "Verif.Weak.Deltas.C75_counted",
    "Verif.Weak.Deltas.C75_none_left",
    "Verif.Weak.Deltas.C75_release_needed",
    "Verif.Weak.Deltas.C75_acquire_needed"
   ],
   "note": "The queue of C74 with the counter, tasks, the channel and the driver's lock; any number of threads. Writes of batches do not fail here; with failures, under sequential consistency, C14."
  },
  {
   "property": "C76",
   "status": "proved",
   "theorems": [
    "Verif.Weak.Index.C76_no_race",
    "Verif.Weak.Index.C76_answer",
    "Verif.Weak.Index.C76_once",
    "Verif.Weak.Index.C76_call",
    "Verif.Weak.Index.C76_sync",
    "Verif.Weak.Index.C76_happens_before",
    "Verif.Weak.Index.C76_stale",
    "Verif.Weak.Index.C76_orderings_needed",
    "Verif.Weak.Index.C76_or_needed",
    "Verif.Weak.Index.prog_sc"
   ],
   "note": "Any number of threads, any hash function, loads may return any word not older than what the thread knows, exchanges act on the newest one. The program is that of C40 (prog_sc). C40 (linearizability in real time) is for sequentially consistent memory; C76_stale shows that under weak memory a lookup can miss an insertion that has returned, if nothing told the thread. Nodes are not freed here (reclamation is C40). The last theorems show that weaker orderings fail."
  },
  {
   "property": "C77",
   "status": "partial",
   "theorems": [
    "Verif.Server.C77_query_partial",
    "Verif.Server.C77_answered_partial",
    "Verif.Server.C77_connection_goes_on_partial",
    "Verif.Server.C77_violated"
   ],
   "note": "The code violates the property: dividing a column by the integer 0 and appending to a null list panic; so do six shapes of texts (C21), nullable: null in an ALTER MODEL, reading all rows after a column was added to a model with rows, and altering a model after a forced DROP SPACE whose commit failed. Partial: these are the only exceptions. After every history in which columns are only added to models without rows and the commit of a forced DROP SPACE does not fail, every other query is answered, and its connection goes on. Running out of memory or disk beyond a failing commit is not modelled."
  },
  {
   "property": "C78",
   "status": "partial",
   "theorems": [
    "Verif.Batch.Many.C78_durable_partial",
    "Verif.Batch.Many.C78_never_fails_partial",
    "Verif.Batch.Many.C78_with_select_all_partial",
    "Verif.Batch.Many.C78_never_fails_with_select_all_partial",
    "Verif.Batch.Many.C78_violated"
   ],
   "note": "The code violates the property: an INSERT and a DELETE (or an UPDATE and a DELETE) of one key at the same time can leave a row that the restart drops, or the other way round (C11, C13). Partial: no two statements are open at the same time of which one deletes the row that the other inserts or updates (all others may overlap, on the same rows too); the version counter is ahead of the rows after each restart (without this C11_version_regress_violated); the conditions of C31 and C32 for each statement; columns are not altered. SELECT ALLs may be among the statements, and what they show is C57."
  },
  {
   "property": "C79",
   "status": "proved",
   "theorems": [
    "Verif.Dml.Par.C79_no_deadlock",
    "Verif.Dml.Par.C79_all_answered",
    "Verif.Dml.Par.C79_own_steps",
    "Verif.Batch.Many.C79_batch_goes_on"
   ],
   "note": "Any statements, SELECT ALL included, any number of clients. A lock is granted when it is free; that a waiting client is passed over again and again by later ones (fairness of parking_lot) is not modelled. Columns are not altered."
  },
  {
   "property": "C80",
   "status": "partial",
   "theorems": [
    "Verif.Weak.Lazy.C80_once",
    "Verif.Weak.Lazy.C80_goes_on",
    "Verif.Weak.Lazy.C80_four_steps",
    "Verif.Weak.Lazy.C80_drop_partial",
    "Verif.Weak.Lazy.C80_orderings",
    "Verif.Weak.Lazy.C80_leak_violated",
    "Verif.Weak.Lazy.C80_panic_blocks",
    "Verif.Weak.Lazy.C80_panic_blocks_violated"
   ],
   "note": "The code violates the last two parts: when the initialiser panics the flag stays set and every thread that waits for it waits for ever (C80_panic_blocks), and a value whose type has nothing to drop is never given back (C80_leak_violated). All else holds for any number of threads and is proved for exactly those memory orderings that are needed (C80_orderings). Partial: drop for types that have something to drop; waiting without panics. Only the in-memory file systems of the tests use Lazy."
  },
  {
   "property": "C81",
   "status": "partial",
   "theorems": [
    "Verif.Server.C81_failed_start_violated",
    "Verif.Server.C81_data_file_violated",
    "Verif.Server.C81_missing_file_violated",
    "Verif.Server.C81_first_start_violated",
    "Verif.Server.C81_log_refused_partial",
    "Verif.Server.C81_after_loading_partial"
   ],
   "note": "The code violates the property: a start that fails at a data file leaves the log of the catalogue (and the data files opened before) without a closing event, so that every later start refuses it, also when the missing file is put back; an interrupted first start cannot be repeated. Partial: a start that fails while reading the log of the catalogue changes nothing, and one that fails after loading closes the files, so that the next start finds the same models and rows."
  },
  {
   "property": "C82",
   "status": "partial",
   "theorems": [
    "Verif.Server.C82_clients_partial",
    "Verif.Server.C82_tables_partial",
    "Verif.Server.C82_goes_on_partial",
    "Verif.Server.C82_life",
    "Verif.Server.C82_pieces_violated"
   ],
   "note": "The code violates the property: what is executed depends on the pieces in which bytes arrive (C82_pieces_violated, as C65). Partial: clients that wait for each reply; no ALTER MODEL, no nullable primary key, UPDATEs of distinct columns with values of their types (the parts of C31, C32, C35, C12 that the code gets wrong); one query is one step; a shutdown falls between two steps; until a file or a counter is full or a client sends the handshake of C25."
  },
  {
   "property": "C83",
   "status": "partial",
   "theorems": [
    "Verif.Journal.C83_damage_is_noticed",
    "Verif.Server.Damage.C83_catalogue_partial",
    "Verif.Server.Damage.C83_data_file_partial",
    "Verif.Server.Damage.C83_catalogue_length_violated",
    "Verif.Server.Damage.C83_catalogue_kind_violated",
    "Verif.Server.Damage.C83_text_length_violated",
    "Verif.Server.Damage.C83_key_tag_violated",
    "Verif.Server.Damage.C83_version_violated"
   ],
   "note": "The code violates the property: five changes of a single bit are shown on which the start panics (or, for the tag of the key, runs into undefined behaviour) instead of reporting an error, because lengths are used for allocations and events are applied before the checksum is compared. Partial: for every history of the catalogue (C09) and every life of a model (C11), no file in which up to eight consecutive bytes after the header were changed is accepted. That damage within the payload of an event gives an error is C04."
  },
  {
   "property": "C84",
   "status": "partial",
   "theorems": [
    "Verif.Mem.NameHash.C84_single_byte",
    "Verif.Mem.NameHash.C84_one_word",
    "Verif.Mem.NameHash.C84_streams",
    "Verif.Mem.NameHash.C84_hashed",
    "Verif.Mem.NameHash.C84_new",
    "Verif.Mem.NameHash.C84_drop",
    "Verif.Mem.NameHash.C84_find",
    "Verif.Mem.NameHash.C84_borrow_partial",
    "Verif.Mem.NameHash.C84_flood_violated",
    "Verif.Mem.NameHash.C84_borrow_order_violated"
   ],
   "note": "Violated: the hasher of column names has no seed, so that names can be chosen that collide, 1024 of them are given; and the borrowed key is right only if the compiler orders the fields of two structures alike, which the language does not promise. Lookups, equality, hashing of pairs and the memory of keys are proved for every name and every hash function."
  },
  {
   "property": "C85",
   "status": "partial",
   "theorems": [
    "Verif.Old.Backup.C85_nothing_is_lost",
    "Verif.Old.Backup.C85_backup_is_complete",
    "Verif.Old.Backup.C85_sys_is_last",
    "Verif.Old.Backup.C85_other_device_violated"
   ],
   "note": "the first three are complete for trees on one device; what is violated: if a rename fails (the first file on another device than the backup directory), what was moved before is not moved back, and every later start fails because the files of some models are missing"
  },
  {
   "property": "C86",
   "status": "partial",
   "theorems": [
    "Verif.Batch.C86_crash_is_refused_violated",
    "Verif.Batch.C86_no_prefix_violated",
    "Verif.Batch.C86_rows_are_in_the_file_partial",
    "Verif.Batch.C86_last_batch_partial"
   ],
   "note": "The code violates the property: a data file whose server was killed is refused by the next start, wherever it was killed; and a batch leaves out rows that were changed again since it was ordered, so that what is in the file need not be the state after any prefix of the statements. Partial: with the 64 bytes of a clean shutdown added at the end of the last complete batch the file opens, every row without pending changes is as the acknowledged statements left it, and if the last batch took everything, the rows are exactly those at that time."
  },
  {
   "property": "C87",
   "status": "partial",
   "theorems": [
    "Verif.Net.Writer.C87_replies",
    "Verif.Net.Writer.C87_client",
    "Verif.Net.Writer.C87_progress",
    "Verif.Net.Writer.C87_cut_violated",
    "Verif.Net.Writer.C87_orphan_violated"
   ],
   "note": "The code violates the property when it is stopped: the task of a connection is dropped where it waits, so an executed statement may be answered with any beginning of its answer or nothing, and a statement on the blocking pool is executed after its connection was ended. Proved without restriction: all answers but the last one are whole and in order, what is cut is not taken for an answer, nothing is left in the buffer between statements, and sending comes to its end."
  },
  {
   "property": "C88",
   "status": "proved",
   "theorems": [
    "Verif.Trie.Conc.C88_bounded",
    "Verif.Trie.Conc.C88_done",
    "Verif.Trie.Conc.C88_lookup"
   ],
   "note": "On the trie with one step per atomic access (the model of C40): alone, every operation returns within 19755 accesses from every reachable state; a lookup returns with its 19th access at the latest under every schedule. The bounds are those of a trie of 16 levels with 16 pointers each and are not sharp. Sequentially consistent memory; the lists of keys with the same hash are searched in one step; allocation and the epochs do not wait in the model. An insertion can be kept from returning by others that go on (example `teased`); that some thread always makes progress is not shown."
  },
  {
   "property": "C89",
   "status": "partial",
   "theorems": [
    "Verif.Diag.C89_start_partial",
    "Verif.Diag.C89_up",
    "Verif.Diag.C89_origin_violated",
    "Verif.Diag.C89_dropped_violated",
    "Verif.Diag.C89_repaired_violated",
    "Verif.Diag.C89_stale_violated",
    "Verif.Diag.wrap_kind",
    "Verif.Diag.wrap_sets",
    "Verif.Diag.into_io_twice"
   ],
   "note": "The code violates the property: errors in binding a port, in TLS and in reading the configuration do not tell the part of the server; an error of storage that is made and thrown away takes the context with it, so a dictionary with a name that is not UTF-8 is reported without a step, and after an old log was repaired errors do not tell their part; the thread that loaded the data keeps its context, and a failing statement on it is reported as if a model was being loaded. C89_start_partial shows that otherwise every error that ends the start tells its step, for every configuration and contents of the disk. Steps are taken as they end (with which error, and which errors were dropped)."
  },
  {
   "property": "C90",
   "status": "partial",
   "theorems": [
    "Verif.Bench.Report.C90_settings",
    "Verif.Bench.Report.C90_keys",
    "Verif.Bench.Report.C90_extremes",
    "Verif.Bench.Report.C90_time_partial",
    "Verif.Bench.Report.C90_time_violated",
    "Verif.Bench.Report.C90_number"
   ],
   "note": "The code violates the property: the end of a worker is computed as its start plus the sum of the times of its queries, so the time in which it prepares queries, checks answers or waits for the processor is not part of the time that is reported, and the queries per second are too high by any factor (C90_time_violated). C90_time_partial shows that the time is never too long, and too short by no more than the pauses of a worker. Settings, keys, extremes and the number of queries are proved. The decimal logarithm of the floating point unit is a parameter (it must not be rounded below an integer); the division is not modelled."
  },
  {
   "property": "C91",
   "status": "partial",
   "theorems": [
    "Verif.Vfs.C91_partial",
    "Verif.Vfs.C91_rename_violated",
    "Verif.Vfs.C91_seek_violated",
    "Verif.Vfs.C91_truncate_violated",
    "Verif.Vfs.C91_create_all_violated",
    "Verif.Vfs.C91_two_violated",
    "Verif.Vfs.C91_close_violated",
    "Verif.Vfs.C91_buffered_violated"
   ],
   "note": "The code violates the property: renaming a file waits for a lock that the thread holds; descriptors of one file share a position and are closed together; a descriptor of a removed file panics when it is dropped; positions behind the end are refused; cutting a file moves the position; create_dir_all fails for a directory that exists; buffered readers have no buffer, so setting the position back works in tests only. C91_partial shows that programs without these operations get the answers of a real file system. Paths are given by their components; one thread; contents of files that are removed while open are not described."
  },
  {
   "property": "C92",
   "status": "partial",
   "theorems": [
    "Verif.Fractal.Limit.C92_rule",
    "Verif.Fractal.Limit.C92_partial",
    "Verif.Fractal.Limit.C92_size",
    "Verif.Fractal.Limit.C92_models_violated",
    "Verif.Fractal.Limit.C92_backlog_violated"
   ],
   "note": "Holds for the changes that were not given to a task, as long as there are not more models than at the start, and for all changes when the tasks are done, under every interleaving; batches have the size of the limit if statements come one after the other. Not in general: models that are created after the start each get the whole share, and statements do not wait for tasks, so that with a slow disk any number of changes is in memory. The rule about five percent of the rows has no effect (C92_rule). The limit is computed exactly and not with floating point numbers."
  },
  {
   "property": "C93",
   "status": "partial",
   "theorems": [
    "Verif.Enc.Tags.C93_max",
    "Verif.Enc.Tags.C93_gaps",
    "Verif.Enc.Tags.C93_partial",
    "Verif.Enc.Tags.C93_selector",
    "Verif.Enc.Tags.C93_small",
    "Verif.Enc.Tags.C93_count",
    "Verif.Enc.Tags.C93_others",
    "Verif.Enc.Tags.C93_key_violated",
    "Verif.Enc.Tags.C93_illegal_violated",
    "Verif.Enc.Tags.C93_meta_violated"
   ],
   "note": "Holds in all places but three. The derived conversion is right exactly if the numbers have no gaps (C93_gaps). Violated for the type of the primary key in batches of both formats, which has a gap from 4 to 254 (undefined behaviour), and where Illegal is accepted too; and for the kinds of records of the journals, which are cut to a byte before they are looked at, so that 256 and its multiples mean existing kinds."
  },
  {
   "property": "C94",
   "status": "partial",
   "theorems": [
    "Verif.Fractal.Periodic.C94_partial",
    "Verif.Fractal.Periodic.C94_in_turn",
    "Verif.Fractal.Periodic.C94_gone_violated",
    "Verif.Fractal.Periodic.C94_busy_violated",
    "Verif.Fractal.Periodic.C94_stop_violated"
   ],
   "note": "Holds without tasks; in general the time is at most a window for each write and each task that was posted, and half a minute for each removal that failed (C94_partial), and tasks are tried in order. Violated: a removal that fails forever keeps the timer from ever firing again and is never given up, which one error of the disk between DROP MODEL and DROP SPACE is enough for; tasks that succeed but come more often than the window do the same; and tasks that wait when the server is stopped are lost. Removing and writing take no time in the model."
  },
  {
   "property": "C95",
   "status": "partial",
   "theorems": [
    "Verif.Fractal.Urgent.C95_partial",
    "Verif.Fractal.Urgent.C95_in_turn",
    "Verif.Fractal.Urgent.C95_ends_partial",
    "Verif.Fractal.Urgent.C95_pause_violated",
    "Verif.Fractal.Urgent.C95_others_violated",
    "Verif.Fractal.Urgent.C95_stop_violated",
    "Verif.Fractal.Urgent.C95_torn_violated"
   ],
   "note": "Holds without errors, and tasks are always tried in order; the time is at most that of the attempts and half a minute for each failure, and after the signal the service ends if the disk works and no file has a part of a record. Violated: repairs are posted with the full threshold and tried without any pause; the pause after a failed batch stops the service for all models; and after one batch of which a part was written the repair can never succeed and is posted again without end, so that the service, and with it the server, does not end after the signal. All attempts take the same time in the model; models are not dropped, and only this service marks models."
  }
 ]
}