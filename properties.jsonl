{"id": "C01", "title": "Clean restart replays exactly the acknowledged DDL log", "statement": "After any number of sessions, each of which opens the catalogue journal, commits any list of events and shuts down cleanly, the next start reads back exactly the events that were acknowledged, each once and in commit order, and leaves the journal in a state from which the next session continues.", "quantifier": "every number of sessions, every list of events per session, every payload", "why_tests_cant": "A test fixes a handful of sessions and payloads; the chain of transaction ids, offsets and checksums that links sessions has to hold for every history.", "anchors": ["server/src/engine/storage/v2/raw/journal/raw/mod.rs: RawJournalWriter, RawJournalReader::scroll, DriverEvent", "server/src/engine/storage/v2/raw/journal/mod.rs: EventLogDriver"]}
{"id": "C02", "title": "Acknowledged DDL survives a crash", "statement": "If the server acknowledged a DDL statement (its journal entry was written and fsynced) and the process then dies at any point, the next start recovers every acknowledged statement.", "quantifier": "every history and every crash point after an acknowledgement", "why_tests_cant": "Crash points are unbounded in number and cannot be enumerated by unit tests.", "anchors": ["server/src/engine/storage/v2/raw/journal/raw/mod.rs: RawJournalReader::scroll, handle_close", "server/src/engine/storage/v2/impls/gns_log.rs"]}
{"id": "C03", "title": "A truncated journal is never silently accepted", "statement": "If the tail of a journal file is lost, opening it reports an error rather than silently coming up with fewer events, unless what is left is exactly what the file was after an earlier clean shutdown.", "quantifier": "every journal and every truncation point", "why_tests_cant": "There are as many truncation points as bytes in every possible journal.", "anchors": ["server/src/engine/storage/v2/raw/journal/raw/mod.rs: RawJournalReader"]}
{"id": "C04", "title": "Corruption of a stored DDL payload is detected", "statement": "If stored bytes of an event payload are damaged within any window of up to eight consecutive bytes, opening the journal reports an error instead of applying a wrong event.", "quantifier": "every payload, every window position and every damage pattern inside the window", "why_tests_cant": "2^64 damage patterns per position; only an algebraic argument about the checksum covers them.", "anchors": ["server/src/engine/storage/common/checksum.rs: SCrc64", "server/src/engine/storage/v2/raw/journal/mod.rs: EventLogDriver::decode_apply"]}
{"id": "C05", "title": "A failed write does not poison the journal", "statement": "If one journal write fails, the error is reported, the driver recovers and later writes are acknowledged, then every acknowledged event is readable on the next start.", "quantifier": "every history of successful and failed commits followed by a successful recovery check", "why_tests_cant": "Needs fault injection at each write of each history.", "anchors": ["server/src/engine/storage/v2/raw/journal/raw/mod.rs: txn_context, __lwt_heartbeat", "server/src/engine/fractal/mgr.rs"]}
{"id": "C06", "title": "Stored values read back unchanged", "statement": "Any value that can be stored (null, booleans, every integer and float width, binary, string, arbitrarily nested lists) is read back from its on-disk form as the same value and consumes exactly its own bytes.", "quantifier": "every value of every type, any nesting depth and size", "why_tests_cant": "Unbounded nesting and sizes.", "anchors": ["server/src/engine/storage/common_encoding/r1/obj.rs: cell::encode_cell, cell::decode_element"]}
{"id": "C07", "title": "Stored property dictionaries read back unchanged", "statement": "Any space property dictionary, nested to any depth, is read back from its on-disk form as the same dictionary.", "quantifier": "every dictionary with distinct keys, any nesting depth", "why_tests_cant": "Recursive structure of unbounded depth.", "anchors": ["server/src/engine/storage/common_encoding/r1/map.rs: PersistMapImpl, GenericDictSpec"]}
{"id": "C08", "title": "Stored catalogue events read back unchanged", "statement": "Each of the eleven catalogue events (create/alter/drop space, create/alter/drop model, create/alter/drop user) is read back from its journal payload as the same event, with no byte left over.", "quantifier": "every event with any names, identifiers, fields and properties", "why_tests_cant": "Unbounded names, field lists and dictionaries.", "anchors": ["server/src/engine/storage/common_encoding/r1/impls/gns/mod.rs", "server/src/engine/storage/common_encoding/r1/impls/gns/space.rs", "server/src/engine/storage/common_encoding/r1/impls/gns/model.rs", "server/src/engine/storage/common_encoding/r2.rs"]}
{"id": "C09", "title": "Restart rebuilds the live catalogue", "statement": "For every history of DDL and user statements, the catalogue rebuilt by replaying the journal equals the catalogue that was live before the restart.", "quantifier": "every sequence of DDL statements", "why_tests_cant": "Statement sequences are unbounded and the live path and the replay path are different code.", "anchors": ["server/src/engine/core/space.rs", "server/src/engine/core/model/mod.rs", "server/src/engine/core/dcl.rs", "server/src/engine/storage/common_encoding/r1/impls/gns/space.rs: update_global_state"]}
{"id": "C10", "title": "Storage file headers identify the file", "statement": "A file header written by this server is accepted on reopen with the same class and kind, and a header whose magic, versions, class or kind differ is rejected.", "quantifier": "every header value and every 64-byte block", "why_tests_cant": "2^512 possible header blocks.", "anchors": ["server/src/engine/storage/common/sdss/impls/sdss_r1/mod.rs: HeaderV1", "server/src/engine/storage/v2/raw/spec.rs"]}
{"id": "C11", "title": "Rows persisted in a batch come back after a restart", "statement": "For a model whose columns have not changed, writing any batch of inserted, updated and deleted rows and restarting yields exactly the rows that were live.", "quantifier": "every batch, any number of rows and columns, any values", "why_tests_cant": "Unbounded batches.", "anchors": ["server/src/engine/storage/v2/impls/mdl_journal.rs: BatchWriter, BatchAdapter"]}
{"id": "C12", "title": "Rows keep their column values across ALTER and restart", "statement": "If columns were added, removed or updated after a batch was persisted, then after a restart every row has, for each surviving column, the value it had before the restart.", "quantifier": "every schema history and every batch history", "why_tests_cant": "Interleavings of schema changes and batches are unbounded.", "anchors": ["server/src/engine/storage/v2/impls/mdl_journal.rs: BatchAdapterSpec::finish", "server/src/engine/core/index/row.rs: resolve_schema_deltas_and_freeze"]}
{"id": "C13", "title": "Deleted rows stay deleted after a restart", "statement": "A row whose deletion was acknowledged, and whose key was not inserted again, does not exist after a restart.", "quantifier": "every history of inserts, updates and deletes and every way it is cut into batches", "why_tests_cant": "Batch boundaries and operation order vary without bound.", "anchors": ["server/src/engine/storage/v2/impls/mdl_journal.rs: BatchAdapterSpec::finish", "server/src/engine/core/dml/del.rs: delete"]}
{"id": "C14", "title": "No acknowledged row change is lost by the batch writer", "statement": "Every row change that was queued is either in a persisted batch or still queued, exactly once, whatever write errors occur; the queue length counter always equals the number of queued changes and the writer never aborts.", "quantifier": "every history of enqueues, batch writes and write failures at any row", "why_tests_cant": "Failures can happen at any byte of any batch.", "anchors": ["server/src/engine/storage/v2/impls/mdl_journal.rs: BatchWriter::write_batch", "server/src/engine/core/model/delta.rs: DataDelta, append_new_data_delta", "server/src/engine/fractal/mgr.rs: try_write_model_data_batch"]}
{"id": "C15", "title": "The primary index is a map", "statement": "For any hash function (including one where all keys collide), after any sequence of inserts, upserts, updates and deletes, lookups, iteration and the element count agree with a mathematical finite map.", "quantifier": "every hash function, every operation sequence", "why_tests_cant": "Hash collisions up to full depth and operation sequences are unbounded.", "anchors": ["server/src/engine/idx/mtchm/mod.rs: RawTree::patch, _lookup, _remove, compress", "server/src/engine/idx/mtchm/iter.rs"]}
{"id": "C16", "title": "The ordered index is a map that keeps declaration order", "statement": "After any sequence of inserts, updates, upserts and removals the column index agrees with a finite map, and iterating it yields each entry once in the order in which the columns were declared.", "quantifier": "every operation sequence", "why_tests_cant": "Linked-list surgery has to be right for every sequence.", "anchors": ["server/src/engine/idx/stord/mod.rs: IndexSTSeqDll"]}
{"id": "C17", "title": "The pending-change queue is FIFO under concurrency", "statement": "Under every interleaving of any number of threads enqueueing and dequeueing, elements leave in the order in which they entered, none is lost, none is duplicated, and an empty answer is only given when the queue was empty at some instant during the call.", "quantifier": "every number of threads, every schedule", "why_tests_cant": "Schedules are unbounded and rare races do not show up in tests.", "anchors": ["server/src/engine/sync/queue.rs: Queue::blocking_enqueue, blocking_try_dequeue"]}
{"id": "C18", "title": "Keywords and symbols are recognised exactly", "statement": "A word is a keyword exactly if it equals one of the listed keywords up to ASCII case, and then it is that keyword; a byte is a symbol exactly if it is listed, and then it is that symbol.", "quantifier": "every byte string, every byte", "why_tests_cant": "Perfect-hash lookup over an infinite set of words.", "anchors": ["server/src/engine/ql/lex/raw.rs: Keyword::get, Symbol::get"]}
{"id": "C19", "title": "Query parameters cannot change the structure of a query", "statement": "Whatever bytes are sent as parameters, lexing a parameterised query gives the same tokens as lexing the query text, with the question marks replaced, from left to right, by exactly one literal or null token each, as long as parameters remain; otherwise it is an error.", "quantifier": "every query text, every parameter byte string", "why_tests_cant": "Injection safety is a statement about all byte strings.", "anchors": ["server/src/engine/ql/lex/mod.rs: SecureLexer::_lex, SCAN_PARAM"]}
{"id": "C20", "title": "Well-formed parameters arrive unchanged", "statement": "Every list of parameter values encoded the way the protocol prescribes is received by the lexer as the same list of literal values.", "quantifier": "every list of null, bool, uint, sint, binary and string values", "why_tests_cant": "Unbounded value lists and sizes.", "anchors": ["server/src/engine/ql/lex/mod.rs: SCAN_PARAM", "server/src/engine/mem/scanner.rs: Scanner"]}
{"id": "C21", "title": "No query can crash the parser", "statement": "For every query text and parameter bytes, lexing and parsing return a statement or an error; they never index out of bounds, never reach an unreachable-unchecked branch, and never accept a statement that is cut off.", "quantifier": "every token sequence", "why_tests_cant": "Token sequences are unbounded.", "anchors": ["server/src/engine/ql/ast/mod.rs: State", "server/src/engine/ql/dml", "server/src/engine/ql/ddl", "server/src/engine/ql/dcl.rs"]}
{"id": "C22", "title": "Query packets are received however the network splits them", "statement": "Every well-formed query packet is delivered to the executor as the same query and parameters, for every way in which the network splits its bytes into reads.", "quantifier": "every packet, every split into non-empty reads", "why_tests_cant": "Exponentially many splits of unboundedly long packets.", "anchors": ["server/src/engine/net/protocol/exchange.rs: QExchangeState::resume", "server/src/engine/net/protocol/mod.rs: query_loop, scan_int"]}
{"id": "C23", "title": "Malformed query packets are answered with an error", "statement": "Whatever bytes a client sends, the connection ends up with an error reply or a parsed query once the announced bytes have arrived: no arithmetic underflow, no out-of-range slice, no connection that can never make progress.", "quantifier": "every byte stream", "why_tests_cant": "All byte strings.", "anchors": ["server/src/engine/net/protocol/exchange.rs: resume_data, SQuery::query"]}
{"id": "C24", "title": "Handshakes are received however the network splits them", "statement": "Every well-formed client handshake is received with the same user name and password for every way in which the network splits it.", "quantifier": "every user name and password, every split into non-empty reads", "why_tests_cant": "Exponentially many splits.", "anchors": ["server/src/engine/net/protocol/handshake.rs: CHandshake::resume_with", "server/src/engine/net/protocol/mod.rs: do_handshake"]}
{"id": "C25", "title": "Malformed handshakes are rejected cleanly before authentication", "statement": "Whatever bytes an unauthenticated client sends as a handshake, the server answers with one of the protocol errors: no panic and no read outside the received bytes.", "quantifier": "every byte stream", "why_tests_cant": "All byte strings, including lengths close to 2^64.", "anchors": ["server/src/engine/net/protocol/handshake.rs: resume_initial, resume_at_variable_block_payload"]}
{"id": "C26", "title": "Rows sent to the client can be decoded unambiguously", "statement": "The reply bytes of a row or of a multi-row result determine the values: a client that follows the protocol reads back exactly the values selected, and nothing of the next value.", "quantifier": "every list of rows of values, any nesting", "why_tests_cant": "Unbounded values.", "anchors": ["server/src/engine/core/dml/mod.rs", "server/src/engine/core/dml/sel.rs: encode_cell"]}
{"id": "C27", "title": "Integers are printed and parsed exactly", "statement": "The decimal form that the server prints for any 64-bit signed or unsigned integer is the standard one, and the scanner reads it back as the same integer; out-of-range digit strings are rejected.", "quantifier": "every 64-bit integer, every digit string", "why_tests_cant": "2^64 values.", "anchors": ["server/src/engine/mem/numbuf.rs: Int::init", "server/src/engine/mem/scanner.rs: try_next_ascii_u64_stop_at, try_next_ascii_i64_stop_at"]}
{"id": "C28", "title": "Only root changes the catalogue or the users", "statement": "For every statement and session, a session that is not root never changes spaces, models or users; the statement is answered with a permission error or a syntax error.", "quantifier": "every statement, every catalogue, every session", "why_tests_cant": "All statements times all states.", "anchors": ["server/src/engine/core/exec.rs: run_blocking_stmt", "server/src/engine/core/dcl.rs: exec", "server/src/engine/ql/dcl.rs: SysctlCommand::needs_root"]}
{"id": "C29", "title": "The root account cannot be lost", "statement": "After any sequence of user-management statements the root account exists, its password is the one it started with, and only the right password logs a user in.", "quantifier": "every sequence of user statements by any users", "why_tests_cant": "Unbounded sequences.", "anchors": ["server/src/engine/core/dcl.rs", "server/src/engine/core/system_db.rs: SystemDatabase"]}
{"id": "C30", "title": "Only values of the declared type are stored", "statement": "INSERT stores a value in a column exactly if the value is null and the column is nullable, or the value has the column's declared type, is in range, and, for lists, every element at every depth does.", "quantifier": "every column type (any list nesting), every value", "why_tests_cant": "Unbounded nesting and ranges.", "anchors": ["server/src/engine/core/model/mod.rs: Field::vt_data_fpath, Field::validate_data_recursive", "server/src/engine/core/dml/ins.rs: prepare_insert"]}
{"id": "C31", "title": "Rows behave like a table keyed by primary key", "statement": "For a model whose columns do not change, any sequence of INSERT, UPDATE, DELETE and SELECT statements gives the replies and the final content of a mathematical map from primary keys to rows; a failed statement changes nothing.", "quantifier": "every sequence of statements", "why_tests_cant": "Unbounded sequences.", "anchors": ["server/src/engine/core/dml/ins.rs", "server/src/engine/core/dml/upd.rs", "server/src/engine/core/dml/del.rs", "server/src/engine/core/dml/sel.rs"]}
{"id": "C32", "title": "UPDATE keeps values in range and is all-or-nothing", "statement": "An UPDATE that is acknowledged leaves every column holding a value of its declared type equal to the mathematical result of the operation; otherwise it is an error and the row is unchanged.", "quantifier": "every row, every list of assignments", "why_tests_cant": "All operand values.", "anchors": ["server/src/engine/core/dml/upd.rs: OPERATOR, update"]}
{"id": "C33", "title": "Old rows see later columns", "statement": "After any sequence of ALTER MODEL ADD/REMOVE, a row inserted earlier reads as having exactly the current columns: null for columns added since and nothing for columns removed since.", "quantifier": "every interleaving of inserts and schema changes", "why_tests_cant": "Unbounded interleavings.", "anchors": ["server/src/engine/core/model/delta.rs: DeltaState::resolve_iter_since", "server/src/engine/core/index/row.rs", "server/src/engine/core/dml/sel.rs"]}
{"id": "C34", "title": "A column update that needs no lock keeps old values valid", "statement": "ALTER MODEL UPDATE is accepted only if every value that was valid in the column is still valid under the new declaration.", "quantifier": "every pair of column declarations, every value", "why_tests_cant": "Unbounded types and values.", "anchors": ["server/src/engine/core/model/alt.rs: AlterPlan::fdeltas, ldeltas"]}
{"id": "C35", "title": "The catalogue stays consistent", "statement": "After any sequence of DDL statements, with journal failures at any point, every model belongs to an existing space that lists it, every listed model exists, every model has exactly one non-null primary key column of a permitted type, and no statement aborts the server.", "quantifier": "every sequence of DDL statements with any journal outcome", "why_tests_cant": "Unbounded sequences and failure points.", "anchors": ["server/src/engine/core/space.rs", "server/src/engine/core/model/mod.rs", "server/src/engine/core/model/alt.rs", "server/src/engine/core/mod.rs"]}
{"id": "C36", "title": "Schema statements cannot deadlock each other", "statement": "Whatever statements are executed concurrently by any number of clients, as long as some statement is running, some thread can make progress on the catalogue locks.", "quantifier": "every number of threads and every schedule", "why_tests_cant": "Deadlocks depend on schedules that tests do not control.", "anchors": ["server/src/engine/core/mod.rs: ddl_with_all_mut, with_model_space_mut_for_ddl"]}
{"id": "C37", "title": "The reported health matches the drivers", "statement": "The status shown to clients is good exactly if no storage driver is in a failed state, after any sequence of faults, recoveries and model drops.", "quantifier": "every event sequence", "why_tests_cant": "Unbounded sequences.", "anchors": ["server/src/engine/fractal/mod.rs", "server/src/engine/fractal/mgr.rs", "server/src/engine/fractal/drivers.rs"]}
{"id": "C38", "title": "ALTER SPACE changes exactly the requested properties", "statement": "After ALTER SPACE the property dictionary is the old one with every requested entry set, every entry set to null removed, nested dictionaries merged likewise, and everything else untouched; a type-changing request is rejected and changes nothing.", "quantifier": "every pair of dictionaries, any nesting", "why_tests_cant": "Unbounded recursion.", "anchors": ["server/src/engine/data/dict.rs: rprepare_metadata_patch, rmerge_data_with_patch", "server/src/engine/core/space.rs: transactional_exec_alter"]}
{"id": "C39", "title": "Declared types are recognised exactly", "statement": "A type name in a column declaration is accepted exactly if it is one of the fourteen documented names; a nested declaration is accepted exactly if all but the innermost layer are lists.", "quantifier": "every byte string, every layer list", "why_tests_cant": "Perfect hash over all strings.", "anchors": ["server/src/engine/core/model/mod.rs: Layer::get_layer, Field::parse_layers"]}
{"id": "C40", "title": "Concurrent use of the primary index is linearizable", "statement": "Under every interleaving of any number of threads, each lookup, insert, update and delete of the primary index takes effect atomically at some instant during its call.", "quantifier": "every number of threads, every schedule", "why_tests_cant": "Schedules are unbounded.", "anchors": ["server/src/engine/idx/mtchm/mod.rs: RawTree"]}
{"id": "C41", "title": "Buffered log writes reach the file in order, exactly once", "statement": "A log write that is acknowledged leaves in the file exactly the bytes written, in order and once, whatever part of each write the operating system accepts at a time.", "quantifier": "every sequence of writes of any sizes, every behaviour of the write system call", "why_tests_cant": "Partial writes by the operating system cannot be provoked by unit tests.", "anchors": ["server/src/engine/storage/common/interface/fs.rs: FileWrite::fwrite_all_count", "server/src/engine/storage/common/sdss/impls/sdss_r1/rw.rs: TrackedWriter"]}
{"id": "C42", "title": "Query text is split into words and symbols exactly", "statement": "A query text is read as exactly the words and symbols that it spells: blanks, tabs and line feeds separate, a word extends as far as possible and is a keyword, a Boolean or a name, every other byte is a symbol; a text that spells no tokens is refused.", "quantifier": "every byte string", "why_tests_cant": "Texts are unbounded and every byte value matters.", "anchors": ["server/src/engine/ql/lex/mod.rs: SecureLexer::_lex, scan_ident_or_keyword, trim_ahead"]}
{"id": "C43", "title": "Missing or repeated records of the catalogue log are detected", "statement": "If records of acknowledged changes disappear from the middle of the log file or occur twice, the next start reports corruption instead of silently skipping or repeating a change.", "quantifier": "every history, every choice of the missing records, every continuation of the file", "why_tests_cant": "The damage can be at any position of any history.", "anchors": ["server/src/engine/storage/v2/raw/journal/raw/mod.rs: RawJournalReader::_apply_next_event_and_stop"]}
{"id": "C44", "title": "The password of a user can be changed", "statement": "An administrator can change the password of an existing user: after an acknowledged change exactly the new password logs the user in, and for a valid request of an authorised client the change is acknowledged.", "quantifier": "every catalogue, every user, every password, every client", "why_tests_cant": "All clients times all catalogues; that no client at all is authorised cannot be concluded from finitely many refusals.", "anchors": ["server/src/engine/core/dcl.rs: alter_user, exec", "server/src/engine/core/system_db.rs: SystemDatabase::alter_user"]}
{"id": "C45", "title": "Version numbers in file headers identify the release", "statement": "The server version number that is written into file headers identifies the release: different known releases have different numbers, and a text that is not a known release has no number.", "quantifier": "every known release tag, every text", "why_tests_cant": "The number is computed at compile time for one tag only; no test compares the numbers of all releases.", "anchors": ["server/src/engine/storage/common/versions/server_version.rs: fetch_id", "server/src/engine/storage/common/versions/mod.rs"]}
{"id": "C46", "title": "A column that is not nullable never reads as null", "statement": "Whatever statements and schema changes were acknowledged, reading a row never shows null in a column whose current declaration does not permit null.", "quantifier": "every history of statements and schema changes", "why_tests_cant": "Histories are unbounded and mix row statements with schema changes.", "anchors": ["server/src/engine/core/dml/ins.rs", "server/src/engine/core/dml/upd.rs: dc_op_fail", "server/src/engine/core/model/alt.rs: AlterPlan::fdeltas", "server/src/engine/core/index/row.rs: resolve_schema_deltas_and_freeze"]}
{"id": "C47", "title": "The parser accepts exactly the grammar of the query language", "statement": "A list of tokens is accepted as a statement exactly if a grammar, written down independently of the parser, derives it as that statement; no list has two meanings; statements on spaces and models are accepted from root only. Excepted are five listed kinds of statements that are shorter than the minimum lengths in the code, which are refused.", "quantifier": "every list of tokens, every statement, every current space, every user", "why_tests_cant": "The set of token lists and the nesting of dictionaries, types and lists are unbounded; an ambiguous or wrongly accepted query would have to be found among them.", "anchors": ["server/src/engine/ql/ast/mod.rs", "server/src/engine/ql/ddl/syn.rs", "server/src/engine/ql/ddl/crt.rs", "server/src/engine/ql/ddl/alt.rs", "server/src/engine/ql/ddl/drop.rs", "server/src/engine/ql/dcl.rs", "server/src/engine/ql/dml/ins.rs", "server/src/engine/ql/dml/sel.rs", "server/src/engine/ql/dml/upd.rs", "server/src/engine/ql/dml/del.rs", "server/src/engine/core/exec.rs: run, run_blocking, run_nb"]}
{"id": "C48", "title": "INSPECT shows the catalogue", "statement": "Whatever statements were executed before, by whomever: INSPECT GLOBAL, INSPECT SPACE and INSPECT MODEL are answered with valid JSON that has exactly the names of the spaces (and, for root, of the users), exactly the names of the models of the space, and a declaration from which the columns, their order, names, types, the primary key and the nullability can be read, with the number of rows; they change nothing.", "quantifier": "every history of queries from any sessions, every catalogue it leads to, every user", "why_tests_cant": "The texts are put together from names of unbounded number and length; that no name can break the text depends on the lexer, the parser and all statements that create names.", "anchors": ["server/src/engine/core/ddl_misc.rs: inspect", "server/src/engine/core/model/mod.rs: redescribe", "server/src/engine/data/tag.rs: name_str", "server/src/engine/ql/lex/mod.rs", "server/src/engine/core/exec.rs"]}
{"id": "C49", "title": "A query changes only what it names", "statement": "After any query, every space, user, declaration of a model and the rows of every model that the query does not name are exactly what they were before; a query that is not accepted changes nothing. The answer to a query on rows depends on nothing but the declaration and the rows of its model, so queries on different models can be exchanged without any client noticing. A new model has no rows, even if one of the same name existed before.", "quantifier": "every query text with any parameters, every session, every state that queries lead to, every failure of a commit", "why_tests_cant": "Unwanted effects can be anywhere in the state and depend on the whole history; a test looks at the part it expects to change.", "anchors": ["server/src/engine/core/exec.rs", "server/src/engine/core/mod.rs", "server/src/engine/core/space.rs", "server/src/engine/core/model/mod.rs", "server/src/engine/core/model/alt.rs", "server/src/engine/core/dcl.rs", "server/src/engine/core/dml/mod.rs"]}
{"id": "C50", "title": "From query texts to answers, a table is a map", "statement": "Whatever happened before and whatever other queries do meanwhile: the answers that clients get to the texts of their queries on a table, and the content of the table, are those of a map from primary keys to rows.", "quantifier": "every history of query texts with parameters, from any number of sessions of any users", "why_tests_cant": "It joins the lexer, the parser, the catalogue and the execution for histories of any length.", "anchors": ["server/src/engine/core/exec.rs", "server/src/engine/ql/lex/mod.rs", "server/src/engine/ql/dml", "server/src/engine/core/dml", "server/src/engine/core/index/mod.rs"]}
{"id": "C51", "title": "What is typed into the shell is what the server reads", "statement": "The shell skysh takes the literals out of a query that the user types and sends them as parameters. Whatever query of the language is typed, with whole, negative and floating-point numbers, quoted text with escapes and binary data: the server reads exactly the words, symbols and values that were typed, and the shell does not panic.", "quantifier": "every text of the shell's language, every parser of floating-point numbers", "why_tests_cant": "The literals, their number and what stands next to them are unbounded; mistakes show up for particular neighbours only.", "anchors": ["cli/src/query.rs: Parameterizer", "server/src/engine/ql/lex/mod.rs: SecureLexer"]}
{"id": "C52", "title": "The containers of the engine are lists and handle memory correctly", "statement": "Whatever is done with the engine's own containers through their interface (the vector with inline elements, the array of fixed capacity, the vector of fixed capacity on the heap, and the iterators over them): no slot outside of an allocation or without an element is read, elements are those of a list on which the same was done, every element that was put in is handed back or destroyed exactly once, and after the container is dropped all its memory is given back.", "quantifier": "every sequence of operations on every container, every capacity, every way of taking elements from both ends", "why_tests_cant": "Whether the memory is right depends on when a vector moves between its slots and the heap, and undefined behaviour need not show in a test.", "anchors": ["server/src/engine/mem/vinline.rs", "server/src/engine/mem/uarray.rs", "server/src/engine/mem/fixed_vec.rs", "server/src/engine/mem/unsafe_apis.rs", "server/src/engine/mem/astr.rs"]}
{"id": "C53", "title": "A shared row is freed once, after its last use", "statement": "Rows and the key strings of the index are shared between threads through a reference counter. Whatever the threads do at the same time, a row's key and its data are destroyed exactly once, by the thread that gives up the last handle, no thread uses the row or the counter afterwards, and once all handles are gone the memory is given back. The counter always equals the number of handles and cannot wrap around.", "quantifier": "every number of threads and handles, every interleaving of the single atomic steps of cloning, using and dropping", "why_tests_cant": "A use after free needs one particular interleaving of two drops or of a drop and a clone.", "anchors": ["server/src/engine/sync/smart.rs: RawRC, SliceRC", "server/src/engine/core/index/row.rs: Clone, Drop"]}
{"id": "C54", "title": "Column names are not used after they are freed", "statement": "Columns, rows and the list of schema changes of a model refer to column names by raw pointers to memory that the model owns and frees in part when the server starts. No pointer is followed after its name was freed, whatever columns were added and removed before and after a restart, whatever state the stored rows were in, and whatever statements are run.", "quantifier": "every sequence of schema changes, every set of stored rows with any schema versions, every sequence of statements after the start", "why_tests_cant": "Some lists keep dangling pointers for ever; that these are not followed depends on the version numbers of all rows.", "anchors": ["server/src/engine/core/model/mod.rs: ModelPrivate, ModelMutator", "server/src/engine/core/model/delta.rs", "server/src/engine/core/index/row.rs: resolve_schema_deltas_and_freeze", "server/src/engine/storage/v2/mod.rs: restore", "server/src/engine/storage/v2/impls/mdl_journal.rs"]}
{"id": "C55", "title": "The server starts with exactly the settings it is given", "statement": "Settings (root password, endpoints with their TLS files, mode, service window) can be given on the command line, in the environment or in a file. Settings that are valid (the password has at least 16 characters, numbers are in range, files exist, at most one endpoint of each kind) are accepted in each of the three forms and mean the same in each. Nothing else is accepted: unknown, repeated, missing or conflicting options are errors that name the option and the source at fault, no option is silently ignored, and reading the settings never panics.", "quantifier": "every command line, every environment, every content of the file system, every result of the YAML reader", "why_tests_cant": "A setting that is misread silently can open a port without TLS or start with a weak password.", "anchors": ["server/src/engine/config.rs"]}
{"id": "C56", "title": "Restarts of the server cannot be seen by its clients", "statement": "Clients send query texts; from time to time batches are written in the background, and the server is shut down cleanly and started again, rebuilding its catalogue and rows from the bytes of its files. Whenever this happens, the answers to the queries on a table are those of a map from keys to rows to which only the queries were applied, whatever else happens in other tables, and every shutdown and start succeeds until a file is full.", "quantifier": "every life of a server from its installation: every sequence of query texts of any users, batches of any size and restarts, any number of spaces and models, any iteration order of the hash maps", "why_tests_cant": "It joins the lexer, the parser, the catalogue, the execution of queries, the log of the catalogue and the data files, for histories of any length.", "anchors": ["server/src/engine/storage/v2/mod.rs: initialize_new, restore", "server/src/engine/fractal/mod.rs", "server/src/engine/fractal/mgr.rs", "server/src/engine/core/exec.rs", "server/src/engine/storage/v2/impls"]}
{"id": "C57", "title": "Statements on rows at the same time act one after the other", "statement": "Any number of clients send INSERT, UPDATE, DELETE, SELECT and SELECT ALL statements to one model at the same time. What they see can be explained by executing the statements one after the other, each at some instant between its sending and its answer.", "quantifier": "every number of clients, every sequence of statements of each, every interleaving of their steps with each other and with the background service", "why_tests_cant": "The index, the locks of the rows and the latch of the index are separate; that together they act as one table depends on the order in which each statement takes them, and the failures need two statements at particular instants.", "anchors": ["server/src/engine/core/dml", "server/src/engine/core/index/mod.rs", "server/src/engine/core/index/row.rs", "server/src/engine/core/model/delta.rs: append_new_data_delta_with"]}
{"id": "C58", "title": "Upgrading an old installation keeps everything", "statement": "A server that finds the files of the earlier storage format loads them, moves them to a backup directory and writes all spaces, models, rows and users to new files. After the upgrade everything is as it was, and stays so: whatever is done before and after later restarts, the answers to the queries on a model are those of a map from keys to rows that starts with the old rows. If the upgrade is interrupted, the next start does not begin with less.", "quantifier": "every old installation with any spaces, models, rows and users, every later history of queries, batches and restarts, any iteration order of the hash maps, every point at which the upgrade is interrupted", "why_tests_cant": "What is wrong after an upgrade shows only after the next restart, in files that were written in the meantime.", "anchors": ["server/src/engine/storage/mod.rs: load", "server/src/engine/storage/v1/mod.rs: load_gns_prepare_migration", "server/src/engine/storage/v2/mod.rs: recreate", "server/src/engine/storage/v2/impls/mdl_journal.rs: FullModel"]}
{"id": "C59", "title": "The log of an old installation is read back as it was written", "statement": "The catalogue that is loaded from the log of an earlier release is the one in which all its events were carried out in their order. A log that was cut off or damaged is refused instead of being loaded with less, a write that failed and was reversed is left out, and loading the log does not make it unreadable.", "quantifier": "every log of any number of sessions with any events, every place at which it is cut off, every changed byte of a payload, every point at which the reading of the installation is interrupted", "why_tests_cant": "The log is only read once, at the upgrade, and the reader for it is not exercised by a running server; a wrong catalogue would be written to the new files without notice.", "anchors": ["server/src/engine/storage/v1/raw/journal/raw.rs: JournalReader", "server/src/engine/storage/v1/raw/journal/mod.rs: decode_and_update_state", "server/src/engine/storage/v1/raw/rw.rs", "server/src/engine/storage/v1/loader.rs"]}
{"id": "C60", "title": "The data files of an old installation are read back as they were written", "statement": "The rows that are loaded from the data file of a model of an earlier release are those that the changes in its batches leave, each value in its column. A batch whose write failed is left out, a file that was cut off or damaged is refused instead of being loaded with less or crashing the server, and loading a file does not make it unreadable.", "quantifier": "every model, every file with any number of sessions, batches and records, every changed byte, every place at which the file or a write is cut off, every point at which the reading of the installation is interrupted", "why_tests_cant": "The reader goes on after errors where it happens to be; which bytes it then looks at depends on where in a record the error was.", "anchors": ["server/src/engine/storage/v1/raw/batch_jrnl/restore.rs", "server/src/engine/storage/v1/raw/batch_jrnl/persist.rs", "server/src/engine/storage/v1/raw/rw.rs: TrackedReader", "server/src/engine/storage/v1/loader.rs"]}
{"id": "C61", "title": "From the files of an old installation to the answers of the new server", "statement": "A server that is started on the files of an earlier release answers every query as the old installation would have: the spaces, models, users and passwords are those of the old files, and the answers to the queries on a model are those of a map that starts with the rows of its data file. If one of the files cannot be read, nothing is lost: once it is repaired, the next start loads the installation. Damage to a file is noticed.", "quantifier": "every old installation with any log, data files and users, any iteration order of the hash maps, every later history of queries, batches and restarts, every missing or unreadable data file, every changed byte of the file with the users", "why_tests_cant": "The catalogue, the rows and the users come from three readers with their own formats, and the loader writes to the files while it reads them; what is refused once may be unreadable from then on.", "anchors": ["server/src/engine/storage/v1/loader.rs: load_gns", "server/src/engine/storage/v1/mod.rs: load_gns_prepare_migration", "server/src/engine/storage/v1/raw/sysdb.rs: restore", "server/src/engine/storage/v1/raw/spec.rs", "server/src/engine/storage/v2/mod.rs: recreate"]}
{"id": "C62", "title": "The prompt of the shell names the space that the connection uses", "statement": "Whatever lines are typed, and whatever other clients do to the server meanwhile, the prompt of the interactive shell names the space that the queries of the connection refer to, or none if there is none.", "quantifier": "every sequence of lines with any spelling, every state of the server, any changes by other clients between the lines, every outcome of the queries", "why_tests_cant": "The shell finds out which space is used by looking at the text of its own query, while the server parses it; the prompt is what a person relies on before typing DROP.", "anchors": ["cli/src/repl.rs: repl", "cli/src/query.rs", "cli/src/resp.rs: format_response", "server/src/engine/core/dcl.rs", "server/src/engine/core/ddl_misc.rs"]}
{"id": "C63", "title": "What the shell shows determines the answer", "statement": "Two answers of the server that differ by more than the type of a number are shown differently by the shell: a person who reads the screen knows what was answered. This holds for rows, lists, texts, binary data, errors and empty answers, in the interactive shell and with --eval.", "quantifier": "every pair of answers with any values, texts with any characters, nested lists, binary data", "why_tests_cant": "Texts are written between quotes with escapes, rows and lists between brackets with commas; any of these that is ambiguous lets stored data pass for something else.", "anchors": ["cli/src/resp.rs"]}
{"id": "C64", "title": "The shell connects where, and as whom, it was told to", "statement": "The shell starts if and only if its command line, the environment and what is typed describe a connection, and then it connects to that host and port, with TLS and that certificate if asked for, with that user and that password. It never crashes over its settings. A query given on the command line is answered as it would be if it was typed, and the exit code tells if it failed.", "quantifier": "every command line with options in any order and either style, every value of the environment variable, every sequence of keys, every file system, every query and state of the server", "why_tests_cant": "The words of the command line are split at every equals sign and colon, the keys come as events with modifiers, and a query on the command line takes another way than one that is typed.", "anchors": ["cli/src/args.rs", "cli/src/main.rs: run", "libsky/src/lib.rs: parse_args_deny_duplicate, extract_arg"]}
{"id": "C65", "title": "A conversation, from the bytes of the clients to the bytes of the replies", "statement": "Whatever any number of connections send, in any pieces and any order, the state of the server and the bytes that each client receives are those of whole messages in one order: handshakes and queries that the client sent as complete packets. A query is executed only for a connection that announced the name and the password of an account, as this user. Every query is answered with bytes that the client can read, and clients without an account get nothing but a refusal and change nothing.", "quantifier": "every number of connections, every sequence of reads with any bytes in any pieces, every state of the server, every query", "why_tests_cant": "The connection loop, the handshake, the parser, the executors and the encoder of replies each have their own properties; a client only sees all of them together.", "anchors": ["server/src/engine/net/mod.rs: ConnectionHandler", "server/src/engine/net/protocol/mod.rs: query_loop, do_handshake", "server/src/engine/net/protocol/exchange.rs", "server/src/engine/core/exec.rs: dispatch_to_executor", "server/src/engine/error.rs"]}
{"id": "C66", "title": "Accounts that were dropped have no access", "statement": "After DROP USER was acknowledged, nobody is served as this user: new connections with its name are refused, and connections that are open already cannot read or change rows any more. The same holds for an old password after a new one was set. Other accounts are not affected.", "quantifier": "every history of messages of any connections before and after, every account and password", "why_tests_cant": "Dropping the account is the only way to take access away from someone whose password is known.", "anchors": ["server/src/engine/core/dcl.rs", "server/src/engine/core/system_db.rs: drop_user, verify_user", "server/src/engine/net/protocol/mod.rs: query_loop"]}
{"id": "C67", "title": "Stopping the server loses nothing and uses nothing that is gone", "statement": "When the server gets the termination signal it comes to its end, and then every change that was acknowledged is in the files, also if statements are being executed when the signal arrives. The files are closed when nobody uses them any more. No statement uses memory of a connection that was ended by the signal, and what dropped models left behind is removed.", "quantifier": "every number of connections, models and statements in any interleaving with the two background services, the blocking pool and the main task, the signal at any time, writes that fail", "why_tests_cant": "The signal is seen by the connections, both services and the main task at the same time, and each of them stops on its own; the rows are only written at the end, by one of the services.", "anchors": ["server/src/engine/mod.rs: start, finish", "server/src/main.rs: entrypoint", "server/src/engine/net/mod.rs: ConnectionHandler::run, Listener::terminate", "server/src/engine/fractal/mgr.rs: hp_executor_svc, general_executor_svc", "server/src/engine/fractal/mod.rs: unload_all", "server/src/engine/core/exec.rs: run_blocking_stmt"]}
{"id": "C68", "title": "Every client that connects is served, up to the limit", "statement": "Clients are accepted in the order in which they connect, no client can keep the server from accepting others, errors of the operating system delay the loop by a bounded time and never stop it, and at most 50000 clients are served at the same time.", "quantifier": "every sequence of clients, errors, handshakes and disconnections, TCP and TLS endpoints", "why_tests_cant": "The accept loop is shared by all clients of an endpoint.", "anchors": ["server/src/engine/net/mod.rs: Listener, NetBackoff"]}
{"id": "C69", "title": "At most one server uses a data directory", "statement": "Servers can be started, stopped and killed at any time: at most one of them uses the data directory at a time, the others exit with an error before they touch it, and a server that was killed does not keep the next one from starting.", "quantifier": "every interleaving of any number of servers on unix, with orderly ends and kills at any time", "why_tests_cant": "Two servers that append to the same files destroy them.", "anchors": ["server/src/util/os/flock.rs: FileLock::new", "server/src/main.rs: entrypoint"]}
{"id": "C70", "title": "A value keeps its meaning when it moves between query, row and index, and its memory is freed once", "statement": "A value that is stored in a literal, a cell, a list, a key or a virtual cell is read as the same value, on machines with pointers of 32 and of 64 bits, and keeps it when it is moved, copied or borrowed from one of these to another. Memory is never used after it was freed, never freed twice, and all of it is freed when everything has been dropped. Two keys, or a key and a literal, compare as equal exactly if they have the same value, comparing values never crashes, equal ones give the hasher the same bytes, and different ones do not.", "quantifier": "every program of these operations that the compiler accepts, every value, both pointer widths", "why_tests_cant": "Values are kept in untyped words with a tag beside them, and every one of these types has its own hand-written destructor and copy.", "anchors": ["server/src/engine/mem/word.rs", "server/src/engine/data/lit.rs", "server/src/engine/data/cell.rs", "server/src/engine/core/index/key.rs"]}
{"id": "C71", "title": "Statements that change the catalogue at the same time take effect one after the other, in memory and in the log", "statement": "Clients that create, change and drop spaces, models and accounts at the same time, and look at them, see what they could see if each statement was carried out in one step between its call and its answer. Whenever the server is stopped, the catalogue after the next start is that of one such order: statements that were acknowledged are in it, statements that were refused or failed are not, and statements in progress are or are not.", "quantifier": "every number of clients, statements and interleavings; stops at any time; writes that fail", "why_tests_cant": "A statement takes several locks, writes the log under a separate mutex and changes two maps one after the other; each test runs one statement at a time.", "anchors": ["server/src/engine/core/mod.rs: GNSData", "server/src/engine/core/space.rs", "server/src/engine/core/model/mod.rs", "server/src/engine/core/model/alt.rs", "server/src/engine/core/system_db.rs", "server/src/engine/fractal/drivers.rs: FractalGNSDriver", "server/src/engine/fractal/mgr.rs: hp_executor"]}
{"id": "C72", "title": "The benchmark runs every query once, checks every answer and ends", "statement": "The four runs of the benchmark come one after the other, and in each run every position is used by exactly one query, with a key of its own. If statistics are printed, every query was carried out and answered as expected, and the table is empty again. If nothing goes wrong no error is reported, and an error of a connection is not hidden. The benchmark comes to its end for every number of queries and connections.", "quantifier": "every number of connections and queries, every interleaving at the level of single accesses, errors of connections at any query", "why_tests_cant": "The connections share a counter, an exit flag, a start lock and two channels; the numbers it prints are the ones by which releases are compared.", "anchors": ["sky-bench/src/runtime/fury.rs: Fury::bombard, worker_svc", "sky-bench/src/runtime/rookie.rs: BombardPool, Worker", "sky-bench/src/bench.rs: prepare_bench_spec, bench_fury, bench_rookie"]}
{"id": "C73", "title": "A counted object is destroyed after every use of it, also when the processor reorders memory accesses", "statement": "With the memory orderings that the reference counter uses, every use of the shared key and data through any handle happens before they are destroyed, no two accesses of them race, and they are destroyed once, by the thread that gave up the last handle.", "quantifier": "every number of threads and handles, every execution under release and acquire semantics (relaxed accesses may be reordered)", "why_tests_cant": "The increment is relaxed, the decrement releases, and only the last thread acquires, through a fence; tests run on processors that hide a wrong choice.", "anchors": ["server/src/engine/sync/smart.rs: EBArc, RawRC"]}
{"id": "C74", "title": "The queue of changes works when the processor reorders memory accesses", "statement": "Threads that put changes in and take them out with the memory orderings that the queue uses never read a node before it was initialised. Elements come out in the order in which they were put in, each once. A thread finds the queue empty only if every element whose insertion happened before, in the sense of the memory model, has been taken out.", "quantifier": "every number of threads and operations, every execution under release and acquire semantics in which loads may return old values", "why_tests_cant": "A thread may see a pointer before what it points to; which orderings are enough is not visible in any test.", "anchors": ["server/src/engine/sync/queue.rs: Queue", "server/src/engine/sync/atm.rs: Atomic"]}
{"id": "C75", "title": "The batch writer finds every change that it was told about", "statement": "Statements append changes and count them, tasks take the count, and a writer takes as many changes out of the queue as its task says. The writer never finds the queue empty (it would panic), no task counts a change twice, and when all tasks are done and the counter is zero, every change has been written.", "quantifier": "every number of statements, tasks and writers, every execution under release and acquire semantics, writes that do not fail", "why_tests_cant": "Queue and counter are separate atomics: a writer could see the new count and the old queue.", "anchors": ["server/src/engine/core/model/delta.rs: DeltaState::append_new_data_delta, __fractal_take_full_from_data_delta", "server/src/engine/storage/v2/impls/mdl_journal.rs: ModelDriver::write_batch", "server/src/engine/fractal/mgr.rs: try_write_model_data_batch"]}
{"id": "C76", "title": "The primary index works when the processor reorders memory accesses", "statement": "Threads that insert, replace, remove and look up keys with the memory orderings that the index uses never read a node before it was initialised, and never run into a state that the code takes for impossible. The changes that all threads make are in one order, each call makes at most one, and every answer is that of an indivisible map after some number of these changes. This number is never smaller than that of a change of the key, or of an answer for the key, that happened before the call in the sense of the memory model.", "quantifier": "every number of threads and operations, every hash function, every execution under release and acquire semantics in which loads may return old values", "why_tests_cant": "Branches are frozen, dissolved and restored by several threads at once; which orderings are enough is not visible in any test.", "anchors": ["server/src/engine/idx/mtchm/imp.rs", "server/src/engine/idx/mtchm/mod.rs: RawTree", "server/src/engine/sync/atm.rs: Atomic"]}
{"id": "C77", "title": "Every query is answered", "statement": "Whatever text a client sends as a query, the client gets a reply and its connection goes on: the query is neither cut short by a panic nor carried on for ever.", "quantifier": "every history of queries of any sessions on a new server, failures of the disk included, and every text and parameters of the next query", "why_tests_cant": "A query that panics ends the connection without any answer, and leaves behind what it had done so far; parsers, checks and execution rely on each other for what cannot happen.", "anchors": ["server/src/engine/core/exec.rs: dispatch_to_executor", "server/src/engine/net/protocol/mod.rs: query_loop", "server/src/engine/core/dml/upd.rs: update", "server/src/engine/core/dml/sel.rs: select_all", "server/src/engine/ql/ast/mod.rs: State"]}
{"id": "C78", "title": "Many clients, batches and restarts behave like one sequential map", "statement": "Clients send statements at the same time, changes are written to the data file in batches meanwhile, and the server is shut down and started again between sessions. All that the clients see, over all sessions, is explained by one map from keys to rows on which each statement takes effect at one instant between its sending and its answer; and each start brings back exactly the rows of this map. Nothing fails but for a full file or counter.", "quantifier": "every number of clients and sessions, every interleaving of the steps of statements and batches, every division of the changes into batches", "why_tests_cant": "Memory and file are changed by different tasks: the file gets the changes in the order of the queue and restores them by their versions, while the clients see the order of the index.", "anchors": ["server/src/engine/core/dml/ins.rs: insert", "server/src/engine/core/dml/upd.rs: update", "server/src/engine/core/dml/del.rs: delete", "server/src/engine/core/model/delta.rs: DeltaState", "server/src/engine/storage/v2/impls/mdl_journal.rs: BatchWriter, restore_batch, ReadBatch", "server/src/engine/fractal/mgr.rs: try_write_model_data_batch"]}
{"id": "C79", "title": "Statements and batches never wait for each other for ever", "statement": "Statements take the latch of the primary index, shared or alone, and the locks of rows, and wait where a lock is taken. Whatever statements are under way and however far each has come, one of them can take its next step as long as one is not answered; each statement needs a bounded number of steps of its own, whatever the others do; so all of them are answered. A batch that is being written waits at most for a statement that can go on.", "quantifier": "every number of clients, every kind of statement, every interleaving of the steps of statements and batches", "why_tests_cant": "A statement that takes a second lock while it holds a first one, or forgets to give one back, blocks all others; this shows only in rare interleavings.", "anchors": ["server/src/engine/core/dml/ins.rs: insert", "server/src/engine/core/dml/upd.rs: update", "server/src/engine/core/dml/del.rs: delete", "server/src/engine/core/dml/sel.rs: select_all, select_custom", "server/src/engine/core/index/row.rs: Row", "server/src/engine/storage/v2/impls/mdl_journal.rs: BatchWriter"]}
{"id": "C80", "title": "A lazily initialised value is made once, seen whole and given back", "statement": "Threads that use a Lazy value at the same time all get the same value, which the initialiser made at most once and whose initialisation happens before every use. No assertion fails. No thread waits for ever for another one, also if the initialiser panics. When the Lazy is dropped, the value is given back.", "quantifier": "every number of threads and uses, every execution under release and acquire semantics in which loads may return old values", "why_tests_cant": "A value that is seen before it is initialised, or initialised twice, shows only under rare interleavings and only on some processors.", "anchors": ["server/src/engine/sync/cell.rs: Lazy"]}
{"id": "C81", "title": "A start that fails leaves the installation as it was", "statement": "If a start of the server fails, because a file is missing or damaged or because a port is in use, then the files are left such that a later start, with the cause removed, succeeds and finds the same models and rows. A first start that fails can be repeated.", "quantifier": "every history of queries, batches and restarts, every state of the data files, every point at which a first start is interrupted", "why_tests_cant": "Opening a log writes to it. A start that gives up must undo this, or a fault that can be repaired becomes a loss of all data.", "anchors": ["server/src/engine/storage/v2/mod.rs: restore, initialize_new", "server/src/engine/storage/mod.rs: load", "server/src/engine/storage/v2/raw/journal/raw/mod.rs: open_journal, RawJournalWriter::new", "server/src/main.rs: entrypoint"]}
{"id": "C82", "title": "From the bytes on the sockets to the bytes on the sockets, over restarts, a table is a map", "statement": "In every life of the server, from a new installation on, with bytes that arrive in any pieces on any connections, batches that are written at any time and clean restarts at any time: a client that follows the protocol is refused exactly if its name and password are those of no account at that time, and otherwise reads from the bytes that it gets exactly the answers to its queries in its order; the answers to all the queries on a table are those of a map from keys to rows; and the life goes on.", "quantifier": "every sequence of reads, closes, batches and restarts; every host, clock and hash order; every client among any others", "why_tests_cant": "This is what the users of a database see of it. It joins the handshake, the packets, the parser, the executors, the data files, recovery and the replies, and would fail if any two of them did not fit.", "anchors": ["server/src/engine/net/mod.rs: ConnectionHandler::run, Listener::terminate", "server/src/engine/net/protocol/mod.rs: query_loop, do_handshake", "server/src/engine/core/exec.rs: dispatch_to_executor", "server/src/engine/storage/v2/mod.rs: restore, initialize_new", "server/src/engine/fractal/mgr.rs", "server/src/engine/fractal/mod.rs"]}
{"id": "C83", "title": "A damaged journal is never accepted", "statement": "If up to eight consecutive bytes of the log of the catalogue or of the data file of a model are changed after a clean shutdown, wherever they are after the header, then the next start reports an error. It neither comes up with other contents nor crashes.", "quantifier": "every history of the catalogue, every life of a model, every position and every contents of the changed bytes", "why_tests_cant": "Disks lose and change bytes. Checksums are only worth something if every byte is under one of them and if nothing is done with the bytes before it was compared.", "anchors": ["server/src/engine/storage/v2/raw/journal/raw/mod.rs: RawJournalReader::scroll, handle_close", "server/src/engine/storage/v2/raw/journal/mod.rs: EventLogAdapter::decode_apply, BatchAdapter::decode_apply", "server/src/engine/storage/v2/impls/mdl_journal.rs: BatchAdapterSpec for ModelDataAdapter"]}
{"id": "C84", "title": "Names are hashed and compared so that maps find them", "statement": "A map that is keyed by names, or by pairs of a space and a model, finds an entry under exactly the names that it was stored with, whichever type holds the names that are asked for. The hash of a key reads all of its bytes and none besides, pairs of names that differ write different bytes to the hasher, and a key that is dropped frees its own memory and no other. No client can choose names of columns that all have the same hash.", "quantifier": "every name and pair of names, every hash function, every contents of the map of models, every heap", "why_tests_cant": "Keys are compared through raw pointers and one kind is made from another with transmute; a hash that does not agree with equality loses entries, and one that can be predicted makes every lookup slow.", "anchors": ["server/src/engine/idx/meta/hash.rs", "server/src/engine/core/util.rs: EntityID, EntityIDRef", "server/src/engine/mem/rawslice.rs: RawStr", "server/src/engine/core/index/row.rs: DcFieldIndex"]}
{"id": "C85", "title": "The backup before an upgrade is complete, and nothing is lost if it is interrupted", "statement": "Before an installation in the old format is written anew, every one of its files is moved to a new backup directory, under the same relative path and with the same contents, and nothing else is put there. Wherever the move is interrupted, each file is complete in exactly one of the two places; the file that tells that an installation is there is moved last. If a move fails, what was moved is moved back, so that the next start finds the installation.", "quantifier": "every tree of files and order of listing, every point of interruption, every distribution over devices", "why_tests_cant": "The upgrade deletes the old format from its place; the backup is the only copy if the new files turn out to be wrong.", "anchors": ["server/src/engine/storage/v1/mod.rs: load_gns_prepare_migration", "server/src/util/os.rs: move_files_recursively, rmove", "server/src/engine/storage/mod.rs: load"]}
{"id": "C86", "title": "Rows that were written before a crash are found by the next start", "statement": "If the server is killed at any moment, between two operations or in the middle of a batch, then the next start succeeds and finds the rows as they were after some prefix of the acknowledged statements, which contains all statements whose changes were in a batch that was written completely.", "quantifier": "every life of a model with statements, batches of any size and restarts, every moment of the kill", "why_tests_cant": "A crash can happen at any byte of any batch; a test can try some of them.", "anchors": ["server/src/engine/storage/v2/raw/journal/raw/mod.rs: RawJournalReader::scroll", "server/src/engine/storage/v2/raw/journal/mod.rs: BatchAdapter::decode_apply", "server/src/engine/storage/v2/impls/mdl_journal.rs: BatchWriter, BatchAdapterSpec for ModelDataAdapter", "server/src/engine/fractal/mgr.rs: try_write_model_data_batch"]}
{"id": "C87", "title": "Every statement that is executed is answered, and answers arrive whole and in order", "statement": "The bytes that a client gets are the answers to the statements of its connection that were executed, one after the other and complete, also if the server is stopped meanwhile: no statement is executed whose answer is not sent, no answer is cut, and a client never takes a part of an answer for an answer. While the server waits for the next packet of a client, nothing that it owes to the client is left in a buffer; and a client that goes on reading gets its answer after a bounded number of writes.", "quantifier": "every sequence of statements and answers, every way in which the socket takes the bytes, every moment at which the connection is ended", "why_tests_cant": "Answers go through a buffer of 16384 bytes, and the task of a connection can be dropped at each point where it waits; which points these are depends on the sizes of the answers and on the speed of the network.", "anchors": ["server/src/engine/net/mod.rs: ConnectionHandler::run", "server/src/engine/net/protocol/mod.rs: query_loop", "server/src/engine/core/exec.rs: run_blocking_stmt"]}
{"id": "C88", "title": "No operation of the primary index waits for another thread", "statement": "Whatever the other threads have done and wherever they were stopped, also in the middle of taking a branch away, an operation on the primary index that goes on alone returns after a bounded number of accesses to memory. A lookup returns after a bounded number of its own accesses whatever the other threads do meanwhile.", "quantifier": "every hash function, every schedule of any number of threads, every state that they reach", "why_tests_cant": "The index is shared by all threads without a lock. A thread that loses the processor at the wrong place would stop all others if one of them waited for it; no test can stop threads at every place.", "anchors": ["server/src/engine/idx/mtchm/mod.rs: patch, _lookup, _remove, compress"]}
{"id": "C89", "title": "The message of an error tells where it happened", "statement": "If a start of the server ends with an error, the message tells the reason, the part of the server and the step in which it happened, such as the file of the model that was being read, whatever is on the disk and however the server is configured. A message about an error in a later statement tells nothing of the steps of the start.", "quantifier": "every configuration, every contents of the disk, every step that fails and every error in it", "why_tests_cant": "The place of an error is kept in a variable of the thread, which some errors take away and others leave; whether a message is right depends on all errors that were made before on the same thread. The message is all an operator has to find the damaged file.", "anchors": ["server/src/engine/fractal/context.rs", "server/src/engine/fractal/error.rs", "server/src/engine/mod.rs: load_all, start", "server/src/engine/storage/mod.rs: load", "server/src/engine/storage/v2/mod.rs: recreate, initialize_new, restore", "server/src/engine/storage/v1/loader.rs: load_gns", "server/src/main.rs: entrypoint"]}
{"id": "C90", "title": "The benchmark measures what it reports, with the settings that were given", "statement": "The benchmark runs exactly if its options are known, each given once and meaningful, and then with these values and the defaults for what is not given; every key that it uses has the size that was given. The fastest and the slowest query of its table are those of all queries of the run, its time is the time from the first query to the end of the last one, so that the queries per second are right, and the number of queries is written with a comma before every third digit.", "quantifier": "every command line and environment, every number of workers and queries, every time that a query takes and every pause between queries", "why_tests_cant": "The numbers are collected from many workers that start and end at different times; a wrong minimum, sum or origin of time gives numbers that look plausible and are taken for the speed of the database.", "anchors": ["sky-bench/src/args.rs: parse, cdig", "sky-bench/src/bench.rs: fmt_u64, fmt_pk, print_table", "sky-bench/src/runtime.rs", "sky-bench/src/runtime/fury.rs: bombard, worker_svc", "sky-bench/src/runtime/rookie.rs: blocking_bombard, Worker::start"]}
{"id": "C91", "title": "The file system of the tests answers as a real one", "statement": "A program gets the same answers from the virtual file system, on which all tests of the storage run, as from a real one: what is written is read at the same positions, files and directories are created, opened, renamed and removed exactly if a real file system does it, and several descriptors of a file have positions of their own.", "quantifier": "every program of operations on files and directories, every contents", "why_tests_cant": "If the file system of the tests differs from a real one, then the tests show something about a program that nobody runs: code that passes them can fail on a disk, and code that is right cannot be tested.", "anchors": ["server/src/engine/storage/common/interface/vfs.rs", "server/src/engine/storage/common/interface/fs.rs: FileSystem, File, AnyFile, BufferedReader"]}
{"id": "C92", "title": "The changes that wait to be written use at most their share of the memory", "statement": "Row changes that are not yet in the data file use at most two percent of the memory that was free when the server was started, apart from those of statements that are about to ask for a batch. With statements one after the other, a batch is asked for exactly when a model reaches its part of this limit.", "quantifier": "every amount of memory, number of models and rows, every order of statements, creations and removals of models, tasks and periodic writes, with any number of clients", "why_tests_cant": "The limit is what keeps a server with a slow disk or with a long time between two writes from using up its memory. It is computed once from a number of models that changes later, and checked by statements that run at the same time.", "anchors": ["server/src/engine/fractal/mgr.rs: FractalRTStat::init, hp_executor, general_executor", "server/src/engine/fractal/mod.rs: request_batch_resolve_if_cache_full, load_and_enable_all", "server/src/engine/core/mod.rs: with_model_for_data_update", "server/src/engine/core/model/delta.rs: append_new_data_delta, __fractal_take_full_from_data_delta"]}
{"id": "C93", "title": "A number that is read becomes a value of an enumeration exactly if it is one of its numbers", "statement": "Wherever a number from a file or from a client stands for a variant of an enumeration, it is refused unless there is a variant with this number, and then it becomes this variant; no number leads to undefined behaviour or to another variant.", "quantifier": "every enumeration with derived conversions, every place in which a number that was read is converted, every number that fits there", "why_tests_cant": "The conversions are derived by a macro and take the byte for a value without a check of their own: they are sound only if the numbers of the enumeration have no gaps, which nothing checks when a variant is added. Bytes from a damaged file or from a client reach them.", "anchors": ["sky-macros/src/lib.rs: derive_tagged_enum", "server/src/util/compiler.rs: TaggedEnum", "server/src/engine/data/tag.rs", "server/src/engine/storage/common/sdss/impls/sdss_r1/mod.rs: decode", "server/src/engine/storage/v2/raw/journal/mod.rs: parse_event_meta", "server/src/engine/storage/v2/raw/journal/raw/mod.rs: decode", "server/src/engine/storage/v2/impls/mdl_journal.rs: decode_batch_metadata", "server/src/engine/storage/v1/raw/batch_jrnl/restore.rs: decode_primary_key", "server/src/engine/storage/common_encoding/r1/obj.rs", "server/src/engine/net/protocol/handshake.rs"]}
{"id": "C94", "title": "Waiting changes are written in every window, and dropped directories are removed", "statement": "As long as the server runs, the waiting changes of all models are written at least once in each window of the settings, whatever else the service has to do. The directory of a model or a space that was dropped is removed, tasks are tried in the order in which they were posted, and a task that cannot succeed is given up.", "quantifier": "every window, every list of tasks with their times, every contents of the disk, every error of the disk, every choice between events that are ready at the same time", "why_tests_cant": "The window is the bound on what a crash can lose: without the periodic write, changes below the limit of the memory are written only when the server is stopped. The timer shares a loop with other tasks and is made anew after each of them.", "anchors": ["server/src/engine/fractal/mgr.rs: Task, GenericTask, general_executor_svc, adjust_threshold", "server/src/engine/fractal/mod.rs: purge_model_driver", "server/src/engine/core/space.rs: transactional_exec_drop", "server/src/engine/core/model/mod.rs: transactional_exec_drop"]}
{"id": "C95", "title": "An error in one file does not hold up other models or the end of the server", "statement": "Urgent tasks are tried in the order in which they were posted. A model whose file is in order does not wait for the pauses after errors in other files, attempts to repair are made with a pause between them, and after the signal the service does what is waiting and ends, whatever errors there were before.", "quantifier": "every order of tasks, every error in writing a batch, with nothing or a part of it written, every time that an attempt takes, every number of models", "why_tests_cant": "The service is a single loop for all models in which tasks sleep and post themselves again. An error in one file then decides about the memory of all models (C92), the load of the server, and whether it can be stopped without a kill, after which the waiting changes are lost.", "anchors": ["server/src/engine/fractal/mgr.rs: Task, hp_executor_svc, hp_executor, re_enqueue_model_sync, try_write_model_data_batch", "server/src/engine/storage/v2/raw/journal/raw/mod.rs: __lwt_heartbeat"]}
