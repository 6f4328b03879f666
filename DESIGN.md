# Formal model of skytable: design

The code is `/repo` (Rust, engine under `server/src/engine`). The model is Lean 4
(`lean/Verif`). The properties are in `properties.jsonl`; the claim/theorem table is
`MANIFEST.json`; mutation experiments are logged in `seeded/LOG.jsonl`.

Paths below are relative to `server/src/engine/` unless they start with `/`.

## 1. Trusted base

* Lean 4.33.0's kernel. No `sorry`, no axioms of our own, no `native_decide`/`bv_decide`.
  Theorems depend on at most `propext`, `Classical.choice` and `Quot.sound`.
* The claim that the Lean definitions describe the Rust code. Every model definition carries a
  comment with the file and the lines it models, and says where it simplifies. Nothing checks
  this mechanically; the code was read as text and never compiled or run.
* The statements in the `Spec` parts and in the theorem statements.
* What the code is built on and the model takes as given: the atomics behave as sequentially
  consistent (no weak-memory effects), except in C73–C76, which use release/acquire semantics with
  views (a load may return any message not older than what the thread knows); `parking_lot` locks exclude and are released by the
  guards; tokio's `select!` drops the future that loses, a dropped runtime waits for its blocking
  pool, channels are first-in first-out (C67, C68); `flock` locks inodes and goes away with the
  process (C69); the terminal library reports capital letters with SHIFT (C64); `rcrypt` accepts a
  password exactly if it is the one that was hashed; the standard library's `HashMap` is a map;
  YAML, TLS and the formatting of floats are outside.

## 2. Modelling conventions

* Bytes are `UInt8`, byte strings are `List UInt8`. Machine integers are `Nat`/`Int` with
  explicit range hypotheses, or reduced modulo `2^64` where the code wraps. The release profile
  has no overflow checks, so `+`, `-`, `*` on machine integers wrap; where a debug build panics
  instead, the model says so.
* A panic, an out-of-bounds access or `unreachable_unchecked` is an explicit error value
  (`Res.panic`, `none`, ...), distinct from an error reply, so that "never panics" can be stated.
* Loops are structural recursion, folds, or recursion on a decreasing measure. No fuel is used
  unless a comment says that and a theorem shows the fuel suffices.
* Concurrency is a transition system whose steps are the atomic accesses of the code; a theorem
  about it quantifies over all reachable states, hence all schedules and any number of threads.
* I/O is a file content plus an outcome (success, or failure after any number of bytes).
* A property that the code violates gets three things: the negation, with a concrete witness
  (theorem name ends in `_violated`), a `_partial` theorem with the part that does hold and
  under which condition, and a line in section 5.

## 3. Plan, property by property

| id | modelled | how it is proved |
|----|----------|------------------|
| C01 | raw journal writer and reader, driver events, event-log adapter, CRC | induction over sessions and events: the reader run on the writer's bytes keeps its counters equal to the writer's |
| C02 | same; a crash leaves the file without a close event | expected to be violated: universal theorem that an unclosed non-empty session is rejected; partial: the event prefix is intact |
| C03 | same | induction: a strict prefix is accepted iff it ends at a session boundary |
| C04 | CRC-64/XZ bit by bit, event-log decode | the bit step is a bijection on 64-bit states, so a change inside 8 bytes changes the CRC |
| C05 | txn_context with failing commits, heartbeat | expected to be violated: witness; partial: holds if no commit failed |
| C06 | cell encoder and decoder | structural induction over values |
| C07 | dict encoder/decoder | structural induction over nested dictionaries |
| C08 | the eleven event encoders/decoders | composition of round trips |
| C09 | live DDL transitions and replay transitions | simulation by induction over histories; violated for `env: null`; partial for the rest |
| C10 | header encoder/decoder | case analysis on fields |
| C11 | batch writer, batch reader, restore | induction over rows, refinement to a finite map |
| C12 | restore with a changed schema | expected to be violated: witness; partial: unchanged schema |
| C13 | restore with deletes | expected to be violated across batches: witness; partial: one batch |
| C14 | delta queue, size counter, write_batch with failures | expected to be violated on failure: witness; partial: invariant for successful batches |
| C15 | hash trie, sequential | invariant + refinement to a finite map, for an arbitrary hash |
| C16 | hash map + doubly linked list | refinement to an association list; order violated by update: witness |
| C17 | Michael-Scott queue, atomic steps, allocator with reuse, epochs | every node gets a position; inductive invariant; simulation into an indivisible list (linearizability), memory safety, progress of a lone thread |
| C18 | perfect hashes | arithmetic on lengths + case split on the table; all byte strings |
| C19 | secure lexer | induction over the query text |
| C20 | secure lexer parameters | round trip per parameter, induction over lists |
| C21 | parser state machine, statements | expected to be violated: witnesses; partial: statements for which it holds |
| C22 | exchange state machine, read loop | invariant "resume after a chunk = resume on the concatenation" |
| C23 | same | expected to be violated: witnesses; partial |
| C24 | handshake state machine | as C22 |
| C25 | same | expected to be violated: witnesses; partial |
| C26 | response encoders, a client decoder as spec | structural induction |
| C27 | decimal printer with pair table, scanner | induction on the number of digits |
| C28 | statement dispatch, permissions | from the bytes of a query to the catalogue (`Server`); a session without root changes nothing, and is refused whatever would change something for root |
| C29 | user table and user statements | invariant by induction over statements |
| C30 | type validation | structural induction over layers and values |
| C31 | insert/update/delete/select on rows | refinement to a map, induction over statements |
| C32 | update operators and rollback | expected to be violated: witnesses; partial |
| C33 | schema deltas and row resolution | expected to be violated: witness; partial |
| C34 | alter plan | case analysis over layers and values |
| C35 | catalogue with models and spaces, journal outcomes | invariant; violated on commit failure of DROP SPACE: witness |
| C36 | lock acquisition sequences | transition system; violated: reachable stuck state; partial for statement mixes that respect the order |
| C37 | fault counter and driver states | violated: witness; partial |
| C38 | dict patch and merge | structural induction; violated for nested additions: witness |
| C39 | type-name perfect hash, layer parser | as C18 |
| C40 | hash trie, one step per atomic access (load, compare-and-swap, fetch-or), allocator with reuse, epochs | paths as ghost state, a branch is cut off only when all its pointers are frozen; inductive invariant; simulation into an indivisible map in which a read-only operation may happen late, with an answer it saw during its call (`Conc/Seen.lean` shows that such runs are linearizable); memory safety; references stay valid under the guard |
| C41 | buffered log writer over a file that may write short | simulation; violated on short writes: witness |
| C42 | secure lexer | a declarative relation between text and tokens, induction over the text, both directions |
| C43 | raw journal reader | the transaction ids in the file are consecutive; a gap or a repetition reaches a reader whose counter differs |
| C44 | user statements | expected to be violated: universal theorem; partial: drop and create |
| C45 | `fetch_id` and the tag table | violated: evaluation over the whole table |
| C46 | row statements and schema changes | violated: witnesses; partial: invariant of the specification of C31 |
| C47 | the whole parser (`Ql`) against a grammar (`Ql/Grammar`) | soundness by a Hoare logic of accepting runs (`Runs`, `Sound*`), completeness statement by statement (`Comp*`), joined in `Complete` |
| C48 | the answers of INSPECT (`Server/Inspect`), the whole way of a query (`Server/Model`) | JSON as a relation (`Server/Json`); all names are words because the lexer makes them (`Server/Names`); a reader of declarations is the inverse of `describe` |
| C49 | `Server/Model` | the parts of a state and the parts a query names (`Server/Frame`); the frame of `Gns.exec` statement by statement; rows without a model do not exist (`Neat`) |
| C50 | `Server/Model` with all models below it | `Server/Lift`: everything the grammar derives meets the conditions of the theorems about statements, a history of texts is a history of statements (also for C09, C35); `Server/Tables`: the refinement of C31 along the frame of C49 |
| C51 | `Cli/Param`: the reader of the shell | `Cli/ParamTheorems`: a description of the typed language by pieces; induction on it, then C20 and C42 carry the sent query through the server's lexer |
| C52 | `Mem/Raw`: blocks of slots, undefined behaviour as an outcome; `Mem/VInline`, `Mem/UArray`, `Mem/FixedVec` | one invariant per container (which block it owns, which slots hold which elements), kept by every operation; a list with logs of returned and destroyed elements as specification |
| C53 | `Sync/Rc`: handles of threads with the program counters of `rc_clone` and `rc_drop`, the counter, what was destroyed and freed | the counter is the number of handles; one inductive invariant over all interleavings |
| C54 | `Mem/Names`: the pool of column names with memory that can be freed, columns, schema changes and rows as lists of pointers | pointers in columns are unmarked; a row that is brought up to date keeps only pointers of current columns; versions of rows are past the changes whose names were freed |
| C55 | `Config/Model`: `config.rs` over lists of characters; the environment, the file system and the YAML reader are functions | a relation `Means` between settings and configuration, and `Says`, `EnvSays`, `FileSays` between settings and the three forms; the decoders are characterised by equivalences with these; the form of words on the command line is inverted for `nothing_else` |
| C56 | `Server/Whole`: the query path of `Server.Model`, the log of the catalogue (`Journal`, `Gns.Restart`) and the data files (`Batch`) in one state; a restart goes through the bytes of all files | `SysOk` (the log of the catalogue replays to the catalogue) and `Holds` (the file and the queue of a table replay to its rows) are kept by queries, batches and restarts; answers are compared with `SpecRun` of C31 |
| C57 | `Dml/Par`: the statements of `Dml.Model` cut into atomic steps (operations of the index, work under the lock of a row, taking a version, appending a change), with the latch and the locks of the rows | backward simulation: an UPDATE or SELECT that acts on a row deleted meanwhile counts as done just before the deletion (`Sim`), so what was done first is known only in the end; `alone_exec` ties the steps to `exec`; `Conc.search` shows that a history has no linearization; `Dml/ParErase`: a schedule with `SELECT ALL`s is one without them if rows have the current columns |
| C58 | `Batch/Full`: the batch with all rows of a model; `Server/Upgrade`: `recreate` and `load` after an interrupted upgrade, on the whole server of C56 | rows with distinct keys can be placed in any order of their versions (`placeLoop_fresh`), so the new file is restored to a table with the same rows (`commitFull_reached`); the events rebuild the catalogue exactly (`part_all`); the running table is not one that C56 covers (`Saved`), the restored one is |
| C59 | `Old/Crc32`, `Old/Log`: the reader of the old log with the buffer of its file, over bytes; the events are those of `Enc.Event` and `Gns.apply` | the reader is `On` the rest of a log that a separate writer (`logBytes`) makes; one step per record; for a log that is cut off, the last record that was read is shown not to be complete, unless payload bytes look like a reversal (`Fake`), which the variant bits of identifiers exclude; CRC-32 is a bijection in each byte |
| C60 | `Old/Data`: the reader of the old data files, over bytes, with the position after an error; the decoders of values agree with those of `Enc` where they succeed | a separate description of a file (`dataBytes`) with sessions, batches and records; the loop takes one round per batch; the rows are those of `Batch.finish` (C11) for ordered histories, and then those of the last record of each key; CRC-64 for damage |
| C61 | `Old/Sys`, `Old/Load`: the file with the users, and the loader over all files, which also changes them | an installation (`Inst`) as sessions of events and batches with its files as bytes; the loaded server is in the state that C58 asks for, the files are those of the installation after one more empty session; then C58 from there |
| C62 | `Cli/Repl`: the loop of the interactive shell, over `Cli/Param` (C51), the client library and the server from texts | prompts against the space in the state of the connection (`promptFor`), for any lines (`AllCareful` excludes the three spellings that violate it) |
| C63 | `Cli/Resp`: the output of the shell as letters with colours | injectivity: equal screens come from answers that are alike up to the types of numbers (`AlikeA`) |
| C64 | `Cli/Args`: the command line, the environment variable and the typed password of the shell; `--eval` | a wish (`Wish`) and what it means (`Means`) against the client that the shell uses, as an equivalence; `--eval` against the interactive loop |
| C65 | `Server/Hub`: connections with their buffers, handshakes and sessions, the codes of all errors, `serve` of C49 behind them | a desk (`Desk`) that hears whole messages in one order and says answers; against the bytes in and out |
| C66 | the same | logins of an account before and after messages that name it or not; a story of three connections |
| C67 | `Fractal/Halt`: connections, blocking pool, both services and the main task as a transition system, with the signal | acknowledged changes against the files at the end; a measure for termination; concrete interleavings |
| C68 | `Net/Listener`: the accept loops for TCP and TLS with permits and back-off | the queue of clients; which clients have a handler |
| C69 | `Os/Pid`: the file system's view of the lock file and the servers as a transition system | at most one process that uses the directory |
| C70 | `Mem/Word`: words on both pointer widths; `Mem/Value`: literals, cells, keys and virtual cells over memory that is addressed by bytes | the same programs on plain values, with the borrowing rules of the compiler |
| C71 | `Locks/Ddl`: catalogue and account statements of many clients cut at locks, health check, log write and each change of a map; the log as a list or as the journal file | linearizability (`Conc/Lin`) against one catalogue, with the log explained by the same execution; restart through C09 |
| C72 | `Bench/Model`: the main task and the connections of `sky-bench` cut at every shared access, `Bench/Rookie`: the engine with threads, the server as a table that executes one query at a time | no query runs twice, statistics only if all queries of all runs were executed without errors, a bound on the number of steps, progress |
| C73 | `Weak/Rc`: the reference counter with its orderings; views are sets of accesses | no access of key or data races with their destruction; weaker orderings do |
| C74 | `Weak/Queue*`: the queue with its orderings; every location is a list of messages with views, loads may be stale | initialisation seen before use; order of the chain; what a dequeue that finds nothing may have missed |
| C75 | `Weak/Deltas*`: the queue of C74 with the counter, tasks and batch writers | the writer's `unwrap` never fails; counts add up |
| C76 | `Weak/Index*`: the trie of C40 with its orderings; every slot is a list of words with views, loads may be stale; exchanges are numbered | every word is between the changes that its view knows and those that come after; a stale word tells what the map was at a moment that the view allows (`Walk`, `Saw`); frozen branches keep their last words |
| C77 | `Server/Answered`, `Dml/Answered`: the server of C47–C50 and C65 | every row has a cell of the class of its column, and has missed only removals of columns; statements and `ALTER MODEL` keep this; then C21, C35 and the panics of C32 are the only ways not to answer |
| C78 | `Batch/Many*`: the clients of C57 (`Dml/Par`), a batch taken change by change between their steps, the data file of C09–C14, sessions | invariant: what the restart would give (restored rows, then the records of the batch, then the queue) is the table, but for changes not yet in the queue; per key, the versions in file, batch and queue are those of the index; forward simulation for the file, backward simulation (C57) for the answers; `ManyAll`: `SELECT ALL`s can be left out of what happens |
| C79 | `Dml/ParLive`, `Batch/ManyLive`: the clients of C57 and the batches of C78 | invariant `Holds`: who holds the latch and which rows; a client that holds a row waits for nothing; the steps that are left decrease |
| C80 | `Weak/Lazy`: `Lazy` with its orderings; the pointer is a list of messages with views, loads may be stale | one thread at a time between the accesses of the flag, and it knows the newest pointer; which orderings are necessary; two defects with witnesses |
| C81 | `Server/FailedStart`: `restore` with the files that it leaves when it gives up | the writer of a log that was opened and not closed is in step with a reader, which then fails at the end of the file; every prefix of the first log is refused |
| C82 | `Server/Site*`: the connections of C65 on the server with files of C56 | one connection at a time: what it reads decides its messages (C65), every other step leaves it alone; the queries are a life of C56; all tables stay well-formed, so that replies can be read (C26) |
| C83 | `Journal/Damage`, `Server/Damage`: the readers of C01 and C11 on changed files | the event that closes an accepted file holds the checksum and the offset of all that is before it, whatever was read in between; two files that differ in a burst of eight bytes cannot both end in such an event |
| C84 | `Mem/NameHash`: the hasher of `idx/meta/hash.rs` on 64-bit words; `EntityID` with its two blocks in the heap of `Mem/Raw`; the map of models as a list of keys, compared if their hashes agree | each step of the hasher is a bijection in the state and in the word, hence one changed byte always changes the hash; UTF-8 has no byte 255, so pairs are hashed without ambiguity; lookups by induction over the map; ten pairs of blocks that collide one after the other give 1024 names |
| C85 | `Old/Backup`: the calls of `move_files_recursively` and of the migration on a file system of files, directories and devices; a listing in any order | a directory is made before anything is moved into it and no path comes twice; an invariant over the calls says which files are where after each of them |
| C86 | `Batch/Crash`: a life (`Batch/Life`) up to a point in its last session; the reader of C83 on the file without its end | what a decoder accepts it accepts with more bytes after it (`batchDecode_more`), so a torn batch ends in an error; the state of the writer says which batch the file ends with, and closing it there gives the table that the invariant of C54 relates to the memory |
| C87 | `Net/Writer`: the writes for a reply through a `BufWriter` with its capacity, the points at which the task can be dropped | socket, buffer and remaining writes together are always the replies (`Ok`); the decoder of C26 does not read a proper beginning of a reply (`readReply_more`) |
| C88 | the trie of C40, run by one thread while the others stand still | a measure of the work that is left (`weigh`): pointers on the path that are still to be frozen, branches to be taken away, levels to go; it falls with every access of the thread; for lookups a measure that no other thread can raise |
| C89 | `Diag`: context of a thread, conversions of errors, the methods of `ErrorContext`, the start as a list of writes to contexts and steps that may fail | the contexts are read off the list (`after`); each step is preceded by the right write (`AllTell`); what other steps drop is the exception |
| C90 | `Bench/Report`: the options of `sky-bench`, the statistics of workers and of a run as folds, `fmt_u64` | each option alone (`endpoint_iff`, `number_iff`, ...), then all; folds as least and greatest elements of lists; the end of the last query = begin + sum of durations + pauses (`lastStop_eq`) |
| C91 | `Vfs/Model`: the virtual file system as a tree with descriptors, `Vfs/Spec`: a file system as a map from paths with positions | the tree as a map (`Vfs/Tree`: `view`, one lemma for each operation), then simulation (`Vfs.sim`); each difference with a program |
| C92 | `Fractal/Limit`: the limit, and models with counter, queue, statements about to post, and tasks | one invariant per model (`Ok`), summed up over the models; `C92_partial`, `C92_size` for whole statements; violated for models created later and for tasks that are not done |
| C93 | `Enc/Tags`: the derived conversions, all enumerations that have them as lists of numbers, and all places in which a number that was read is converted | the conversion is right exactly if there are no gaps (`C93_gaps`), then every place; violated for the type of the key in batches and for the kinds of records |
| C94 | `Fractal/Periodic`: the service for tasks that are not urgent, with time, channel, tasks to come and directories | one inequality over a round that counts time, tasks, writes and failures (`step_measure`); `C94_in_turn`; violated by removals that fail forever, by frequent tasks and by the stop |
| C95 | `Fractal/Urgent`: the service for urgent tasks, with time, channel, marked models and files with a part of a record | one inequality over a round (`step_time`); a pass over the channel repairs all models (`drain_pass`); violated by repairs without a pause, by pauses inside the loop, and by a repair that keeps the service from ending |

Properties that cannot be expressed: none of the list. Not expressible and therefore not listed:
timing, memory use, TLS, the kernel's fsync guarantees, the behaviour of the allocator.

## 4. Layout

`Verif/Base/*` bytes, little-endian integers, CRC. `Verif/<Area>/Model.lean` the model,
`Spec.lean` the independent specification where one is needed, `Lemmas.lean` helpers,
`Theorems.lean` the property theorems with a concrete instance beside each.

`Verif/Conform/*` checks the model against the code in another way: the unit tests of the repository are
transcribed and run on the model, in the kernel. The inputs and the expected results are those of the
tests. Transcribed are all tests of the lexer and of the parser (`ql/tests/*`), including the fuzzed ones
(with all right choices and every single wrong one instead of random ones); the scanner
(`mem/tests/scanner.rs`); the handshake and the exchange (`net/protocol/tests.rs`); dictionaries
(`data/tests/md_dict_tests.rs`); settings (`tests/cfg.rs`); the statements on spaces, models and rows
(`core/tests/{ddl_space,ddl_model,dml}`); the journal, the encodings, the restart of the catalogue and of the
rows (`storage/v2/raw/journal/tests.rs`, `storage/v2/raw/journal/raw/tests.rs`,
`storage/common_encoding/r1/tests.rs`, `storage/common_encoding/r1/impls/gns/tests`,
`storage/v2/impls/tests/model_driver.rs`); and the data structures (`idx/tests.rs`, `idx/mtchm/tests.rs`,
`mem/tests`, `mem/fixed_vec.rs`, `mem/numbuf.rs`), with fewer elements; keys, cells and literals
(`core/index/key.rs`, `data/{cell,lit}.rs`); the tracked writer (`sdss_r1/rw.rs`); and what a client sees
(`tests/client_misc`), as packets on the model of the connections. All of them agree with the model. What the tests assert about
traces of the execution (`update_flow_trace`, `layer_traces`), and the test with a batch adapter of its own
(`batch_simple`), are not transcribed. These theorems are listed
in the manifest with the property that they are about.

## 5. Disagreements between the properties and the code

Each line: the property, what the code does instead, the theorem with the witness.

* C02. A journal whose last session was not closed is refused on the next start, so after a crash
  nothing is available (`storage/v2/raw/journal/raw/mod.rs`, the reader requires a close event at
  the end). `Journal.C02_crash_loses_everything_violated`.
* C05. After a failed commit the recovery check accepts a file whose counters no longer match what
  the reader computes; the journal then never opens again.
  `Journal.C05_recovered_driver_poisons_violated`, `C05_fresh_journal_never_recovers_violated`.
* C41. A short write is retried from the start of the buffer (bytes duplicated), or, when the
  system call writes nothing, forever. `Journal.C41_short_write_corrupts_violated`, `..._hangs_violated`.
* C23. A query length larger than the packet makes slicing panic; a packet size smaller than its own
  header, and a second packet sent without waiting for the reply, make the server wait for bytes that
  the client has already sent (`net/protocol/exchange.rs`). `Net.C23_*_violated`.
* C25. The handshake error is looked up with the sum of the error flags minus one in a table; with two
  invalid fields the index can be out of range (panic). The two announced lengths are added with
  wrapping and then used for unchecked reads (`net/protocol/handshake.rs`). `Net.C25_*_violated`.
* C38. A dictionary under a new key is merged into a temporary that is dropped (`data/dict.rs:121-124`),
  and a value given for an existing dictionary deletes it (`data/dict.rs:173-180`).
  `Gns.C38_new_dictionary_lost_violated`, `Gns.C38_value_for_dictionary_violated`.
* C09. Setting `env` of a space to null leaves the live space with an empty `env` and the replayed one
  without it, and a later dictionary is then lost on every start (`core/space.rs:221-231` against
  `gns/space.rs:179-196`). A forced `DROP SPACE` removes the space before the commit
  (`core/space.rs:248`), so after a failed commit the live catalogue differs from the log.
  `Gns.C09_env_null_violated`, `Gns.C09_failed_drop_violated`.
* C35. The same failed drop leaves models without a space, and `ALTER MODEL` on one aborts
  (`core/mod.rs:131`). `CREATE MODEL` without a `primary` column takes the first column as the key even
  if it is nullable (`core/model/mod.rs:262-274`). `nullable: null` in `ALTER MODEL` aborts
  (`core/model/alt.rs:82`). `Gns.C35_failed_drop_violated`, `Gns.C35_nullable_primary_key_violated`,
  `Gns.C35_null_nullable_violated`.
* C44. `alter_user` refuses root and `exec` refuses everyone else (`core/dcl.rs:42, 63`).
  `Gns.C44_alter_user_never_works_violated`.
* C45. `fetch_id` compares the bytes at the index of the outer loop (`i`) instead of the inner one (`j`)
  (`storage/common/versions/server_version.rs:82-103`), so every release has the number 0.
  `Header.C45_all_releases_are_zero_violated`.
* C32. The result of an operator is and-ed into `rollback_now` with `&= !okay` (`core/dml/upd.rs:317`), so a
  failed check never rolls back and the unchecked value stays; an operator the type lacks stores null
  (`dc_op_fail`, 47-49). A null column and a list element are stored without a range check (326, 336), a null list
  is read as a list (333), division by zero panics, and the roll back runs forwards and does not undo list
  pushes (360-364). `Dml.C32_*_violated`.
* C31. A model may have a nullable primary key (C35). Null is then stored under a key of no type, shown as 0
  or as an empty string, and unreachable for WHERE (`core/index/key.rs`, `core/dml/mod.rs:57-70`). A failed
  UPDATE can change the row (C32). `Dml.C31_*_violated`.
* C33. A schema change is stored under the version before the change (`core/model/delta.rs:133-142`), a row gets
  the version at its insertion (`core/dml/ins.rs:57`), and `resolve_iter_since(v)` starts at `v + 1`
  (`core/model/delta.rs:115-120`): every row misses the first change after its insertion. UPDATE does not
  resolve the row at all (`core/dml/upd.rs:275-290`). `Dml.C33_*_violated`.
* C46. Resolving an added column stores null whether or not the column is nullable (`core/index/row.rs:160-170`),
  and `ALTER MODEL ADD` accepts such columns; `dc_op_fail` stores null. `Dml.C46_*_violated`.
* C11. A failed UPDATE that changed the row (C32) makes no delta, so the change is gone after a restart. A null
  primary key has no type tag and cannot be written. With two statements at once, versions are taken before
  the index is changed (`core/dml/ins.rs:57`, `core/dml/del.rs:46-60`), so an inserted row can be overtaken by
  an older delete, and the version counter restored from the last batch can be too low
  (`mdl_journal.rs:620-660`). `Batch.C11_*_violated`.
* C12. A batch stores the values without column names, and the reader zips them with the columns the model has
  when it is read (`mdl_journal.rs`, restore). `Batch.C12_*_violated`.
* C13. An UPDATE holds the row, not the index, when it appends its delta (`core/dml/upd.rs`), so its delta can
  follow that of the DELETE in the queue or in a later batch. `Batch.C13_*_violated`.
* C14. When a row of a batch fails, its delta is put back and counted again (`mdl_journal.rs:238-242`,
  `core/model/delta.rs:95-98`) although the task is posted again with a size that includes it
  (`fractal/mgr.rs:302-316`). When the end of the batch fails, all its deltas are gone from the queue. Later the
  writer dequeues from an empty queue and aborts (`mdl_journal.rs:234`). Rows are flushed one by one, so after a
  failure at the second row the driver never recovers (`raw/mod.rs:570-581`); after a failure at the first one
  the partial checksum and the transaction number are stale, and the file cannot be opened.
  `Batch.C14_*_violated`.
* C16. `_update` and `_upsert` of an existing key unlink the node and link it at the end (`idx/stord/mod.rs:524-529`),
  so `ALTER MODEL … UPDATE` reorders the columns; positional INSERT, `SELECT *` and the column order of stored rows
  change with it. `Ord.C16_update_reorders_violated`, `Ord.C16_every_update_reorders_violated`. The consuming iterator
  (`iter.rs:294-308`) frees a node and then reads its `p`, and never frees the sentinel; it runs for every model that
  is restored. `Ord.C16_owned_iterator_violated`. From the back it keeps the freed node as its end: `Ord.C16_owned_back_violated`.
* C36. `with_model_space_mut_for_ddl` (ALTER MODEL) takes the model map and then the space map (`core/mod.rs:135-139`);
  CREATE MODEL, DROP MODEL and the forced DROP SPACE take the space map first (`core/mod.rs:105-106`,
  `core/model/mod.rs:338, 367`). The two deadlock under some schedule, and then every statement on rows waits for ever.
  `Locks.C36_alter_model_deadlock_violated`, `Locks.C36_deadlock_stops_all_rows_violated`.
* C37. `try_write_model_data_batch` (`fractal/mgr.rs:518-558`) does not call `report_fault`, but the recovery
  (`fractal/mgr.rs:361`) and a forced DROP SPACE (`core/space.rs:279`) call `report_recovery`: the counter wraps
  to 2^64 - 1. `Fractal.C37_*_violated`.
* C21. Six statements read past the last token or treat a token as a literal that is not one: `select * from m` with a
  current space (`ql/ast/mod.rs:87-104`), an insert that ends with `[` (`ql/dml/ins.rs`), a create model that ends with
  `primary k` (`ql/ddl/crt.rs`, field list), an `alter model a.b` without an action, an `alter model … add x { … type …`
  without its end (`ql/ddl/alt.rs`, `ql/ddl/syn.rs`), and `select all … limit x` (`ql/dml/sel.rs`). Three statements are
  accepted although their end is missing. `Ql.C21_*_violated`. The partial theorem excludes exactly those shapes.
  The recursion depth of dictionaries, lists and types is not modelled; deep nesting could exhaust the stack.
* C47. The parsers compare the number of remaining tokens with minima that are too high: a model with one column
  (`ql/ddl/crt.rs:137`), a last column `x {}` in ALTER MODEL (`ql/ddl/syn.rs:423`), a user without options
  (`ql/dcl.rs:90`) and a row without values with a short name (`ql/dml/ins.rs:350`) are refused, and `select * from m`
  crashes (C21). The property excepts them. `Ql.C47_one_column_refused`, `Ql.C47_empty_row_refused`.
* C48. The answer to INSPECT SPACE ends with two braces and opens one (`core/ddl_misc.rs:96`), so no JSON parser accepts
  it. `Server.C48_inspect_space_violated`. A declaration marks the primary key with `*` whether it is nullable or not
  (`core/model/mod.rs:147-157`); the property does not ask for it.
* C50. What C31, C32 and C33 report can be reached from query texts. `Server.C50_violated`.
* C51. The shell reads literals wrongly. After an escape in a quoted text the backslash is pushed as well
  (`cli/src/query.rs:187-206`); the slice of binary data includes the closing accent (`:305-317`); a number
  that begins with a minus sign is read as empty, because the minus sign is itself taken for the end of a
  number (`:248-264, 296-304`); a blank does not end a floating-point number and a line feed does not end a
  whole number; a question mark outside of texts is sent as it is and takes the parameter of the literal
  that follows; `&qstr[..8]` panics inside of a character. `Cli.C51_*_violated`.
* C52. `FixedVec::drop` calls `clear`, which sets the length to zero, and then deallocates an array of *length*
  elements (`mem/fixed_vec.rs:132-141`): every buffer of a log writer (8 KiB) is leaked when the writer is dropped.
  `Mem.FixedVec.C52_fixedvec_leak_violated`. `IntoIter::_next` of `VInline` reads through a pointer that is cast to
  `*const Option<T>` (`mem/vinline.rs:331-354`): past the end of the vector, or garbage, for a `T` whose `Option` is
  larger. It is not called by the server at this commit. `Mem.VInline.C52_vinline_iter_violated`.
* C55. `parse_cli_args` splits an option at every `=` (`config.rs:693-706`), so `--auth-root-password=a=b` is
  refused; every variable of the environment is split at commas (`config.rs:765`), so a password or path with a comma
  is refused; endpoints are split at every colon, so addresses of version 6 are accepted from a file only
  (`config.rs:446-449`); the minimum length of the password is counted in bytes (`config.rs:962`). A repeated root
  password is reported as "too many values" for the plugin, and missing TLS files in the environment as an error of
  the command line. `Config.C55_*_violated`.
* C56. What C12, C32, C31 and C35 report can be reached from query texts and restarts. `Server.C56_*_violated`.
* C57. `SELECT ALL` holds the latch of the index exclusively, which stops INSERT and DELETE, but locks the rows one by one
  (`core/dml/sel.rs:217-263`), and UPDATE does not take the latch (`core/dml/upd.rs:260-270`). An answer can hold the
  new value of one row and the old value of another that was changed, and acknowledged, before.
  `Dml.Par.C57_select_all_violated`. A `SELECT ALL` also changes rows that have older columns (it brings them up to date), so that an
  UPDATE which failed before succeeds after it: `Dml.Par.C57_old_rows_violated`; without such rows it is invisible to the other
  statements (`C57_others_partial`).
* C58. After an upgrade the version counter of each model starts at 0, while the rows keep the versions of their last change in the old
  installation. An UPDATE of such a row before the next restart is written with a smaller version than the row: the restart ends in the
  assertion of `mdl_journal.rs` (`Server.C58_update_violated`). A DELETE is taken for older than the row, which is there again after the
  restart (`C58_delete_violated`). `FullModel` writes the number of schema changes of the old installation, but the new log of the
  catalogue declares the model with its present columns and no changes, so that the old rows do not see the next columns that are added
  (`C58_columns_violated`). The old files are moved away before the new ones are written: after a crash in between, the next start
  finds neither and sets up an empty installation, and after a crash between the moves it does not start (`C58_crash_violated`; the data
  is still in the backup directory). The start that upgrades does not set the root password of the settings
  (`C58_root_password_violated`).
* C59. `load_journal` appends the record of an opening before the data files are read, and the record of the closing is written
  afterwards (`v1/raw/journal/raw.rs:59-66, 390-403`): a crash in between leaves a log that every later start refuses
  (`Old.C59_crash_violated`). A write that failed without leaving anything is followed by a reversal with the id that is expected, and
  this is an error in the reader, while the path for it (`raw.rs:208-215`) is for other ids and moves the file below its buffer
  (`C59_failed_write_violated`). `DISPATCH[opc.min(DISPATCH.len())]` is outside the table for every unknown code above 8
  (`C59_unknown_event_violated`).
* C60. Each data file gets the mark of an opening when it was read and the mark of the closing when all files were read
  (`v1/raw/batch_jrnl/persist.rs:43-58`, `v1/loader.rs:44-93`): a crash in between makes the files unreadable
  (`Old.C60_crash_violated`). Values are given to the columns that the model has now (`restore.rs:230-245`, `C60_removed_column_violated`).
  A deletion without its row is `unreachable!()` (`restore.rs:288-291`, `C60_missing_key_violated`). After an error inside of a batch the
  reader looks for the mark of a failed write at the place where it stopped, which for a batch that was partly written is never the
  place of the mark, since the version of a record is read before its kind is looked at (`restore.rs:355-357, 410-417`,
  `C60_failed_write_violated`). Lengths are used before the checksum is looked at (`C60_damaged_length_violated`), and bytes of a version
  that is cut off can be the mark of a failed write and of the end (`C60_truncation_violated`).
* C61. A crash of the reader of a data file (C60) leaves the log of the catalogue open, since it is only closed after an error
  (`v1/loader.rs:80-85`): no later start accepts it (`Old.C61_crash_violated`). `sys.db` is an encoded dictionary without a checksum
  (`v1/raw/sysdb.rs:72-74`): every change of a byte of a hash is accepted (`C61_damaged_users_violated`). A file that was cut off within
  a value is read behind its end (`C61_cut_users_violated`; the scanner does not check lengths).
* C62. The shell decides by the text of the query which space is in use (`cli/src/repl.rs:89-105`): `use null` with a blank behind it
  shows the prompt `null> `, `use $ current` shows `$> `, and `use $current` succeeds for a space that was dropped and keeps its name in
  the prompt (`Cli.C62_prompt_violated`).
* C63. The shell shows binary data like a list of numbers, does not escape backslashes, and with `--eval` writes texts without
  quotes (`cli/src/resp.rs`): different answers look the same (`Cli.C63_shown_violated`, `Cli.C63_eval_violated`).
* C64. `read_password` takes only keys without modifiers (`cli/src/args.rs:189-201`), and the terminal library reports capital letters
  with the shift modifier: they are missing from the password (`Cli.Start.C64_capitals_violated`). `extract_arg` splits at every equals
  sign (`libsky/src/lib.rs:162-175`, `C64_equals_violated`). `--tls-cert` is taken from the arguments and dropped for `tcp`
  (`args.rs:115-120`, `C64_certificate_violated`). `[::1]` is refused (`C64_ipv6_violated`). `--eval` sends the query without
  parameterizing it, so literals are refused by the server, and the result of `format_response` is dropped, so the exit code is 0
  (`cli/src/main.rs:53-62`, `C64_eval_violated`).
* C65. `query_loop` reads before it looks at the buffer (`net/protocol/mod.rs:165-176`): a query that came together with the handshake
  waits for more bytes, and of two queries that arrive together neither is executed (C23; `Server.C65_pieces_violated`). A handshake can make the server read outside its buffer before anybody is
  authenticated (C25, `C65_undefined_violated`).
* C66. `drop_user` removes the account, and `query_loop` keeps the user that the handshake found (`core/system_db.rs`,
  `net/protocol/mod.rs`): sessions that are open stay open with all their rights (`Server.C66_open_sessions_violated`,
  `C66_new_password_violated`).
* C67. `general_executor_svc` and `hp_executor_svc` wait for the same broadcast as the connections (`fractal/mgr.rs:250-285, 424-435`),
  and `start` joins them only after the connections (`engine/mod.rs:184-187`): the last pass over the models can be over while a
  statement is executed and acknowledged (`Halt.C67_late_change_violated`). The pass writes as many changes as were counted, from the
  front of the queue, and `append_new_data_delta` counts after it has put the change there (`core/model/delta.rs:95-98`): a change that
  was acknowledged before the signal can be left (`C67_other_change_violated`). Tasks are posted with `unwrap` to the executor that may
  have exited: after the counter was taken (`fractal/mod.rs:164-172`, `C67_full_queue_violated`), or in the middle of the pass
  (`fractal/mgr.rs:550-556`, `C67_failed_write_violated`). `run_blocking_stmt` gives the pool references that are transmuted to
  `'static`, with the comment that the only await is in the block; but the `select!` of `ConnectionHandler::run` drops the future at this
  await when the signal comes (`core/exec.rs:177-188`, `net/mod.rs:130-147`, `C67_freed_memory_violated`). The queue with the
  directories to remove is not looked at after the signal (`C67_directories_violated`).
* C68. `listen_tcp` drops its permit after `tokio::spawn` (`net/mod.rs:216-239`), `listen_tls` takes none: `Net.Listener.C68_limit_violated`.
  `listen_tls` waits for the handshake of a client inside the accept loop (`net/mod.rs:264-271`, `C68_tls_violated`).
* C69. The lock file is removed at the end (`/server/src/main.rs:119-123`), so a server between `File::create` and `flock`
  (`/server/src/util/os/flock.rs:45-80`) gets the lock of an inode without a name: `Os.Pid.C69_two_servers_violated`.
* C58. If the server crashes while it moves the old files, no later start succeeds until they are moved back:
  `Server.C58_stuck_violated`.
* C70. `VirtualDatacell::new` drops its literal (`data/cell.rs:515-524`): `Mem.C70_owned_literal_violated`. `PrimaryIndexKey::clone`
  has its cases the wrong way round (`core/index/key.rs:52-73`): `Mem.C70_clone_violated`. `Datacell::eq` panics for a Boolean and
  null (`data/cell.rs:421`): `Mem.C70_compare_violated`. `Hash` leaves out the integer of a key (`core/index/key.rs:237-242`, since
  `virtual_block` is empty for integers), so all rows of such a table are in one list: `Mem.C70_integer_keys_violated`.
* C71. `driver_context` tests the health of the log before it takes the mutex, and not again afterwards
  (`fractal/drivers.rs:63-66`): a statement that was waiting writes the record of the one that failed together with its own. The
  failed statement is carried out by the next start; if it was tried again, the log has it twice and the server does not start:
  `Ddl.C71_race_violated`.
* C72. A connection of the benchmark that gets no query unwraps a start time that is not there
  (`sky-bench/src/runtime/fury.rs:332`), its task dies, and the main task waits for its result for ever since the other
  connections keep the channel open. With fewer queries than connections this always happens
  (`Bench.C72_fewer_queries_violated`), otherwise if the other connections are fast enough
  (`Bench.C72_fast_connection_violated`). The engine with threads has the same defect
  (`Bench.C72_rookie_fewer_queries_violated`), and if a thread has panicked it also loses the error of another one, because the threads
  are joined first (`sky-bench/src/runtime/rookie.rs:367-378`): `Bench.C72_rookie_report_violated`.
* C74 is weaker than C17: with the orderings of the code a dequeue may answer "empty" although an enqueue has already returned, if
  nothing else made the one happen before the other (`Weak.Queue.C74_stale_empty`). The batch writer is not affected (C75).
* C76 is weaker than C40 in the same way: a lookup may miss an insertion that has returned (`Weak.Index.C76_stale`). The system calls
  through which clients learn of each other's answers are such a synchronisation in practice; they are not modelled.
* C77. Queries that get no answer because the task of the connection panics, from texts: `update m set n /= 0`, `+=` on a null list,
  the six shapes of C21, `nullable: null`, `select all` after `alter model add` on a model with rows, and `alter model` after a
  failed forced `drop space` (`Server.C77_violated`). Any user can send the first three. `Server.C77_answered_partial`: there are
  no others.
* C78. With clients at the same time, the order that the clients see is that of the index, the order that the file restores is that of
  the versions, which are drawn before. For an INSERT or UPDATE and a DELETE of one key at the same time the two differ
  (`Batch.Many.C78_violated`, in which no map explains the answers and the restart). `C78_durable_partial`: these overlaps, and a
  counter that is behind after a restart, are the only causes: all other statements may overlap in any way.
* C80. `Lazy::deref` sets a flag, runs the initialiser and clears the flag (`sync/cell.rs:85-114`). If the initialiser panics, the flag
  stays set: all threads that use the value afterwards spin for ever (`Weak.Lazy.C80_panic_blocks`). `Drop` gives the `Box` back only if
  `needs_drop::<T>()` (`sync/cell.rs:126`): for other types the memory is lost (`C80_leak_violated`). Only in-memory file systems for
  tests use `Lazy`, as statics, so that neither can be seen in production.
* C81. `restore` opens the log of the catalogue and then the data files one after the other; opening a log appends a "reopened" event
  (`raw/mod.rs:67-77, 499-516`). If a data file is missing or is refused, the error is returned at once (`storage/v2/mod.rs:131`), and
  `entrypoint` calls `engine::finish` only if loading succeeded (`main.rs:106-119`). The log of the catalogue and the data files opened
  before are left without a closing event. From then on every start is refused, whatever data files are put back
  (`Server.C81_failed_start_violated`, for every history; `C81_missing_file_violated`, a run with a file that is missing once). A first
  start that is interrupted anywhere leaves a log that is refused, and the next start does not make a new one
  (`C81_first_start_violated`).
* C82. Nothing new: C65 (pieces) seen over a restart, a row that was sent is there or not depending on the pieces in which it arrived
  (`Server.C82_pieces_violated`). Not in the model: `ConnectionHandler::run` drops the whole `query_loop` when the server stops
  (`net/mod.rs:124-146`), so that a query that is being executed can be committed without a reply.
* C83. A damaged file is never accepted, but the start may crash instead of reporting an error. Bytes are used before they were checked:
  `vec![0; plen]` with the length of an event (`raw/journal/mod.rs:132-134`, `Server.Damage.C83_catalogue_length_violated`) and with the
  length of a text (`mdl_journal.rs:725-730`, `C83_text_length_violated`); the kind of an event is under no checksum but that of the whole
  file, so that the wrong reader runs on a payload (`C83_catalogue_kind_violated`); a tag that does not exist becomes a value of
  `TagUnique` (`C83_key_tag_violated`, undefined behaviour); and rows are put in before the checksum of their batch is compared, so that a
  changed version fails an assertion (`C83_version_violated`).
- C84: the maps from names of columns use a hasher without a seed and without mixing (`idx/meta/hash.rs`), so that anyone who may
  create models can choose columns that all have the same hash (`C84_flood_violated`); lookups in such rows are linear. And
  `Borrow<EntityIDRef> for EntityID` (`core/util.rs:142-146`) turns a reference to one structure into a reference to another, although
  neither has a fixed order of fields (`C84_borrow_order_violated`; with the same order it is right, `C84_borrow_partial`).
- C85: if a file of an old installation cannot be renamed into the backup directory (for example because a part of
  `data/` is on another device), the upgrade stops with what it has moved so far. Nothing is lost, but the files are not moved back: `sys.db` is
  still there, so every later start is again an upgrade, and fails because files of models are missing (`C85_other_device_violated`). The
  same holds after a crash in the middle.
- C86: after a crash (a kill, a loss of power) no data file to which a session was opened is accepted by the next start, since it does not
  end with the record of a clean shutdown: `Batch.C86_crash_is_refused_violated`, between two operations and in the middle of a batch. There is
  no repair in this version. The rows are in the file (`C86_rows_are_in_the_file_partial`). But a batch is ordered with the number of changes
  at that time and leaves out rows that were changed again before it is written, so that the file need not hold the state after any prefix
  of the statements: after INSERT 1, INSERT 2, UPDATE 1 it may hold row 2 only (`C86_no_prefix_violated`).
- C58: also an INSERT before the first restart after an upgrade does harm. The row is kept, but the counter of versions goes on from it and
  not from the largest version in the file (`__set_delta_version`, `mdl_journal.rs:608-610`). After that restart a DELETE of an old row is undone by
  the next one, and an UPDATE of an old row keeps the server from starting (`C58_insert_violated`).
- C87: `tokio::select!` in `ConnectionHandler::run` (`net/mod.rs:129-147`) drops the task of a connection wherever it waits. A statement may have
  been executed and logged, and the client gets nothing or a part of the answer (`Net.Writer.C87_cut_violated`). A statement on the
  blocking pool is executed after its connection was ended (`C87_orphan_violated`).
- C89: errors of storage and of transactions take the context of the thread with them when they are converted
  (`fractal/error.rs:299-317`, `pop_origin`, `pop_dmsg`), also if the converted error is thrown away. `decode_entry_key` throws one away for a
  name that is not UTF-8 (`common_encoding/r1/map.rs:216-218`), and the error that is then reported has no context
  (`Diag.C89_dropped_violated`); so does the repair of an old log (`v1/raw/journal/raw.rs:245`, `C89_repaired_violated`).
  `set_dmsg` on results drops the part of the server (`net/mod.rs:178, 259`; `C89_origin_violated`). The thread that ran `load_all` keeps
  its context and goes on to run statements; the message "GNS driver failed with" then names the last model that was loaded
  (`fractal/drivers.rs:74`, `C89_stale_violated`). `Subsystem::as_str` has the word "error" in three of four names, and `Display` adds it again.
- C90: the table of `sky-bench` has the heading "Effective real-world QPS". Both engines compute the end of a worker as its start plus the sum of
  the times of its queries (`runtime/fury.rs:191`, `runtime/rookie.rs:330`). The time between two queries (preparing a query, checking an
  answer, waiting for a processor that is shared with other workers) is missing in the time of the run, so the number is too high:
  `Bench.Report.C90_time_violated` has, for every factor, a run that took more than that many times as long as reported.
- C91: all tests of the storage run on a file system in memory (`storage/common/interface/vfs.rs`). It differs from a real one: `fs_rename` drops a
  descriptor while the caller holds the lock that `Drop` takes (`vfs.rs:89, 232-241`, `fs.rs:131`), so it never returns
  (`Vfs.C91_rename_violated`; the backup before an upgrade, `storage/v1/mod.rs:65`, cannot be tested with it). Position and permissions
  belong to the file and not to the descriptor (`C91_two_violated`), a descriptor of a removed file panics when it is dropped
  (`C91_close_violated`), and `seek`, `truncate` and `create_dir_all` have other results (`C91_seek_violated`, `C91_truncate_violated`,
  `C91_create_all_violated`). A buffered reader has no buffer there, so that setting its position back, as in the recovery of old logs, works in
  tests and not on a disk (`C91_buffered_violated`, see also C59).
- C92: `FractalRTStat::init` (`fractal/mgr.rs:135-143`) shares two percent of the free memory between the models that exist when the server is
  started, and the limit never changes. Models that are created later each get the whole share: sixty models on a server that was started
  empty can hold more changes than there was free memory, without a batch ever being asked for (`Fractal.Limit.C92_models_violated`).
  Statements do not wait for the tasks that they post, so that with a slow disk the changes in memory have no bound
  (`C92_backlog_violated`). In `fractal/mod.rs:158-161` the rule about five percent of the rows is joined to the other with `&`, and then
  with `|`, and has no effect (`C92_rule`). If the free memory cannot be read, it is zero, and every change is a batch of its own.
- C93: `TaggedEnum::try_from_raw` (`util/compiler.rs:85-94`) only compares with the largest number. `TagUnique` has the numbers 0 to 3 and 255, so
  that nothing is refused: 4 to 254 are undefined behaviour (`Enc.Tags.C93_key_violated`), and 255 is accepted and reaches code that is
  marked as impossible because `try_from_raw` would have rejected it (`C93_illegal_violated`; `mdl_journal.rs:668-671`,
  `restore.rs:491-494`). `parse_event_meta` (`storage/v2/raw/journal/mod.rs:100-102, 243-245`) cuts a number of eight bytes to one before the
  check, so that a damaged kind of a record is taken for an existing one (`C93_meta_violated`). The checksum of the file
  shows the damage later, after the record was applied (C83).
- C94: `general_executor_svc` (`fractal/mgr.rs:428-441`) makes a new timer in each round of its loop, so that every task of the low priority
  starts the window anew: models that are dropped more often than the window keep the changes from being written at fixed times
  (`Fractal.Periodic.C94_busy_violated`). A removal that fails is posted again without end ("TODO threshold"), waits half a minute inside the
  loop, and then is in the channel whenever the timer would be made: as long as it fails there is no periodic write. `remove_dir_all` of a
  directory that does not exist fails too, so that one error while a model is removed, followed by `DROP SPACE`, is enough for this to
  last until the server is stopped (`C94_gone_violated`). Tasks in the channel are not done when the server is stopped, and the
  directories stay (`C94_stop_violated`; C67 has the same for the server as a whole).
- C95: failed repairs are posted with `Task::new` (`fractal/mgr.rs:340-342, 366-368`), that is with the full threshold, and only tasks with
  a lower one pause: as long as a repair fails it is tried again at once, and each attempt is written to the log of the server
  (`Fractal.Urgent.C95_pause_violated`). A batch that failed does pause, but inside the loop that serves all models
  (`mgr.rs:273-277`): each of them stops the others for half a minute (`C95_others_violated`). `__lwt_heartbeat`
  (`storage/v2/raw/journal/raw/mod.rs:570-581`) does not cut off a part of a record, so that after a batch of which a part was written it
  never succeeds; after the signal `hp_executor_svc` works until the channel is empty (`mgr.rs:285-293`), and the repair is posted again in each
  round: the server does not stop (`C95_stop_violated`, `C95_torn_violated`). C67 shows the end of the server if writes succeed.

## 6. What is modelled and what is not

Modelled (module under `lean/Verif` in parentheses):

* storage v2: raw journal, readers, repair-free recovery, model batches with concurrency and restart (`Journal`, `Batch`), the
  encodings of cells, dictionaries, objects and events (`Enc`, `Data`), file headers (`Header`), buffered writers (`Journal/Rw`)
* storage v1 (read only, for upgrades): log, data files, system database, loader (`Old`); `server_version` (`Header`)
* the catalogue: spaces, models, accounts, their transactions and the restart (`Gns`); locks, statements at the same time (`Locks`); health (`Fractal/Health`)
* rows: insert, update, delete, select, truncate, schema changes, deltas (`Dml`), also by several connections (`Dml/Par*`)
* indexes: the concurrent trie (`Trie`, `Trie/Conc`), the ordered index (`Ord`), the queue (`Queue`)
* memory: words, literals, cells, keys, fixed vectors, inline vectors, arrays, names, reference counts (`Mem`, `Sync`)
* query language: both lexers, all parsers, the grammar (`Lex`, `Ql`)
* network: handshake, packets, replies, accept loops, conversations (`Net`, `Server/Hub`)
* the server as a whole, from texts and bytes, with restarts and upgrades (`Server`)
* settings (`Config`), shell (`Cli`), shutdown (`Fractal/Halt`), limit of waiting changes (`Fractal/Limit`), periodic writes and removals (`Fractal/Periodic`), urgent tasks (`Fractal/Urgent`), lock file (`Os`), benchmark (`Bench`), memory orderings (`Weak`), context of errors and the start (`Diag`),
  the file system of the tests (`Vfs`)

Not modelled:

* `sky-macros` apart from the derived conversions (`Enc/Tags`), `harness`, `libsky` apart from version strings and terminal helpers
* TLS, the operating system interface (`util/os`: host name, memory, directory listing) apart from the lock file
* the file system of the tests of the old format (`storage/v1/raw/memfs.rs`), test helpers
* weak memory, apart from the reference counter, the queue, the counter of changes, the primary index and `Lazy` (`Weak`): all other atomics are sequentially consistent in the model
* progress of the primary index as a whole (lock-freedom): C88 shows that no operation waits for a stopped thread and that lookups return, not that of several changing threads one always returns; a single insertion can be kept from returning (`Trie.Conc.teased`)
* the hash functions: the trie is proved for every hash function; of the hasher of column names see C84
* the allocator, memory limits (apart from the limit for waiting changes, C92), time (apart from the back-off of C68 and the services of C94 and C95)
