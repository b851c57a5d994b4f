# Machine-checked model of pogocache

Source: `/repo` (C, pinned commit), read as text only, never built or run. Proofs: Lean 4.33.0 with Mathlib, in `lean/`.
Statements of the properties: `properties.jsonl`. Which theorem answers which property: `MANIFEST.json`. Wrong programs tried
against the theorems: `seeded/LOG.jsonl`.

## 1. Trusted base

* The Lean 4 kernel, and for every theorem at most the three standard axioms `propext`, `Classical.choice`, `Quot.sound`. Section 7
  lists them per theorem (`tools/axioms.py`). No axioms of our own, no `sorry`, no `native_decide`, no `bv_decide`.
* The translation of C into Lean by hand. Every definition of a model cites the file and the lines it translates and says where it
  simplifies. Nothing ties the Lean text to the C text mechanically. Section 4 says which code is modelled and which is not.
* The specifications: small definitions next to the theorems (sections "Specification"), or in `Cache/Spec.lean` for the engine.

## 2. Conventions of the model

* A byte string is `List UInt8` (`Bytes`). C integers are `Nat`, `Int`, `UInt8`/`UInt64` or `BitVec`, with the wrap-around explicit
  where a type of C can wrap and the simplification stated where it was left out.
* A loop without an obvious bound gets fuel; running out of it is an outcome of its own (`hang`), and the theorems show it does not occur.
* Undefined behaviour (access out of bounds, NULL, double free, use of an argument that does not exist) is an outcome (`ub`), never
  turned into a harmless value.
* Memory allocation is an explicit input (which requests fail), in the engine. `xmalloc` of the server gives up: outcome `abort`.
* Callbacks, hash functions, the answers of the kernel and the interleaving are arbitrary; theorems quantify
  over them.
* A property that is false of the code has a theorem with a concrete witness (or for all inputs of a kind) and a theorem with the suffix
  `_partial` for the part that is true.
* Beside the theorems stand `example`s: a concrete case that meets the hypotheses.

## 3. Per property: model and proof

Directories are below `lean/Verif/`.

| id | model | how it is proved; what is missing |
|----|-------|-----------------------------------|
| C01 | `Map` (Robin-Hood table), `Shard` (operations), `Cache` (shards, API) | invariant by induction over histories; refinement to `Cache/Spec.lean` (a dictionary with expiry and tokens). Missing: states in which an 8-bit distance wrapped, where the statement is false (C10); for at most 254 keys per shard excluded by proof |
| C02 | `Sixpack`, `Entry` | round trip by induction over groups of four, tables checked completely |
| C03 | `Entry`: `entry_new` as encoder, accessors as decoders | round trip for all fields and switches |
| C04-C09 | `Cache/Effect`, `Cond`, `Tokens`, `Iter` | from the refinement and from exact descriptions of each operation's effect. C05 false for NX with CAS |
| C10 | `Cache/Collide` | false: for every hash function 256 colliding keys lose one; partial: `Cache/Small` |
| C11, C12 | `Cache/Iter` | false in part (double visit after backward shift); partial theorems for what is true |
| C13 | `Cache/Counters` | count exact; the others drift (witnesses), exact without the drifting calls |
| C14 | `Cache/Alloc` | two allocations cause undefined behaviour in every state; all others are safe |
| C15, C16 | `Cache/History` | replay of the event log; routing |
| C17, C18 | `Cache/Cursor` | complete if only expiry happens; a cursor with upper half = number of shards is out of bounds |
| C19, C20 | `Conc/Model`, `Cache`, `Deadlock` | interleavings of any number of threads at the level of lock operations; commit order simulation; deadlocks as witnesses |
| C21 | `Conc/Refs` | invariant: counter = number of references |
| C22-C25, C55 | `Num` | round trips, exact arithmetic; C55 false for blank and minus |
| C26 | `Glob` | equivalence with a denotational meaning; two kinds of patterns fail |
| C27 | `Crc` | linearity of the table step; up to four adjacent bytes |
| C28, C30 | `Save/Model`, `Format`, `Restore`, `Damage` | from the cache through the file to the cache, for every codec with the documented contract of LZ4; `Lz4.lz4_good` proves the contract for the model of `lz4.c` |
| C29 | `Save/Atomic` | file system with kills at every step, any number of threads and saves |
| C31 | `Save/Term` | all interleavings of signals, loading and the ticker |
| C32-C36, C56, C57 | `Resp` | parser and printer against independent encodings; streams: every split |
| C37-C39, C58, C59 | `Mc`, `Cmd/McStore`, `Conn` | request grammar against the parser; effects through to the cache |
| C40 | `Conn`, `Http` | invariant over all byte streams, all protocols |
| C41-C43 | `Pg` | message framing, statement, parameter map for any hash function, literals, UTF-16 escapes |
| C44 | `Http` | request grammar with header fields in any order |
| C45-C49, C60 | `Cmd` | commands as programs over the cache, linked to the engine by `Cmd/Link.lean`; any interference between their steps |
| C67, C68 | `Cmd/McGet` | a separate client reads the reply bytes back; touch through EXPIRE |
| C69, C70 | `Cmd/Admin`, `Safe`, `OneReply` | every command as a program, shapes of all results by cases; a separate reader of reply bytes |
| C71 | `Cmd/Scan`, `Cmd/ScanCmd` | walk of the cursor (`Cache/Cursor`) under the loop of SCAN; the options of SCAN in any order, and that every page asks for at least one bucket's worth |
| C72-C74 | `Cmd/AdminProps` | programs over the cache, one call per shard; any interference in between |
| C75 | `Net/Bg` | one connection in the loop of `qthread` with background work; any protocol with framed requests |
| C76 | `Http/Response` | `parse_http`, the command and `conn_write_http` in one program; a separate reader of responses |
| C77 | `Mc/Reply` | `parse_memcache`, the command and `write_error` in one program; a separate reader of replies; *false* for `replace` and `cas` on a missing key (finding 42) |
| C78 | `Cmd/PgReply`, `Pg/Reply`, `Pg/ReplyProps` | `parse_postgres`, `pg_precommand`, the command, `pg_respond` and the writers in one program; a separate reader of messages; QUIT and the crashes of C69 left out |
| C79 | `Pg/Extended` | the same reader for Parse, Bind, Execute, Sync; *false* after a failed Parse (finding 43) |
| C80 | `Pg/Extended` | *false*: a failed Parse followed by Bind and Execute runs the old statement (finding 44); the failed message itself is harmless |
| C81 | `Pg/Login` | startup, password and encryption messages; all parameter lists without empty values; *false* with empty values and for Describe of a portal (finding 45) |
| C85, C86 | `Lz4/*` | compressor and decoder of `lz4.c` on buffers with bounds; the format is a separate specification (`Seq`, `block`, `play`); the compressor writes a block that means its input, the decoder answers what a block means; *false* beyond 2113929216 bytes (findings 12, 48) |
| C84 | `Cmd/Service`, `Pg/Service` | command line to reply as read by a separate reader; DBSIZE tied to C13; *false* for SELECT of negative numbers (finding 47) |
| C50, C62 | `Net/Admit` | atomic operations on the counter, any interleaving |
| C51 | `Net/Uring` | arbitrary completion order |
| C52, C66 | `Main/Options` | all command lines of documented options; the checks |
| C128 | `Main/Short` | what the short options mean, for all command lines; *false* where a later `--maxmemory` should replace an earlier `-m` (finding 35) |
| C53, C65 | `Net/Out` | buffer with capacity, any answers of the socket |
| C54 | `Main/Monitor` | reading a line back |
| C61 | `Args` | ownership of each buffer, multiset of owners |
| C63 | `Net/Tls` | all sequences of accepts, refusals and closes |
| C64 | `Net/Cmap` | any hash function, any sequence |
| C82 | `Net/Loop`, `Net/LoopInv`, `Net/LoopProps`, `Net/LoopBroken` | `qthread` step by step, with memory, table, epoll and queues apart; a log of what happens to each connection |
| C83 | `Net/Count`, `Net/LoopProps` | any number of threads and connections, four counters, each addition of `sumstats_global` and each read of STATS on its own.  `shown_exact`: the number shown is the number of counts published by then (`settled`, defined on the trace), so `shown_at_most`, `shown_own_partial` (all earlier packets of the client) and `shown_in_the_end_partial`.  *False* beyond that (finding 46).  `Net/LoopProps` has one thread and one counter, with closing and the background |
| C87 | `Net/TlsIo` | records, OpenSSL's buffer and epoll for any number of connections; *false* for full records (finding 49) |
| C88 | `Net/TlsIo` | the error queue of OpenSSL as its manual describes it; *false* (finding 50) |
| C89 | `Hashmap/*` | `hashmap.c` with any hash function, any sequence of insertions; *false* for 65536 names (finding 51) |
| C90 | `Hashmap/Props` | the same, with the items freed on the way and at the end; *false* for 65536 names (finding 51) |
| C91 | `Pg/Portal` | any messages between Bind and Execute; *false* (finding 52) |
| C92 | `Cmd/Stats` | the commands of `Cmd/Model` with the increments put back in (`evcommandC_fst`: nothing else changes); *false* for TTL, PTTL, wrong GETs, INCR of missing keys, APPEND without memory (finding 53) |
| C93 | `Cache/Autosweep` | `pogocache_sweep_poll` and a round of `autosweepticker`; the ratio with any correct rounding; *false* for shards of more than 20 entries and for sparse caches (finding 54) |
| C94 | `Main/Memlimit` | `calc_memlimit` over contracts for `strtod` and `double`, `memticker` over any sequence of measurements; *false* beyond 64 bits (finding 55) |
| C95 | `Cache/Lowmem`, `Cmd/Full` | `storeop` with `lowmem`; all programs that pass `lowmem` on; *false* for small shards and for INCR, APPEND (finding 56) |
| C96 | `Main/MonSession` | the loop of `monitor_work`; threads with `monitor_start`, `monitor_stop`, `monitor_cmd` in any interleaving; *false* for split and joined PINGs, between OK and the entry in the list, and for the order of concurrent commands (finding 57) |
| C97 | `Cross/Model`, `Cross/Props`, `Cross/Examples` | a request of each protocol from its bytes to the bytes of the answer (`serveResp`, `serveMc`, `Http.serve`, `Pg.serve`), composed of the parsers, commands and writers; clients are the decoders of C34, C67, C76 and C78 |
| C98 | `Wire/Spec`, `Wire/Model`, `Wire/Props`, `Wire/Examples` | a reference server in a page (`Serves`: a function from keys to values and deadlines, with one rule per case of a command; `serves_unique`: it has one answer), and the model of a RESP connection from bytes received to bytes sent (`serve`: `evdata` with the parser, `evcommand`, the commands, the shards with their hash tables, the writers).  `pipeline_served`: for all commands, packets and clocks the bytes sent are read back as the replies of the reference server.  Composed of C12, C34 (stream and replies), C01 and C03 (cache), and the theorems on commands |
| C99 | `Cross/Stats` | `stats`, `stats_printf` and `stats_end` with their buffers and `strchr`, 27 numbers.  A table shows a number (`Shows`) if the rows with its name are one row and the value reads as the number.  From request bytes to what the client reads for RESP (`stats_resp`), memcache (`stats_mc`) and Postgres (`stats_pg`) |
| C100 | `McWire/Spec`, `McWire/Model`, `McWire/Props`, `McWire/Conn`, `McWire/Examples` | a reference memcached server in a page (`Serves`, with `serves_unique`), the cases in which pogocache does something else with the exact bytes (`Off`; `off_is_off`: a client never reads the right reply there; `mc_not_served`: a concrete run), and the model of a memcache connection from bytes received to bytes sent.  `mc_served_partial`: for all commands, packets and clocks the bytes sent are those of a conversation with the reference server, up to `Off`; `talk_reads`: the client reads the replies; `cas_safe`: a `cas` that is STORED replaced exactly what was seen.  A new connection is recognised by its first line (`sniff_mc`) |
| C101 | `Cache/Forget`, `Many/Spec`, `Many/Model`, `Many/Exact`, `Many/Shape`, `Many/Parts`, `Many/Props`, `Many/Progress`, `Many/Examples` | the reference server of C98 serving one part of a command of any client at a time (`ServedByKey`; a part is one key of MGET, EXISTS, TOUCH or DEL, and any other command as a whole; `parts_whole`: together the parts are the command); the model has one thread per connection, each with parser, command and reply, on the locks of `Conc`.  `clients_served`: in every execution the replies of all clients are those of one order of all parts; `clients_answered`: the server never gets stuck with a complete command unanswered.  Threads may read clocks that do not agree: `Drops` says that a key which is gone by the clock of a command may be thrown away (and the cache does throw it away when it comes across it).  `Cache/Forget` proves for load, store and delete that this is all that can happen |
| C102 | as C101 | `one_key_answered_partial`: commands on one key are served one at a time as a whole (`Served`); `counter_exact`, `lock_once`: what this means for INCR and SET NX.  Commands on several keys are not atomic (`mget_not_atomic`: MGET a b sees b but not a, although a was set before b) |
| C103 | C101 before and after, C28 in between | `restart_served_partial`: the later clients are served from `moved (δ - δ') m`, where `m` is the store with which the first server ends: same values, same wall-clock deadlines.  By `clients_from` (C101 from any state, and the state when all are idle), `saves_show`, `loaded_dict` (C28 as a statement about the dictionary) and `restored_moved`.  Missing: a deadline at the very time of the load (false of the code, `deadline_at_load_time_never_expires`); commands during the save are C105 |
| C104 | `Many/LiveSpec`, `Many/LiveModel`, `Many/LiveProps`, `Many/Live`, `Many/LiveExamples` | `Live`: the parts of commands of `Next` (C101) and chores (show, sweep or clear one shard) one after the other; `ShardShown`: a list is exactly the contents of a shard.  `live` adds to the threads of C101 threads that take the lock of one shard, do `iterOp`, `sweepOp` or `clearOp` on it, and give it back.  `live_served` for all executions, by `Conc.serial` (any execution is one whose accesses to a shard are done at once, in the order of the commits), `client_part` (C101, one part) and `chore_exact` (one chore on the real shard is `choreDone` on the dictionary) |
| C105 | `Many/Live`, `Many/LiveExamples` | `live_restart_partial`: as C103, with the shards saved by chores of C104 while clients work and the process ending at any moment; for each shard the store `M i` at a moment of the first server, such that the later clients are served from the keys of each shard in its `M i`, moved to the new clock.  Missing: one moment for all shards, false of the code (`Example.save_not_snapshot`: all stores the reference server can have are shown to be different from what is in the file); a deadline at the very time of the load (C28) |
| C106 | `Wire/Flags`, `Mix/Spec`, `Mix/Model`, `Mix/Parts`, `Mix/McParts`, `Mix/Props`, `Mix/Examples` | `Story`: the parts of the commands of all clients one after the other (`Next`), each by `Mix.Serves`, which is `Wire.Serves` (C98) on what RESP clients see of the store together with `Kept` (what happens to tokens and flags), or `McWire.Serves`/`Off` (C100) on all of it.  `server` runs a thread for each connection as in C101, with the parser and the commands of its protocol, on the same locked shards.  `all_served` for all executions, by `Conc.serial`, `run_part` (one part of a command on the real shards, by `serving_resp` and `serving_mc`), `fetch_spec` (parsing) |
| C107 | `Mix/Cas`, `Mix/Examples` | `NoLostUpdate` and `OneWinner` speak of the events of a story of C106, their stores before and after.  `Moves`: what any event may do to a key (nothing, removal, or a token beyond all used); `Gone`: a token that cannot come back; both by induction along the story.  `cas_safe` puts this together with `all_served` |
| C108 | `Low/Spec`, `Low/Props`, `Low/Told`, `Low/Examples` | `Low.Serves` is the server of C98 with a third ingredient, how much room there is. `step_low`: a store under `lowmem` is refused, or is the store with enough memory followed by the loss of one other key; `sets_words`: SET, SETEX and SET with GET are each one store with the same options whatever `lowmem` says; then as C98. `never_wrong` by induction along the conversation, comparing with what the client was told |
| C109 | `Mix/HttpParts`, `Mix/Spec`, `Mix/Model`, `Mix/Props`, `Mix/Examples` | C106 with a third protocol: `Fetches` is what a request of an HTTP client does to what is kept, `Says` reads the response with the separate reader of C76.  `parse_head`, `parse_wait`, `parse_whole`: the parser waits for the whole body and then yields the command (C44), `http_done`: what the command does (C76 restated on the store of C100), `serving_http`, and the rest is `all_served`.  `sniff_http`: the first packet tells the protocol.  Left out: several of nx, xx, cas at once (C05), heads in several packets (`split_before_last_lf_refused`), requests that are refused (C76) |
| C110 | `Mix/PgParts`, `Mix/Spec`, `Mix/Model`, `Mix/Props`, `Mix/Examples` | C106 with a fourth protocol: `Queries` is what a query does to what is kept, `Says` reads tables and tags with the separate reader of C78.  `frame_wait`: the parser waits for the whole message; `query_run`: then the command runs (C42); `serving_pgget`, `serving_pgset`, `serving_pgdel`, `pg_count`, `pg_join`, `serving_rows`: what it does and sends, counting and joining in one batch, MGET key by key.  `query_kept`: the connection is the same after a query.  The same theorem `all_served` |
| C111 | `Main/Sys` (partial) | `sysMemory` is `sys_memory` with `strstr` as `find`; `Total` says what a file with the line is; `find_first` finds the first occurrence and not one that overlaps.  `percent_of_total_partial` joins it to `maxmemory_percent` (C94).  Negation `no_total_low` |
| C112 | `Main/Sys` (partial) | `countProcs` computes as the code does, with rationals for `double`; negation `one_thread_on_failure` |
| C113 | `Main/Xmalloc` | each call is two steps, the allocator and the atomic counter, and threads interleave between them; invariant: count + those about to add = blocks + those about to subtract.  `never_null`: a failed allocation ends the process |
| C114 | `Mix/Restart`, `Mix/RestartExamples` (partial) | C103 with all protocols: `Restarted` says that values, flags and deadlines are the same; `restarted_of` from `loaded_dict` (C28), then `clients_from` (C110) on both sides |
| C115 | `Mix/Restart`, `Mix/RestartExamples` (partial) | negation `restart_reuses_token`: two conversations with a save and a load in between, computed by the kernel; `counted_loads`: after the load no token is beyond its counter, so C107 holds among the later clients |
| C116 | `Mix/Progress` | as in C101: a locked shard belongs to the command in execution (`locked_exec`), which can go on (`act_some`); so if nothing can happen all are idle, and C110 gives the replies |
| C117 | `Mix/Ends` | what is left to do for a client (`left`: commands, calls, end of a call, locks) becomes less by each of its steps (`step_left`), in a well-founded order; the others' is unchanged; product of finitely many such orders (`Pi.Lex.wellFounded`) |
| C118 | `Hash/*` | false: `th64` is modelled with 64-bit words; two words can be put in place of two zero words in any state of the function (`mix_two`: a difference that is turned into the highest bit goes through the multiplication unchanged and is cancelled by the next word), so 2^n keys of 16n bytes agree for every seed; with C10's proof the cache loses an entry; partial: the function is injective on 8 bytes |
| C119 | `Save/Grammar` | both directions, against a grammar of files (`Number`, `EntryBytes`, `Entries`, `Blocks`) |
| C120 | `Glob/Time` | false; rounds of the loop counted beside the model of `match`; Pascal's rule gives the lower bound; partial: a power given by the number of stars |
| C121 | `Cmd/ScanGrow` | false (witness with 52 keys); partial: `Cmd/Scan` |
| C122 | `Mc/Auth` | false, for all bytes: the parser never makes the command AUTH |
| C123 | `Mix/LiveSpec`, `Mix/LiveModel`, `Mix/LiveProps`, `Mix/LiveCas`, `Mix/Live`, `Mix/LiveExamples` | as C104 with the clients of C110: `LiveStory` has the parts of commands of `Next` and the chores; `choreDone` leaves the tokens ever used as they are, so `no_lost_update_live` and `one_winner_live` follow by the argument of C107 (`Moves`, `Gone`) with chores as further moves.  `live_served` for all executions, by `known_step` (one part, C106) and `chore_exact` (C104) |
| C124 | `Mix/Live`, `Mix/LiveExamples` | `live_restart_partial`: as C105 with the clients of C110 on both sides; for each shard the store `M i` at the moment of its save (an event of the story), and the later clients are served from a store with the same values, flags and wall-clock deadlines (`Restarted`, C114).  Missing: one moment for all shards (false: `Many.Example.save_not_snapshot`), a deadline at the very time of the load (C28), and tokens (C115) |
| C125 | `Mix/LiveEnds`, `Mix/LiveEndsExamples` | as C116 and C117 for `liveServer`: a worker holds at most the lock of the shard of its chore, taken outside of batches, and can then always finish it (`live_act_worker`); a client as in C116 (`live_locked`).  `liveLeft` becomes less by each step: for a worker, its chores and whether the next one is begun |
| C126 | `Cache/Overwrite` | from `storeOp_spec` (C01) below the growth limit; `overwrite_refused` for every state at the limit: `map_insert` grows the table before it looks for the key |
| C127 | `Conc/Batches` | the lock words, the `next` pointers of the shards and the heads of the batches; invariant `Ok`: the list of each batch not yet ended is without repetition and has just the shards with its word.  Missing: begin again before the end (false: `nested_never_given_back`) |

## 4. What is modelled and what is not

Modelled, function by function (see the comment of each definition for lines):

* `pogocache.c`: sixpack/unsixpack, entries (memory layout, accessors, comparison, reference counts), the table (insert, get, delete,
  grow, shrink, backward shift), store/load/delete/iter/sweep/clear/count/size/total operations, automatic eviction, routing to shards, cursor scan,
  locks and batches.
* `util.c`: varints, fixed-width integers, saturating arithmetic, number parsing and printing, `argeq`, `fnv1a_case`, glob (`match`), crc32.
* `save.c`: file format, save, load, work file handling. `main.c`: option parsing and checks, signals, the loaded flag,
  the memory limit, `memticker`, `autosweepticker`.
* `parse.c`, `resp.c`, `memcache.c`, `http.c`, `postgres.c`: protocol recognition and request parsing. `conn.c`: `evdata`, RESP reply
  writers. `args.c`, `buf.c`: ownership. `monitor.c`: all.
* `cmds.c`: the command table, all commands, `evcommand`.
* `lz4.c`: `LZ4_compress_default`, `LZ4_decompress_safe` and what they call, for the parameters that `save.c` uses.
* `net.c`: admission, the set of TLS descriptors, the connection table, reading and writing rounds, the output buffer, flushing, the event loop of a
  thread, background threads.

* `hashmap.c`: `hashmap_new_with_allocator`, `hashmap_set`, `hashmap_get`, `resize0`, `hashmap_iter` (the model of `postgres.c` uses association lists;
  `Hashmap.pg_lookup_partial` connects them).
* `tls.c`: `tls_accept`, `tls_read`, `tls_write`, `tls_close` over OpenSSL's manual.

Not modelled: OpenSSL itself, `uring.c` and the system calls themselves (their results are arbitrary), the parts of `lz4.c` that are not
used by `save.c` (streaming, dictionaries, partial decoding, acceleration, big-endian and 32-bit machines), the hash function (arbitrary, except in C118), the parts of `hashmap.c` that `postgres.c` does not use (deleting, clearing, scanning), the choice of the allocator in `xmalloc.c`, the seeds, clocks and names in `sys.c`, `getrusage` and the like for STATS (the numbers
shown are arbitrary in C99; what is counted: C83, C92), `strtod` and the arithmetic of `double` (their documented
properties are assumed in C93 and C94), the C memory model below sequential consistency, logging.

Simplifications by area:

* Engine: the CAS counter is unbounded; flags are not truncated; an operation's body is one step under its lock (C19).
* C28 assumes: wall clock minus monotonic clock constant within a process, non-decreasing `now` in the order of stores, allocations succeed.
  C29 assumes distinct random work file names and no power failure (the code does not sync).
* `evdata`: background work is in `Net/Bg` only. Connections (`Conn`): monitoring, statistics, TLS and reply bytes left out; the log of executed
  commands is a ghost variable.
* Memcache: `ub` stands for use of `args->bufs` at or behind `args->len`, or a length of 2^64-1.
* Commands: each clock is read once per command; `char` is signed. Background work is done in
  place; creating threads succeeds; the threads of FLUSHALL FAST, SWEEP FAST and DEBUG POPULATE make their calls in any order.
* Postgres: the text of parser errors is arbitrary (without NUL); tags are not cut at 126 bytes; negative lengths are flat pointer arithmetic.
* Several protocols at once (`Mix`): the protocol of a connection is known from the start; an HTTP connection sends one request; a Postgres connection is past
  its start and has the same state at each query (`query_kept`).
* Args: contents of buffers left out; the `bufs` arrays themselves are not tracked.
* Net: numbers of bytes unbounded. Event loop: `epoll_wait` returns each waiting descriptor at most once and `epoll_ctl` and `pthread_create` succeed
  where their contract says so; the functions ending background work count nothing.
* Options: the two passes are one; the memory limit only as `unlimited` or not.

## 5. Disagreements between code and claims

Each of these is proved (theorem in parentheses) unless marked *read*, which means found by reading and not modelled.

Engine (`pogocache.c`)

1. The 8-bit probe distance wraps with 256 colliding keys, and an entry is lost (`Cache.colliding_keys_lose_an_entry`).
2. The size of the entries drifts (`Cache.size_drifts`), the total counts vetoed deletes (`Cache.total_counts_vetoed_delete`).
3. A store whose entry cannot be allocated frees NULL (`Cache.store_without_entry_memory_ub`); a clear whose table cannot be allocated
   writes over the map structure (`Cache.clear_without_table_memory_ub`).
4. Iteration and sweep visit an entry twice after a deletion in a cluster that wraps around (`Cache.iteration_shows_entry_twice`,
   `Cache.sweep_counts_entry_twice`).
5. Cursor: `shardidx > nshards` should be `>=` (`Cache.cursor_out_of_bounds`); deleting the key just returned makes the scan skip another
   (`Cache.cursor_walk_skips_entry`). A cursor across a resize can skip entries (67).
6. NX is ignored when a CAS token is given (`Cache.nx_with_cas_replaces_live_entry`).
7. Batches in different orders deadlock (`Conc.batches_deadlock`), a batch over all shards deadlocks with itself
   (`Conc.batch_scan_deadlocks`). A `pogocache_begin` before the end of the last one, with `usethreadbatch`, loses the locked
   shards for ever (`Conc.Batches.nested_never_given_back`; the header calls the option non-reentrant, the server never does it). *Read*:
   `pogocache_clear` and `pogocache_entry_iter` on a batch use the context through the wrong member of the union.
8. Loading a file does not restore CAS tokens (64). Automatic eviction never considers the home bucket of the stored key (56).  A store over a key
   that is there fails at the growth limit of its shard if there is no memory for a larger table, though none is needed (`Cache.overwrite_refused`).

Saving (`save.c`, `main.c`)

9. An entry loaded at its very deadline becomes permanent (`Save.deadline_at_load_time_never_expires`).
10. A file cut between two blocks loads without error (`Save.cut_between_blocks_accepted`).
11. The work file is opened without `O_TRUNC`, so a leftover of the same name damages the save (`Save.Atomic.stale_work_file_damages_save`).
12. One block per shard, so a shard beyond LZ4's maximum is written as a block that cannot be loaded while save reports success
    (`Lz4.oversize_shard_not_loadable`). *Read*: the file's mode is 0444; no `fsync`; `access` failing for any reason counts as "no file"; `pthread_create`'s result is compared with -1
    throughout; a corrupt compressed length cannot be told from a truncated file.

Numbers, patterns

13. `parse_u64` takes blank and minus (`Num.parseU64_accepts_negative`). *Read*: both parsers take the empty text as 0.
14. Glob: an escaped `?` matches anything; the 128th group of stars never matches (`Glob.escaped_question_mark_matches_anything`,
    `Glob.many_stars_never_match`). Exponential time for patterns with many stars: 66.

RESP and inline

15. An error line behind another pending reply echoes CR LF of an unknown command's name (`Resp.error_line_injection`).
16. A new connection whose first chunk has no newline is closed (`Resp.split_inline_rejected`, `Mc.split_mc_rejected`).
17. An empty number makes `strtoll` read behind the received data (`Resp.empty_number_reads_outside`). *Read*: the CR LF behind a bulk is
    not checked; `sniff_proto` skips blanks without a bound.

Memcache

18. `set k` uses an argument that does not exist (`Mc.missing_argument_used`).
19. `noreply` is answered (`Conn.noreply_is_answered`).
20. After a refused size the value is executed as commands (`Mc.refused_value_is_executed`).
21. The key `noreply` cannot be deleted (`Mc.delete_noreply_refused`); exptime `00` or `-0` expires at once (`Cmd.exptime_00_expires`);
    `decr` below 0 wraps (`Cmd.memcache_decr_wraps`).
22. With a password no memcache connection can authenticate (68). *Read*: `gat` and `verbosity` have no command; `add`
    on an existing key answers EXISTS.

HTTP

23. A request without header fields is never answered; `?nx&` ignores nx; a bearer token is refused without a password; a split between CR
    and LF is refused (`Http.no_headers_never_answered` and others). *Read*: no percent-decoding; 405 is never sent; `GET /` shows the help before the
    password is checked.

Postgres

24. A literal with a doubled quote becomes empty (`Pg.quote_loses_text`).
25. Characters of the planes 2, 4, ..., 16 are stored one plane lower, and pairs with the first low surrogate are lost
    (`Pg.astral_plane_shifted`, `Pg.first_low_surrogate_lost`).
26. A parameter used twice is refused (`Pg.repeated_parameter_refused`).
27. `args_remove_first` copies a buffer without clearing the last slot: double free (`Args.type_prefix_double_free`).
28. *Read*: in E'' strings `\'` is dropped and `''` ends the string; a blank after `;` is refused; Describe of a portal is not
    answered; message lengths 0-2 consume n+1 bytes.

Commands

29. EXAT/PXAT compare Unix time with time since boot and so never expire (`Cmd.exat_never_expires`); EXPIRE with a very negative amount makes the key
    permanent (`Cmd.expire_makes_permanent`); a refused `SET NX GET` answers null (`Cmd.set_nx_get_hides_value`).

Network, server

30. Completions of io_uring are matched by position: connections get other lengths, stale bytes of other clients, or lose replies
    (`Net.Uring.uring_mixes_connections`, `uring_foreign_bytes`, `uring_mangles_replies`).
31. A client that does not read stops its worker thread (`Net.Out.reluctant_reader_stalls_others`). *Read*: a MONITOR client that does
    not read blocks every thread, since its socket is blocking and written with the monitor's lock held.
32. A refused TLS connection leaves its number marked as TLS (`Net.Tls.refused_tls_taints_number`).
33. The connection table grows with the number of connections ever made (`Net.Cmap.table_grows_forever`).
34. Connections about to be refused count towards the limit (`Net.Admit.refused_below_limit`). *Read*: an accepted connection counts only from its
    first event.
35. `--evict no` and `--sixpack no` have no effect; `--autosweep` is checked against `--cas`; numbers beyond `int` wrap
    (`Main.evict_and_sixpack_ignored`, `evict_no_evicts`, `autosweep_confused`, `large_numbers_wrap`). An earlier `-m` beats a later `--maxmemory` (`Main.later_maxmemory_ignored`).
36. MONITOR shows a NUL byte and three bytes of the stack for every byte that needs hexadecimal (`Main.Monitor.monitor_leaks`).

37. Memcache `touch` with exptime 0 removes the item, and Unix times are taken as seconds from now (`Cmd.mc_touch_zero_removes`,
    `Cmd.mc_touch_absolute`).
38. `DEBUG POPULATE` with an expiry range `5-5` divides by zero (`Cmd.populate_divides_by_zero`); `SCAN` with the number of shards in the upper
    half of the cursor (`SCAN 17179869184` for four shards) leaves the cache's memory, in every state (`Cmd.scan_crashes`, `Cmd.scan_request_crashes`).
39. `FLUSHALL DELAY 5 SYNC` empties the cache at once (`Cmd.delay_before_sync_is_ignored`); `SWEEP ASYNC FAST` is refused though documented
    (`Cmd.sweep_async_fast_refused`).
40. The reply to an unknown command whose name has control characters is read as two replies (`Cmd.two_replies`). *Read*: so is an unknown
    type in SCAN; `gat`, `gats` and `verbosity` are refused as unknown; MONITOR whose background work fails writes two replies;
    a huge size in DEBUG POPULATE aborts.
41. If a client has closed its sending side when background work (KEYS, FLUSHALL, SAVE, ...) ends, requests received before are never executed
    (`Net.Bg.Example.half_closed_client_loses_requests`). *Read*: `pthread_create` is compared with -1, so if no thread can be made for background work the
    connection is never answered.
42. `replace` and memcache `cas` on a missing key write a NUL behind `NOT_FOUND`, which spoils the next reply on the connection (`Mc.not_found_nul`).
43. A failed Parse is answered by an error *and* ReadyForQuery, so together with Sync the client gets two (`Pg.failed_parse_two_ready`).
44. Messages behind a failed Parse are not skipped: Bind and Execute sent in one go run the statement prepared before, and a key is stored that nobody asked for
    (`Pg.failed_parse_runs_old`).
45. With a password, `pg->startup` stays set after the login: Describe of a portal is answered by another question for the password
    (`Pg.password_asked_again`). An empty parameter value in the startup message makes the server take names for values
    (`Pg.empty_parameter_refused`). *Read*: the question whether to encrypt is answered by `Y` instead of `S`; Execute of an empty statement gets no answer; a query
    between Execute and Sync gets no ReadyForQuery.
46. STATS does not show what was counted in the same round, e.g. a GET sent in one go before it (`Net.Loop.counters_late`, `Net.Count.pipelined_get_not_shown`), nor a
    GET that another thread has already answered (`Net.Count.stats_do_not_show_all`); and since a thread adds its four sums one after the other, it can show a GET that is
    neither a hit nor a miss (`Net.Count.gets_without_hits`). See also finding 53.
47. SELECT accepts negative numbers (`Cmd.select_negative`); DBSIZE counts keys whose time is over (`Cmd.dbsize_counts_expired`).
48. `flush` passes the size of a shard as `int` and stores it in 32 bits: of a shard beyond 4 GiB only as many bytes are saved as the size has beyond the
    last multiple of 4 GiB; if an entry ends there, save and load both report success and the rest is gone (`Lz4.huge_shard_silently_cut`).
49. Over TLS, `PACKETSIZE-1` = 16383 bytes are read at a time, but a record may have 16384: the last byte of a request sent as a full record stays in OpenSSL's
    buffer, epoll reports nothing, and the request is not answered until the client sends more (`Net.TlsIo.last_byte_not_read`).
50. OpenSSL's error queue is not cleared before its operations: after a failure on one connection, half a record arriving on another one of the same thread counts as a failure
    and closes it (`Net.TlsIo.failure_closes_other`). *Read*: `tls_write` returning 0 makes `flush_conn` loop forever; `SSL_VERIFY_PEER` without
    `SSL_VERIFY_FAIL_IF_NO_PEER_CERT` accepts clients without certificate.
51. The distance in a bucket of `hashmap.c` has 16 bits: for every hash function there are 65536 legal names such that the statement prepared last is not found,
    and never freed (`Hashmap.not_found`, `Hashmap.never_freed`).  The seeds are 0, so the names can be computed beforehand.
52. A portal keeps the name of its statement only: after another Parse of the same name (the unnamed statement, usually) it runs the new one
    (`Pg.portal_runs_other`). *Read*: Bind does not check that the statement exists.
53. Counters of STATS: TTL and PTTL count hits and misses but no gets, a GET with the wrong number of arguments counts as a get, so hits and misses do
    not add up to gets (`Cmd.gets_do_not_add_up`); INCR and DECR of a missing key count as hits, except for memcache (`Cmd.incr_missing_is_hit`);
    APPEND answered with "out of memory" does not count in `store_no_memory` (`Cmd.append_no_memory_not_counted`). On a connection that is not logged
    in every command counts in `auth_cmds` (`Cmd.auth_counted`).
54. The sweeper looks at 20 entries of one shard a second: with more than half of the entries expired it may sweep nothing (`Cache.more_than_half_not_swept`: 25 of 45),
    and if the shard looked at is empty, also if all entries of the cache are expired (`Cache.all_over_not_swept`).
55. `--maxmemory` with a number of bytes beyond 64 bits is accepted; the conversion to `size_t` is undefined (`Main.maxmemory_too_large`).
56. In low memory mode a store into a shard with one other key evicts nothing if that key is in the home bucket of the new one, which is skipped
    (`Cache.lowmem_grows`). INCR, DECR, APPEND and PREPEND do not pass `lowmem` on: they add keys (and values of any size) beyond the limit, also with `--evict=no`
    (`Cmd.incr_adds_when_full`, `Cmd.append_adds_when_full`). *Read*: so do LOAD and DEBUG POPULATE.
57. MONITOR: OK is sent before the connection is entered in the list, so commands in between are not shown (`Main.MonSession.command_after_ok_not_shown`);
    the line is written before the command is executed, so commands of two threads may be shown in the other order (`Main.MonSession.shown_in_other_order`); a PING that
    arrives in two parts and two PINGs that arrive at once end the session (`Main.MonSession.split_ping_ends`, `Main.MonSession.two_pings_end`); a PING behind MONITOR in the
    same packet is never answered (`Main.MonSession.ping_with_monitor_unanswered`). *Read*: PONG is written without the lock, so it can come into the middle of a long line; over
    TLS the threads use one SSL object at the same time.
58. A memcache connection is taken for HTTP if its first line ends like ` HTTP/1.1` (`get HTTP/1.1`: `McWire.Example.get_sniffed_as_http`), and for RESP if it begins with a
    capital letter; `parse.c:58-80`.  `touch` gives the key a new CAS token, unlike memcached.
59. MGET, EXISTS, TOUCH and DEL with several keys take and give back the lock key by key; other clients see and cause states in between (`Many.Example.mget_not_atomic`).
60. A save is not a snapshot: `thsave` (`save.c:120-135`) locks one shard after the other while clients go on writing, so a file may have a later write of a client without an earlier one (`Many.Example.save_not_snapshot`).  At SIGTERM `sigtermticker` (`main.c:310-331`) saves and then exits while the network threads are still serving: writes to shards that are saved already are acknowledged, and lost.
61. Without `/proc/meminfo`, or if `MemTotal` is not in its first 4095 bytes, `sys_memory` (`sys.c:78-107`) is 0 without a word, so the default `--maxmemory 80%` is a limit of 0 bytes: the server is in low memory mode from the first tick on and evicts at each store, or with `--evict no` refuses all of them (`no_total_low`).
62. `sys_nprocs` (`sys.c:41-72`): `physical = logical`, so `hyper` is always 1 and hyperthreads count as CPUs, though the code divides by it; if `sched_getaffinity` fails, as with more than 1024 possible CPUs, there is one thread (`one_thread_on_failure`).
63. The engine handles failed allocations (C14), but the server gives it `xmalloc`, which ends the process with `abort` (`xmalloc.c:91-96`): a cache without memory dies, with all its data and without a save, and never answers `out of memory` for that reason (`never_null`).
64. CAS tokens do not survive a restart: `save_entry` writes the token (`save.c:115`), `load_block` reads it and passes it as `opts.cas` (`save.c:338-358`), but `storeop` gives the entry `++shard->cas` (`pogocache.c:1548-1550`), counting from 2 in a new process, although the comment at `entry_new` (`pogocache.c:490`) says that the token is set when loading from disk.  So a client that did `gets` before a restart can overwrite with `cas` a value it has never seen (`restart_reuses_token`).
65. The seed does not protect against chosen keys: `th64` (`pogocache.c:94-100`) mixes in each 8-byte word `x` as `rot31(h*r ^ rot31(x*r))`. A pair of words (`0x61c70673e68f0a0e`, `0xf347850700000000`) in place of (0, 0) changes only the highest bit before a multiplication, where it stays the highest bit, and then cancels it, in every state `h`. So keys made of n such pairs (16n bytes, any choice of n bits) all have the same 64-bit hash with every seed (`same_hash`). A RESP client that knows nothing of the server can send 256 of them and the last is lost although `SET` said `OK` (`known_keys_lose_an_entry`), or send thousands to make every access to a shard slow.
66. Patterns with many stars take exponential time (`Glob.slow_pattern`, `Glob.never_ends`): the recursion of `match` (`util.c:421`) tries all ways to give the
    letters to the stars; the limit of 127 nested calls does not help. KEYS does this in the callback of the iteration, with the lock of the shard held.
67. SCAN loses keys when the table grows (`Cmd.scan_skips_while_growing`): the cursor is a bucket number of the old table, and a key that had been pushed
    behind another one can be at its own place, before the cursor, in the new table.
68. With a password memcache clients can do nothing at all (`Mc.memcache_never_in`): `parse_memcache` has no command for it, and `evcommand` wants AUTH first.
69. *Read*: `sys_threadid` (`sys.c:283-291`) starts counting at 0, which is also its mark for "none yet", so the first thread gets another number at its second call; nobody calls it.

## 6. Wrong programs

`tools/mutate.py` copies `lean/` elsewhere, edits one definition of a model like a realistic mistake, rebuilds, and logs which theorems fail in
`seeded/LOG.jsonl`. A mutant that survives is either harmless for every claim (noted in the log) or leads to a stronger theorem (field
`tightened`).

## 7. Axioms per theorem

<!-- axioms -->

Names without the leading `Verif.`.

### none (1)

`Cmd.command_names`

### propext (26)

`Main.short_options`, `Glob.many_stars_never_match`, `Save.Term.loaded_process_saves_before_exit`, `Mc.missing_argument_used`, `Http.nx_before_ampersand_ignored`, `Http.token_without_password_refused`, `Http.split_before_last_lf_refused`, `Net.Uring.uring_foreign_bytes`, `Net.Uring.uring_mangles_replies`, `Main.autosweep_confused`, `Main.large_numbers_wrap`, `Main.Monitor.auth_not_shown`, `Main.Monitor.monitor_leaks`, `Main.Monitor.monitor_two_lines`, `Num.parseU64_accepts_negative`, `Resp.empty_number_reads_outside`, `Mc.delete_noreply_refused`, `Net.Admit.refused_below_limit`, `Net.Out.all_receive_partial`, `Cmd.sweep_thread_invisible`, `Pg.empty_parameter_refused`, `Net.Count.stats_do_not_show_all`, `Net.Count.pipelined_get_not_shown`, `Main.unlimited_never_low`, `Main.MonSession.command_after_ok_not_shown`, `Main.MonSession.shown_in_other_order`

### Quot.sound, propext (89)

`Sixpack.unsixpack_sixpack`, `Sixpack.sixpack_accepts_iff`, `Sixpack.unsixpack_fits`, `Sixpack.sixpack_injective`, `Entry.entryNew_in_bounds`, `Cache.nx_with_cas_replaces_live_entry`, `McWire.sniff_mc`, `McWire.talk_reads`, `McWire.cas_safe`, `McWire.off_is_off`, `McWire.Example.get_sniffed_as_http`, `Many.lock_once`, `Save.deadline_at_load_time_never_expires`, `Low.never_wrong`, `Cache.iteration_shows_entry_twice`, `Main.sysmem_exact`, `Hash.same_hash`, `Hash.eight_bytes_differ_partial`, `Save.file_exact`, `Cache.sweep_counts_entry_twice`, `Glob.slow_pattern`, `Glob.time_bounded_partial`, `Mc.memcache_never_in`, `Cache.size_drifts`, `Cache.total_counts_vetoed_delete`, `Cache.clear_without_table_memory_ub`, `Cache.cursor_walk_skips_entry`, `Cache.cursor_out_of_bounds`, `Conc.batches_deadlock`, `Conc.Refs.count_is_number_of_references`, `Num.varint_roundtrip`, `Num.varint_roundtrip_raw`, `Num.parseI64_iff`, `Glob.glob_exact_partial`, `Glob.glob_sound_partial`, `Glob.matchGo_terminates`, `Glob.escaped_question_mark_matches_anything`, `Save.Atomic.complete_is_fileOf`, `Save.Atomic.stale_work_file_damages_save`, `Save.cut_between_blocks_accepted`, `Save.Term.shutdown_respects_load`, `Resp.error_line_clean_partial`, `Resp.inline_incomplete_not_executed`, `Cmd.exptime_00_expires`, `Conn.Example.noreply_stored`, `Http.http_needs_password`, `Pg.values_cannot_change_command`, `Pg.quote_loses_text`, `Pg.first_low_surrogate_lost`, `Cmd.memcache_decr_wraps`, `Cmd.expire_makes_permanent`, `Cmd.exat_never_expires`, `Net.Admit.never_more_than_max`, `Net.Uring.sockets_get_own_replies_partial`, `Main.options_obeyed_partial`, `Main.evict_and_sixpack_ignored`, `Main.evict_no_evicts`, `Main.Monitor.monitor_line_partial`, `Num.parseU64_exact_partial`, `Mc.split_mc_rejected`, `Cmd.set_nx_get_hides_value`, `Args.type_prefix_double_free`, `Args.type_prefix_double_free_prepared`, `Net.Admit.refused_only_at_limit_partial`, `Net.Tls.refused_tls_taints_number`, `Net.Out.reluctant_reader_stalls_others`, `Main.last_option_wins`, `Cmd.mc_touch_zero_removes`, `Cmd.mc_touch_absolute`, `Cmd.pipeline_reads`, `Cmd.flush_thread_empties`, `Cmd.visited_all`, `Net.Bg.Example.half_closed_client_loses_requests`, `Mc.mc_pipeline_reads`, `Pg.login_open`, `Pg.login_asks`, `Pg.login_encoding`, `Pg.login_ssl`, `Net.Count.gets_without_hits`, `Net.Loop.counters_late`, `Net.TlsIo.waits`, `Net.TlsIo.closed_for_a_reason_partial`, `Net.TlsIo.failure_closes_other`, `Cmd.auth_counted`, `Cache.lowmem_grows`, `Main.MonSession.two_pings_end`, `Main.MonSession.ping_with_monitor_unanswered`, `Main.MonSession.ping_message_ignored`, `StatsOut.rows_show`

### Classical.choice, Quot.sound, propext (282)

`Cache.cache_is_dictionary_partial`, `Cache.small_cache_is_dictionary_partial`, `Sixpack.sixpack_fits`, `Entry.compare_eq_zero_iff`, `Entry.keyEq_iff`, `Entry.extract_entryNew`, `Entry.accessors_entryNew`, `Cache.expiry_exact`, `Cache.load_finds_live`, `Cache.store_does_what_is_asked`, `Cache.conditional_store_keeps_partial`, `Cache.cas_prevents_lost_update`, `Cache.tokens_increase`, `Cache.delete_veto_restores`, `Cache.refused_store_restores`, `Cache.probing_terminates`, `Cache.eviction_at_most_one`, `Cache.eviction_choice`, `Cache.colliding_keys_lose_an_entry`, `McWire.mc_served_partial`, `McWire.serves_unique`, `McWire.Example.mc_not_served`, `Many.clients_served`, `Many.clients_answered`, `Many.parts_whole`, `Many.one_key_answered_partial`, `Many.counter_exact`, `Many.Example.mget_not_atomic`, `Many.restart_served_partial`, `Many.live_served`, `Many.live_restart_partial`, `Many.Example.save_not_snapshot`, `Mix.all_served`, `Mix.no_lost_update`, `Mix.one_winner`, `Mix.cas_safe`, `Low.low_served`, `Mix.sniff_http`, `Cache.iteration_shows_live_entries_partial`, `Mix.query_kept`, `Main.percent_of_total_partial`, `Main.no_total_low`, `Main.threads_per_cpu_partial`, `Main.one_thread_on_failure`, `Main.allocs_exact`, `Main.quiet_exact`, `Main.never_null`, `Mix.restart_all_served_partial`, `Mix.Example.restart_reuses_token`, `Mix.all_answered`, `Mix.all_end`, `Mix.all_finish`, `Hash.known_keys_lose_an_entry`, `Save.block_exact`, `Cache.sweep_removes_expired_partial`, `Glob.never_ends`, `Cmd.scan_skips_while_growing`, `Cmd.scan_complete_partial`, `Mix.live_served`, `Mix.no_lost_update_live`, `Mix.one_winner_live`, `Mix.live_restart_partial`, `Mix.Example.live_restart_case`, `Mix.live_answered`, `Mix.live_end`, `Mix.live_finish`, `Cache.overwrite_without_table_memory_partial`, `Cache.overwrite_refused`, `Conc.Batches.given_back_partial`, `Conc.Batches.end_frees_partial`, `Conc.Batches.nested_never_given_back`, `Main.m_option_partial`, `Main.later_maxmemory_ignored`, `Cache.count_exact`, `Cache.size_exact_partial`, `Cache.total_accounting_partial`, `Cache.alloc_failure_keeps_data_partial`, `Cache.store_without_entry_memory_ub`, `Cache.notifications_replay`, `Cache.shards_independent`, `Cache.cursor_walk_complete_partial`, `Cache.cursor_touches_only_shards_partial`, `Conc.concurrent_calls_serialise_partial`, `Conc.locked_shard_is_isolated`, `Conc.batch_scan_deadlocks`, `Conc.ascending_batches_progress_partial`, `Conc.Refs.entries_freed_exactly_once`, `Num.varint_length`, `Num.varint_truncated`, `Num.zigzag_roundtrip`, `Num.varint_roundtrip_signed`, `Num.le_roundtrip`, `Num.be_roundtrip`, `Num.le_short`, `Num.saturate_spec`, `Num.addClamp_exact`, `Num.mulClamp_exact`, `Num.u64_text_roundtrip`, `Num.i64_text_roundtrip`, `Num.u64toa_fits`, `Crc.crc_detects_adjacent_changes`, `Save.damaged_block_rejected_partial`, `Save.save_load_restores_partial`, `Lz4.lz4_good`, `Save.Atomic.save_is_atomic`, `Save.truncated_file_rejected_partial`, `Resp.resp_parse_exact`, `Resp.resp_chunking`, `Resp.resp_incomplete_waits`, `Resp.replies_decode`, `Resp.error_line_injection`, `Resp.inline_parse_exact`, `Mc.mc_store_parse`, `Cmd.mc_store_stores_partial`, `Cmd.append_exact`, `Mc.mc_parse_in_bounds_partial`, `Conn.noreply_same_effect_partial`, `Conn.noreply_is_answered`, `Conn.no_access_without_password`, `Pg.prepared_exact_partial`, `Pg.repeated_parameter_refused`, `Pg.frame_message`, `Pg.checkParams_iff`, `Pg.query_exact_partial`, `Pg.escapes_exact_partial`, `Pg.astral_plane_shifted`, `Http.http_request_exact`, `Http.no_headers_never_answered`, `Cmd.incr_exact_partial`, `Cmd.memcache_incr_exact_partial`, `Cmd.command_on_cache`, `Cmd.expire_exact_partial`, `Cmd.ttl_exact`, `Cmd.set_exact_partial`, `Cmd.setex_exact`, `Cmd.command_lookup`, `Cmd.mget_is_gets`, `Cmd.mget_alone`, `Cmd.del_is_dels`, `Cmd.del_alone`, `Cmd.exists_counts`, `Cmd.mgets_exact`, `Cmd.touch_counts`, `Net.Uring.handlers_get_own_bytes_partial`, `Net.Uring.uring_mixes_connections`, `Main.ports_checked`, `Net.Out.replies_arrive_in_order`, `Resp.split_inline_rejected`, `Resp.inline_chunking_partial`, `Resp.resp_parse_in_bounds_partial`, `Mc.mc_chunking_partial`, `Mc.refused_value_is_executed`, `Mc.bad_chunk_skips_value_partial`, `Args.buffers_freed_once_partial`, `Net.Tls.tls_iff_tls_port_partial`, `Net.Cmap.table_finds`, `Net.Cmap.table_grows_forever`, `Cmd.mc_get_exact`, `Cmd.mc_touch_exact_partial`, `Cmd.no_crash_partial`, `Cmd.no_crash_cache_partial`, `Cmd.scan_ends_partial`, `Cmd.populate_divides_by_zero`, `Cmd.scan_crashes`, `Cmd.scan_request_crashes`, `Cmd.one_reply_partial`, `Cmd.two_replies`, `Cmd.scan_request`, `Cmd.scan_count_zero`, `Cmd.scan_gets_on`, `Cmd.flushall_exact`, `Cmd.delay_before_sync_is_ignored`, `Cmd.keys_exact_partial`, `Cmd.keys_alone_partial`, `Cmd.sweep_invisible`, `Cmd.sweep_async_fast_refused`, `Net.Bg.requests_in_order`, `Net.Bg.received_executed_partial`, `Http.http_one_response`, `Http.http_get_exact`, `Http.http_put_exact`, `Http.http_delete_exact`, `Http.http_refused`, `Mc.mc_one_reply_partial`, `Mc.not_found_nul`, `Pg.query_answered_partial`, `Pg.queries_answered_partial`, `Pg.pg_get_exact`, `Pg.pg_del_exact`, `Pg.pg_set_exact`, `Pg.pg_mget_exact`, `Pg.prepared_answered_partial`, `Pg.failed_parse_two_ready`, `Pg.failed_parse_harmless_partial`, `Pg.failed_parse_runs_old`, `Pg.login_password`, `Pg.password_asked_again`, `Net.Loop.loop_safe`, `Net.Loop.one_life`, `Net.Loop.nothing_lost`, `Net.Loop.none_forgotten`, `Net.Loop.none_leaked`, `Net.Loop.broken_closed`, `Net.Count.shown_exact`, `Net.Count.shown_at_most`, `Net.Count.shown_own_partial`, `Net.Count.shown_in_the_end_partial`, `Net.Loop.counters_exact_partial`, `Cmd.ping_exact`, `Cmd.echo_exact`, `Cmd.select_exact_partial`, `Cmd.select_negative`, `Cmd.dbsize_exact`, `Cmd.dbsize_counts_expired`, `Cmd.populate_exact`, `Cmd.save_exact`, `Pg.pg_echo_exact`, `Pg.pg_dbsize_exact`, `Lz4.compress_block`, `Lz4.decompress_block`, `Lz4.roundtrip_partial`, `Lz4.block_written`, `Lz4.oversize_shard_not_loadable`, `Lz4.huge_shard_silently_cut`, `Lz4.runDecompress_defined`, `Lz4.runCompress_defined`, `Lz4.decompress_ends`, `Net.TlsIo.in_order`, `Net.TlsIo.all_handled_partial`, `Net.TlsIo.all_but_one_handled`, `Net.TlsIo.last_byte_not_read`, `Net.TlsIo.waiting_bytes_are_read_partial`, `Hashmap.found_partial`, `Hashmap.pg_lookup_partial`, `Hashmap.not_found`, `Hashmap.freed_once_partial`, `Hashmap.never_freed`, `Pg.portal_runs_bound_partial`, `Pg.portal_runs_other`, `Cmd.get_counted`, `Cmd.mget_counted`, `Cmd.del_counted`, `Cmd.touch_counted`, `Cmd.set_counted`, `Cmd.incr_counted_partial`, `Cmd.gets_add_up_partial`, `Cmd.gets_do_not_add_up`, `Cmd.incr_missing_is_hit`, `Cmd.append_no_memory_not_counted`, `Cache.tick_spec`, `Cache.tick_exact_partial`, `Cache.tick_mostly_over_partial`, `Cache.tick_ends`, `Cache.more_than_half_not_swept`, `Cache.all_over_not_swept`, `Main.maxmemory_exact`, `Main.maxmemory_percent`, `Main.maxmemory_fraction`, `Main.maxmemory_refused`, `Main.maxmemory_no_number`, `Main.maxmemory_unlimited`, `Main.maxmemory_too_large`, `Main.lowmem_iff`, `Cache.lowmem_does_not_grow_partial`, `Cmd.full_adds_nothing_partial`, `Cmd.full_set_refused_partial`, `Cmd.incr_adds_when_full`, `Cmd.append_adds_when_full`, `Main.MonSession.pings_answered_partial`, `Main.MonSession.other_ends`, `Main.MonSession.shown_once_partial`, `Main.MonSession.shown_only`, `Main.MonSession.shown_in_order_partial`, `Main.MonSession.split_ping_ends`, `Cross.stored_here_read_there`, `Cross.removed_here_gone_there`, `Wire.pipeline_served`, `Wire.serves_unique`, `StatsOut.stats_resp`, `StatsOut.stats_mc`, `StatsOut.stats_pg`, `StatsOut.stats_model`
