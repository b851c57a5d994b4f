{
 "claims": [
  {
   "property": "C01",
   "status": "partial",
   "theorems": [
    "Verif.Cache.cache_is_dictionary_partial",
    "Verif.Cache.small_cache_is_dictionary_partial"
   ],
   "note": "All histories, hash functions and shard counts in which no 8-bit probe distance wraps (see C10); for shards holding at most 254 keys that condition is proved for every hash function."
  },
  {
   "property": "C02",
   "status": "proved",
   "theorems": [
    "Verif.Sixpack.unsixpack_sixpack",
    "Verif.Sixpack.sixpack_accepts_iff",
    "Verif.Sixpack.sixpack_fits",
    "Verif.Sixpack.unsixpack_fits",
    "Verif.Sixpack.sixpack_injective",
    "Verif.Entry.compare_eq_zero_iff",
    "Verif.Entry.keyEq_iff"
   ],
   "note": "All keys; packed and unpacked forms, buffer bounds, comparison of entries."
  },
  {
   "property": "C03",
   "status": "proved",
   "theorems": [
    "Verif.Entry.extract_entryNew",
    "Verif.Entry.entryNew_in_bounds",
    "Verif.Entry.accessors_entryNew"
   ],
   "note": "All legal field values and all format switches."
  },
  {
   "property": "C04",
   "status": "proved",
   "theorems": [
    "Verif.Cache.expiry_exact",
    "Verif.Cache.load_finds_live"
   ],
   "note": "All reachable cache states, all operations and times."
  },
  {
   "property": "C05",
   "status": "partial",
   "theorems": [
    "Verif.Cache.store_does_what_is_asked",
    "Verif.Cache.conditional_store_keeps_partial",
    "Verif.Cache.nx_with_cas_replaces_live_entry"
   ],
   "note": "False for the combination NX with a CAS token: NX is ignored (witness). Proved for every other combination."
  },
  {
   "property": "C06",
   "status": "proved",
   "theorems": [
    "Verif.Cache.cas_prevents_lost_update",
    "Verif.Cache.tokens_increase"
   ],
   "note": "The per-shard counter is an unbounded number in the model (the 64-bit counter would need 2^64 writes to wrap)."
  },
  {
   "property": "C07",
   "status": "proved",
   "theorems": [
    "Verif.Cache.delete_veto_restores",
    "Verif.Cache.refused_store_restores"
   ],
   "note": ""
  },
  {
   "property": "C08",
   "status": "proved",
   "theorems": [
    "Verif.Cache.probing_terminates"
   ],
   "note": ""
  },
  {
   "property": "C09",
   "status": "proved",
   "theorems": [
    "Verif.Cache.eviction_at_most_one",
    "Verif.Cache.eviction_choice"
   ],
   "note": ""
  },
  {
   "property": "C10",
   "status": "partial",
   "theorems": [
    "Verif.Cache.colliding_keys_lose_an_entry",
    "Verif.Cache.small_cache_is_dictionary_partial"
   ],
   "note": "False as stated: for every hash function 256 colliding keys exist, all stores report success and one key is lost. Proved for at most 254 distinct keys per shard."
  },
  {
   "property": "C100",
   "status": "partial",
   "theorems": [
    "Verif.McWire.mc_served_partial",
    "Verif.McWire.sniff_mc",
    "Verif.McWire.talk_reads",
    "Verif.McWire.cas_safe",
    "Verif.McWire.serves_unique",
    "Verif.McWire.off_is_off",
    "Verif.McWire.Example.mc_not_served",
    "Verif.McWire.Example.get_sniffed_as_http"
   ],
   "note": "Proved up to four exact cases, in which the server is shown to send something else (Off; off_is_off; witness mc_not_served): add to a key that exists is answered EXISTS, replace and cas of a missing key are answered with a NUL behind the line, decr below zero goes on from 2^64, and some texts that are no numbers count. The first chunk of the connection must show the protocol (sniff_mc); tokens switched on; one client at a time, no low memory, allocations succeed, and no distance counter of the hash table wraps (as in C01; named in the theorem). noreply, gat, flush_all, stats, verbosity and quit are left out."
  },
  {
   "property": "C101",
   "status": "proved",
   "theorems": [
    "Verif.Many.clients_served",
    "Verif.Many.clients_answered",
    "Verif.Many.parts_whole"
   ],
   "note": "All interleavings of any number of clients and all commands of C98 (assumptions as in C98: no distance counter of the hash table has wrapped, memory not low, allocations succeed); clocks of at least the time from which on the state at the start is known. parts_whole: the parts of a command on several keys do, if nothing comes in between, what the command does."
  },
  {
   "property": "C102",
   "status": "partial",
   "theorems": [
    "Verif.Many.one_key_answered_partial",
    "Verif.Many.counter_exact",
    "Verif.Many.lock_once",
    "Verif.Many.Example.mget_not_atomic"
   ],
   "note": "Proved for all interleavings and all commands of C98 on one key. False of the code for commands on several keys, whose keys are read one after the other (witness mget_not_atomic); what they do is C101."
  },
  {
   "property": "C103",
   "status": "partial",
   "theorems": [
    "Verif.Many.restart_served_partial",
    "Verif.Save.deadline_at_load_time_never_expires"
   ],
   "note": "Proved for all conversations before and after (C101 on both sides, C28 in between), except when the wall-clock deadline of an item is the very nanosecond at which its block is loaded: then it comes back without a deadline (C28, witness deadline_at_load_time_never_expires). The save is made while the clients are idle; sizes fit the file format."
  },
  {
   "property": "C104",
   "status": "proved",
   "theorems": [
    "Verif.Many.live_served"
   ],
   "note": "All interleavings of any number of clients and tasks (assumptions as in C101). The tasks are those of the threads that run beside the network threads: SAVE, KEYS, FLUSHALL, SWEEP, the automatic sweep and the save at the end; times of tasks are those from which on the state at the start is known."
  },
  {
   "property": "C105",
   "status": "partial",
   "theorems": [
    "Verif.Many.live_restart_partial",
    "Verif.Many.Example.save_not_snapshot",
    "Verif.Save.deadline_at_load_time_never_expires"
   ],
   "note": "Proved: each shard is restored as it was at one moment, that of its save, and the later clients are served from there. False of the code for the store as a whole: shards are saved one after the other while clients write (witness save_not_snapshot: the file has the second of two acknowledged writes, but not the first). As in C103, no deadline is the very nanosecond at which its block is loaded."
  },
  {
   "property": "C106",
   "status": "proved",
   "theorems": [
    "Verif.Mix.all_served"
   ],
   "note": "All interleavings of any number of clients of both protocols and all commands of C98 and C100, with the differences from memcached named in C100; assumptions as in C98 and C100 (no distance counter of the hash table has wrapped, memory not low, allocations succeed). The protocol of a connection is known from its first bytes (C98, C100)."
  },
  {
   "property": "C107",
   "status": "proved",
   "theorems": [
    "Verif.Mix.no_lost_update",
    "Verif.Mix.one_winner",
    "Verif.Mix.cas_safe"
   ],
   "note": "no_lost_update and one_winner for all that the reference server of C106 can do; cas_safe for all executions of the threads. At the start no token is beyond the counter of its shard (true of an empty cache, and kept by all commands: Moves.bounded)."
  },
  {
   "property": "C108",
   "status": "proved",
   "theorems": [
    "Verif.Low.low_served",
    "Verif.Low.never_wrong"
   ],
   "note": "low_served: all conversations, from the bytes to the hash table, with the lowmem flag of each command arbitrary (assumptions otherwise as in C98: one client, allocations succeed, no distance counter has wrapped). never_wrong: for all conversations of that server; APPEND, PREPEND, INCR, DECR and KEEPTTL are left out there, as they build on the value that may have been evicted (an example beside the theorem)."
  },
  {
   "property": "C109",
   "status": "proved",
   "theorems": [
    "Verif.Mix.all_served",
    "Verif.Mix.sniff_http"
   ],
   "note": "All interleavings of any number of clients of the three protocols. HTTP clients send one request (the server closes after each), well formed (Http.Request.Ok, Allowed: C44, C76), a PUT with at most one of nx, xx and cas, its head in one packet (split_before_last_lf_refused shows why); the body in any packets. Assumptions otherwise as in C106. Refused requests are C76."
  },
  {
   "property": "C11",
   "status": "partial",
   "theorems": [
    "Verif.Cache.iteration_shows_live_entries_partial",
    "Verif.Cache.iteration_shows_entry_twice"
   ],
   "note": "False when entries are deleted during the iteration: an entry can be shown twice (witness). Proved: every live entry is shown, nothing else is, and deletions are exact; exactly once if nothing is deleted."
  },
  {
   "property": "C110",
   "status": "proved",
   "theorems": [
    "Verif.Mix.all_served",
    "Verif.Mix.query_kept"
   ],
   "note": "All interleavings of any number of clients of the four protocols. Postgres clients are past their start (C81) and send simple queries, of words that are bare or in quotes without a quote inside, each of at most 512 MB and the message below 2 GB; DEL of one key. The model keeps the state of the connection; query_kept: these queries leave it as it is. Prepared statements and other commands for one client are C78, C79 and C82. Assumptions otherwise as in C106."
  },
  {
   "property": "C111",
   "status": "partial",
   "theorems": [
    "Verif.Main.sysmem_exact",
    "Verif.Main.percent_of_total_partial",
    "Verif.Main.no_total_low"
   ],
   "note": "sysmem_exact and percent_of_total_partial: for every file with the line in its first 4095 bytes. Otherwise false: no_total_low shows that without the file or the line any percentage, such as the default 80%, is a limit of 0 bytes, and low memory mode is on for ever. The whole percentages 1 to 100; Linux; the properties of strtod and double as in C94."
  },
  {
   "property": "C112",
   "status": "partial",
   "theorems": [
    "Verif.Main.threads_per_cpu_partial",
    "Verif.Main.one_thread_on_failure"
   ],
   "note": "threads_per_cpu_partial: for masks of at most 1024 CPUs. Otherwise false: one_thread_on_failure, as sched_getaffinity fails with the fixed cpu_set_t. Linux."
  },
  {
   "property": "C113",
   "status": "proved",
   "theorems": [
    "Verif.Main.allocs_exact",
    "Verif.Main.quiet_exact",
    "Verif.Main.never_null"
   ],
   "note": "All interleavings of threads; assumed is the contract of malloc, realloc and free (a new block is none of those in use) and that callers free only what is in use. The server gives xmalloc to the engine, so the engine's own handling of failed allocations (C14) is never used for that reason by the server."
  },
  {
   "property": "C114",
   "status": "partial",
   "theorems": [
    "Verif.Mix.restart_all_served_partial",
    "Verif.Mix.Example.restart_reuses_token",
    "Verif.Save.deadline_at_load_time_never_expires"
   ],
   "note": "Proved for all conversations before and after, except when the wall-clock deadline of an item is the very nanosecond at which its block is loaded (C28, witness deadline_at_load_time_never_expires), and up to the tokens of the items, which are new (C115). The save is made while the clients are idle; sizes fit the file format. Assumptions otherwise as in C103 and C110."
  },
  {
   "property": "C115",
   "status": "partial",
   "theorems": [
    "Verif.Mix.restart_all_served_partial",
    "Verif.Mix.Example.restart_reuses_token"
   ],
   "note": "False of the code: the tokens are written to the file and read from it, but storeop does not use the token it is given, and counts from 2 in the new server, so a token of before the restart is given again to a later value (witness restart_reuses_token: a count that was acknowledged is lost). Proved (restart_all_served_partial): no update is lost between a gets and a cas that are both before the restart (C107), or both after it."
  },
  {
   "property": "C116",
   "status": "proved",
   "theorems": [
    "Verif.Mix.all_answered"
   ],
   "note": "All commands of C110 and all interleavings at the locks of the shards, from any state of the cache. Assumed: the process has not given up for lack of memory, no distance counter has wrapped (C01). LOAD, SAVE, FLUSH and SWEEP, which go over all shards, are not included (see C20)."
  },
  {
   "property": "C117",
   "status": "proved",
   "theorems": [
    "Verif.Mix.all_end",
    "Verif.Mix.all_finish"
   ],
   "note": "All commands of C110. A failed attempt to lock is not a step: assumed is that the scheduler of the system lets a thread that can go on do so at last."
  },
  {
   "property": "C118",
   "status": "partial",
   "theorems": [
    "Verif.Hash.known_keys_lose_an_entry",
    "Verif.Hash.same_hash",
    "Verif.Hash.eight_bytes_differ_partial"
   ],
   "note": "False of the code: known_keys_lose_an_entry gives 256 keys of 128 bytes that have the same hash with every seed, so that every server, whatever its seed, says that it stored them all and loses the last. same_hash: there are 2^n such keys of 16n bytes. Proved instead (eight_bytes_differ_partial): different keys of 8 bytes never have the same 64-bit hash (they can still agree in the 24 bits kept in a bucket)."
  },
  {
   "property": "C119",
   "status": "proved",
   "theorems": [
    "Verif.Save.block_exact",
    "Verif.Save.file_exact"
   ],
   "note": "For any decompressor (C30 and C88 have LZ4). The file does not change while it is read. What the time to live in an entry means is in C28. When a block is refused in the middle, the entries before that have been stored (finding of C30)."
  },
  {
   "property": "C12",
   "status": "partial",
   "theorems": [
    "Verif.Cache.sweep_removes_expired_partial",
    "Verif.Cache.sweep_counts_entry_twice"
   ],
   "note": "The kept counter is wrong for a wrapped cluster (witness). Proved: exactly the expired entries are removed, and the swept counter."
  },
  {
   "property": "C120",
   "status": "partial",
   "theorems": [
    "Verif.Glob.slow_pattern",
    "Verif.Glob.never_ends",
    "Verif.Glob.time_bounded_partial"
   ],
   "note": "False of the code: with the pattern *a*a...*ab of k stars and a key of n letters a the loop makes at least (n choose k) rounds (slow_pattern), for 255 and 254 bytes more than 2^245 (never_ends). Proved (time_bounded_partial): at most (|pattern|+|key|+1)^(stars+1) rounds."
  },
  {
   "property": "C121",
   "status": "partial",
   "theorems": [
    "Verif.Cmd.scan_skips_while_growing",
    "Verif.Cmd.scan_complete_partial"
   ],
   "note": "False of the code: scan_skips_while_growing, on the level of commands. Proved (scan_complete_partial) if nothing but expiry happens between the calls."
  },
  {
   "property": "C122",
   "status": "partial",
   "theorems": [
    "Verif.Mc.memcache_never_in",
    "Verif.McWire.mc_served_partial"
   ],
   "note": "False of the code: memcache_never_in shows for all bytes that no request gets access. mc_served_partial is about servers without a password (C100)."
  },
  {
   "property": "C123",
   "status": "proved",
   "theorems": [
    "Verif.Mix.live_served",
    "Verif.Mix.no_lost_update_live",
    "Verif.Mix.one_winner_live"
   ],
   "note": "All interleavings of any number of clients of all four protocols and tasks (assumptions as in C110 and C104). The statement about tokens assumes that no item of the first state has a token beyond the counter of its shard, as is so of a new cache."
  },
  {
   "property": "C124",
   "status": "partial",
   "theorems": [
    "Verif.Mix.live_restart_partial",
    "Verif.Many.Example.save_not_snapshot",
    "Verif.Mix.Example.live_restart_case",
    "Verif.Save.deadline_at_load_time_never_expires"
   ],
   "note": "Proved: each shard is restored as it was at one moment, that of its save, and the later clients of all protocols are served from there, with the same values, flags and deadlines on the wall clock. False of the code for the store as a whole (witness save_not_snapshot); live_restart_case: a client is told 42, and after the restart it reads 41. As in C114, no deadline is the very nanosecond at which its block is loaded, and tokens are new ones (C115)."
  },
  {
   "property": "C125",
   "status": "proved",
   "theorems": [
    "Verif.Mix.live_answered",
    "Verif.Mix.live_end",
    "Verif.Mix.live_finish"
   ],
   "note": "All interleavings of any number of clients of all four protocols and tasks (assumptions as in C123; a failed attempt to lock is not a step, so fairness between threads that wait for one lock is not claimed). live_finish: from any point an end is reached; live_end: no execution is endless."
  },
  {
   "property": "C126",
   "status": "partial",
   "theorems": [
    "Verif.Cache.overwrite_without_table_memory_partial",
    "Verif.Cache.overwrite_refused"
   ],
   "note": "Proved while the shard is below its growth limit (assuming memory for the entry, C14, and the proviso of C01). False at the limit (48 of 64 buckets): every store is refused there, overwrite_refused for all states, with the concrete case of 48 keys."
  },
  {
   "property": "C127",
   "status": "partial",
   "theorems": [
    "Verif.Conc.Batches.given_back_partial",
    "Verif.Conc.Batches.end_frees_partial",
    "Verif.Conc.Batches.nested_never_given_back"
   ],
   "note": "Proved if no batch is begun again before its end, which is so without usethreadbatch. False with usethreadbatch if a thread begins a second batch before the end of the first: the header calls it non-reentrant, but nothing checks it; the shard stays locked for ever."
  },
  {
   "property": "C128",
   "status": "partial",
   "theorems": [
    "Verif.Main.short_options",
    "Verif.Main.m_option_partial",
    "Verif.Main.later_maxmemory_ignored"
   ],
   "note": "All command lines. The part about a later --maxmemory is false (later_maxmemory_ignored); m_option_partial proves for all public options after -m that they have no effect on the limit."
  },
  {
   "property": "C13",
   "status": "partial",
   "theorems": [
    "Verif.Cache.count_exact",
    "Verif.Cache.size_exact_partial",
    "Verif.Cache.size_drifts",
    "Verif.Cache.total_accounting_partial",
    "Verif.Cache.total_counts_vetoed_delete"
   ],
   "note": "count is exact. The size and total counters drift (witnesses); proved exact for histories without the drifting calls."
  },
  {
   "property": "C14",
   "status": "partial",
   "theorems": [
    "Verif.Cache.alloc_failure_keeps_data_partial",
    "Verif.Cache.store_without_entry_memory_ub",
    "Verif.Cache.clear_without_table_memory_ub"
   ],
   "note": "False for the entry of a store and the new table of a clear: undefined behaviour in every reachable state. Proved for all other allocations."
  },
  {
   "property": "C15",
   "status": "proved",
   "theorems": [
    "Verif.Cache.notifications_replay"
   ],
   "note": ""
  },
  {
   "property": "C16",
   "status": "proved",
   "theorems": [
    "Verif.Cache.shards_independent"
   ],
   "note": ""
  },
  {
   "property": "C17",
   "status": "partial",
   "theorems": [
    "Verif.Cache.cursor_walk_complete_partial",
    "Verif.Cache.cursor_walk_skips_entry"
   ],
   "note": "False when keys are deleted between the calls: deleting the key just returned makes the scan skip another one (witness). Proved for every reachable cache when only expiry happens between the calls."
  },
  {
   "property": "C18",
   "status": "partial",
   "theorems": [
    "Verif.Cache.cursor_out_of_bounds",
    "Verif.Cache.cursor_touches_only_shards_partial"
   ],
   "note": "False for the cursors whose upper half is the number of shards: undefined behaviour in every state. Proved for all others."
  },
  {
   "property": "C19",
   "status": "partial",
   "theorems": [
    "Verif.Conc.concurrent_calls_serialise_partial",
    "Verif.Conc.locked_shard_is_isolated",
    "Verif.Conc.batch_scan_deadlocks"
   ],
   "note": "Any number of threads and any interleaving, calls on keys alone or in (adaptive) batches: strictly serialisable in commit order. Missing: calls over all shards made through a batch, which do not keep their locks and can block for ever (witness)."
  },
  {
   "property": "C20",
   "status": "partial",
   "theorems": [
    "Verif.Conc.batches_deadlock",
    "Verif.Conc.batch_scan_deadlocks",
    "Verif.Conc.ascending_batches_progress_partial"
   ],
   "note": "False: two batches in opposite order deadlock, and a batch calling count/iter/sweep can deadlock with itself (witnesses). Proved deadlock-free for batches that use the shards in ascending order, and for calls without batches."
  },
  {
   "property": "C21",
   "status": "proved",
   "theorems": [
    "Verif.Conc.Refs.entries_freed_exactly_once",
    "Verif.Conc.Refs.count_is_number_of_references"
   ],
   "note": "The reference protocol with the steps of entry_new, entry_free, entry_clone and the callers as listed in the model."
  },
  {
   "property": "C22",
   "status": "proved",
   "theorems": [
    "Verif.Num.varint_length",
    "Verif.Num.varint_roundtrip",
    "Verif.Num.varint_roundtrip_raw",
    "Verif.Num.varint_truncated",
    "Verif.Num.zigzag_roundtrip",
    "Verif.Num.varint_roundtrip_signed"
   ],
   "note": ""
  },
  {
   "property": "C23",
   "status": "proved",
   "theorems": [
    "Verif.Num.le_roundtrip",
    "Verif.Num.be_roundtrip",
    "Verif.Num.le_short"
   ],
   "note": ""
  },
  {
   "property": "C24",
   "status": "proved",
   "theorems": [
    "Verif.Num.saturate_spec",
    "Verif.Num.addClamp_exact",
    "Verif.Num.mulClamp_exact"
   ],
   "note": ""
  },
  {
   "property": "C25",
   "status": "proved",
   "theorems": [
    "Verif.Num.parseI64_iff",
    "Verif.Num.u64_text_roundtrip",
    "Verif.Num.i64_text_roundtrip",
    "Verif.Num.u64toa_fits"
   ],
   "note": ""
  },
  {
   "property": "C26",
   "status": "partial",
   "theorems": [
    "Verif.Glob.glob_exact_partial",
    "Verif.Glob.glob_sound_partial",
    "Verif.Glob.matchGo_terminates",
    "Verif.Glob.escaped_question_mark_matches_anything",
    "Verif.Glob.many_stars_never_match"
   ],
   "note": "False for an escaped question mark (matches any character) and for more than 127 groups of stars (never match), with witnesses; exact for all other patterns and all keys; terminates always."
  },
  {
   "property": "C27",
   "status": "proved",
   "theorems": [
    "Verif.Crc.crc_detects_adjacent_changes",
    "Verif.Save.damaged_block_rejected_partial"
   ],
   "note": "All block contents and positions, changes of up to four adjacent bytes."
  },
  {
   "property": "C28",
   "status": "partial",
   "theorems": [
    "Verif.Save.save_load_restores_partial",
    "Verif.Lz4.lz4_good",
    "Verif.Save.deadline_at_load_time_never_expires"
   ],
   "note": "False at one instant: an entry loaded exactly at its deadline becomes permanent (witness). Proved otherwise for every reachable cache, any thread and shard counts; for any compression with the contract of LZ4, which lz4.c meets (lz4_good)."
  },
  {
   "property": "C29",
   "status": "proved",
   "theorems": [
    "Verif.Save.Atomic.save_is_atomic",
    "Verif.Save.Atomic.complete_is_fileOf",
    "Verif.Save.Atomic.stale_work_file_damages_save"
   ],
   "note": "Any number of saves and threads, all interleavings, partial and failing writes, kills at any point. Assumes distinct work file names without leftovers (witness why); power failures are outside of the statement (the code does not sync)."
  },
  {
   "property": "C30",
   "status": "partial",
   "theorems": [
    "Verif.Save.truncated_file_rejected_partial",
    "Verif.Save.damaged_block_rejected_partial",
    "Verif.Save.cut_between_blocks_accepted"
   ],
   "note": "False for a cut between two blocks, which loads without error (witness). Proved for every other truncation point, and for damage to the tag, the checksum, the length of the contents or up to four adjacent data bytes of a block."
  },
  {
   "property": "C31",
   "status": "proved",
   "theorems": [
    "Verif.Save.Term.shutdown_respects_load",
    "Verif.Save.Term.loaded_process_saves_before_exit"
   ],
   "note": ""
  },
  {
   "property": "C32",
   "status": "proved",
   "theorems": [
    "Verif.Resp.resp_parse_exact"
   ],
   "note": "All argument lists within the limits, any digits of the numbers (leading zeros), anything behind."
  },
  {
   "property": "C33",
   "status": "proved",
   "theorems": [
    "Verif.Resp.resp_chunking",
    "Verif.Resp.resp_incomplete_waits"
   ],
   "note": "All command lists, all splits, any effect of the commands. Background commands (save, load) are not in the model of the loop."
  },
  {
   "property": "C34",
   "status": "proved",
   "theorems": [
    "Verif.Resp.replies_decode"
   ],
   "note": "All values, nested arrays, any buffer contents before and bytes after; independent decoder."
  },
  {
   "property": "C35",
   "status": "partial",
   "theorems": [
    "Verif.Resp.error_line_injection",
    "Verif.Resp.error_line_clean_partial"
   ],
   "note": "False of the code: behind another pending reply the name of an unknown command is echoed with its CR LF (witness). True for the first reply in the buffer if its text ends with a printable character."
  },
  {
   "property": "C36",
   "status": "proved",
   "theorems": [
    "Verif.Resp.inline_parse_exact",
    "Verif.Resp.inline_incomplete_not_executed"
   ],
   "note": "All lines; nothing without LF is ever executed, for all bytes."
  },
  {
   "property": "C37",
   "status": "partial",
   "theorems": [
    "Verif.Mc.mc_store_parse",
    "Verif.Cmd.mc_store_stores_partial",
    "Verif.Cmd.append_exact",
    "Verif.Cmd.exptime_00_expires"
   ],
   "note": "All keys, values, flags, expiries and following bytes, from the wire to the cache. False of the code for an expiry written 00 or -0, which expires at once (witness)."
  },
  {
   "property": "C38",
   "status": "partial",
   "theorems": [
    "Verif.Mc.missing_argument_used",
    "Verif.Mc.mc_parse_in_bounds_partial"
   ],
   "note": "False of the code: `set k` uses an argument that does not exist, and a CR before a blank makes a negative length (witnesses). True whenever the line has the arguments of its command and no stray CR."
  },
  {
   "property": "C39",
   "status": "partial",
   "theorems": [
    "Verif.Conn.noreply_same_effect_partial",
    "Verif.Conn.noreply_is_answered",
    "Verif.Conn.Example.noreply_stored"
   ],
   "note": "False of the code: conn->noreply is never read. Proved: the effect is that of the request without noreply, and so is the output, for all storage requests."
  },
  {
   "property": "C40",
   "status": "proved",
   "theorems": [
    "Verif.Conn.no_access_without_password",
    "Verif.Http.http_needs_password"
   ],
   "note": "All byte strings, chunkings, protocols, passwords; any behaviour of the cache and of the commands that are not modelled."
  },
  {
   "property": "C41",
   "status": "partial",
   "theorems": [
    "Verif.Pg.prepared_exact_partial",
    "Verif.Pg.values_cannot_change_command",
    "Verif.Pg.repeated_parameter_refused",
    "Verif.Pg.frame_message",
    "Verif.Pg.checkParams_iff"
   ],
   "note": "All queries made of bare words, quoted texts and parameters, all values, any hash function of the set of parameters; for every query whatever the values cannot change the command. False of the code: a parameter that occurs twice is refused (witness)."
  },
  {
   "property": "C42",
   "status": "partial",
   "theorems": [
    "Verif.Pg.query_exact_partial",
    "Verif.Pg.quote_loses_text"
   ],
   "note": "False of the code for every text with a quote: the argument becomes empty (proved for all such texts). True for all texts without quotes."
  },
  {
   "property": "C43",
   "status": "partial",
   "theorems": [
    "Verif.Pg.escapes_exact_partial",
    "Verif.Pg.astral_plane_shifted",
    "Verif.Pg.first_low_surrogate_lost"
   ],
   "note": "False of the code for every character of planes 2, 4, ..., 16 (stored one plane lower) and for pairs with the first low surrogate (U+FFFD). True for all sequences of plain bytes, letter escapes, characters below U+10000, and the characters of the odd planes with the exceptions stated."
  },
  {
   "property": "C44",
   "status": "partial",
   "theorems": [
    "Verif.Http.http_request_exact",
    "Verif.Http.no_headers_never_answered",
    "Verif.Http.nx_before_ampersand_ignored",
    "Verif.Http.token_without_password_refused",
    "Verif.Http.split_before_last_lf_refused"
   ],
   "note": "All keys, bodies, options, header fields in any order. False of the code: a request without header fields is never answered, `?nx&` ignores nx, a bearer token is refused when no password is configured, and a split between CR and LF is refused (witnesses)."
  },
  {
   "property": "C45",
   "status": "partial",
   "theorems": [
    "Verif.Cmd.incr_exact_partial",
    "Verif.Cmd.memcache_incr_exact_partial",
    "Verif.Cmd.memcache_decr_wraps",
    "Verif.Cmd.command_on_cache"
   ],
   "note": "All values, amounts, forms, interference by other shards. False of the code for memcache: decr below 0 wraps (witness). Texts that the number reader takes although they are no numbers (empty, over-long) are excluded by Plain."
  },
  {
   "property": "C46",
   "status": "proved",
   "theorems": [
    "Verif.Cmd.append_exact",
    "Verif.Cmd.command_on_cache"
   ],
   "note": "All old values and added bytes, RESP and memcache, interference by other shards; HTTP and Postgres cannot reach or are not modelled."
  },
  {
   "property": "C47",
   "status": "partial",
   "theorems": [
    "Verif.Cmd.expire_exact_partial",
    "Verif.Cmd.ttl_exact",
    "Verif.Cmd.set_exact_partial",
    "Verif.Cmd.expire_makes_permanent",
    "Verif.Cmd.setex_exact",
    "Verif.Cmd.exat_never_expires"
   ],
   "note": "All times and amounts for EXPIRE, TTL, PTTL, SETEX, EX, PX. False of the code for EXAT/PXAT (Unix time compared with time since boot) and for amounts before time 0, which make the key permanent (witnesses)."
  },
  {
   "property": "C48",
   "status": "proved",
   "theorems": [
    "Verif.Cmd.command_lookup",
    "Verif.Cmd.command_names"
   ],
   "note": "All byte strings as names; every probe stays in the table."
  },
  {
   "property": "C49",
   "status": "proved",
   "theorems": [
    "Verif.Cmd.mget_is_gets",
    "Verif.Cmd.mget_alone",
    "Verif.Cmd.del_is_dels",
    "Verif.Cmd.del_alone",
    "Verif.Cmd.exists_counts",
    "Verif.Cmd.mgets_exact",
    "Verif.Cmd.touch_counts"
   ],
   "note": "All key lists, any interference between the single steps; RESP connections."
  },
  {
   "property": "C50",
   "status": "proved",
   "theorems": [
    "Verif.Net.Admit.never_more_than_max"
   ],
   "note": "All interleavings of any number of threads, at the level of the atomic operations on nconns."
  },
  {
   "property": "C51",
   "status": "partial",
   "theorems": [
    "Verif.Net.Uring.handlers_get_own_bytes_partial",
    "Verif.Net.Uring.sockets_get_own_replies_partial",
    "Verif.Net.Uring.uring_mixes_connections",
    "Verif.Net.Uring.uring_foreign_bytes",
    "Verif.Net.Uring.uring_mangles_replies"
   ],
   "note": "True with system calls and if io_uring completes in submission order. False otherwise: completions are matched by position, so lengths are exchanged between connections (proved for all data; witness with another client's bytes)."
  },
  {
   "property": "C52",
   "status": "partial",
   "theorems": [
    "Verif.Main.options_obeyed_partial",
    "Verif.Main.ports_checked",
    "Verif.Main.evict_and_sixpack_ignored",
    "Verif.Main.evict_no_evicts",
    "Verif.Main.autosweep_confused",
    "Verif.Main.large_numbers_wrap"
   ],
   "note": "False of the code: evict and sixpack are not passed to the cache, the check of autosweep looks at cas, numbers beyond int wrap. Everything else is obeyed."
  },
  {
   "property": "C53",
   "status": "proved",
   "theorems": [
    "Verif.Net.Out.replies_arrive_in_order"
   ],
   "note": "All sequences of writes, all answers of the socket, any number of rounds."
  },
  {
   "property": "C54",
   "status": "partial",
   "theorems": [
    "Verif.Main.Monitor.monitor_line_partial",
    "Verif.Main.Monitor.auth_not_shown",
    "Verif.Main.Monitor.monitor_leaks",
    "Verif.Main.Monitor.monitor_two_lines"
   ],
   "note": "False of the code for bytes that need hexadecimal: eight bytes are appended of which five were written. True for all other arguments; passwords are never shown."
  },
  {
   "property": "C55",
   "status": "partial",
   "theorems": [
    "Verif.Num.parseU64_accepts_negative",
    "Verif.Num.parseU64_exact_partial"
   ],
   "note": "False of the code: blank followed by -1 is accepted as 2^64-1 (witness); exact for texts whose first character is not a blank."
  },
  {
   "property": "C56",
   "status": "partial",
   "theorems": [
    "Verif.Resp.split_inline_rejected",
    "Verif.Resp.inline_chunking_partial"
   ],
   "note": "False of the code: a new connection whose first chunk has no newline is closed (witness). True once the protocol is known."
  },
  {
   "property": "C57",
   "status": "partial",
   "theorems": [
    "Verif.Resp.empty_number_reads_outside",
    "Verif.Resp.resp_parse_in_bounds_partial"
   ],
   "note": "False of the code: strtoll skips CR LF of an empty number and reads on (witness). True whenever no number field is blank."
  },
  {
   "property": "C58",
   "status": "partial",
   "theorems": [
    "Verif.Mc.mc_chunking_partial",
    "Verif.Mc.delete_noreply_refused",
    "Verif.Mc.split_mc_rejected"
   ],
   "note": "False of the code: the key `noreply` cannot be deleted, and a new connection whose first chunk has no newline is closed (witnesses). True otherwise for every list of requests and every split once the protocol is known."
  },
  {
   "property": "C59",
   "status": "partial",
   "theorems": [
    "Verif.Mc.refused_value_is_executed",
    "Verif.Mc.bad_chunk_skips_value_partial"
   ],
   "note": "False of the code: after a refused size the value is executed as commands (witness). True when the data block has the announced size but a bad end."
  },
  {
   "property": "C60",
   "status": "partial",
   "theorems": [
    "Verif.Cmd.set_exact_partial",
    "Verif.Cmd.set_nx_get_hides_value",
    "Verif.Cmd.exat_never_expires"
   ],
   "note": "All option lists without EXAT/PXAT, RESP. False of the code: EXAT/PXAT, and the reply to a refused SET NX GET is null (witnesses)."
  },
  {
   "property": "C61",
   "status": "partial",
   "theorems": [
    "Verif.Args.buffers_freed_once_partial",
    "Verif.Args.type_prefix_double_free",
    "Verif.Args.type_prefix_double_free_prepared"
   ],
   "note": "All request sequences in which no argument that owns memory stands right of a removed `::type` prefix. False otherwise: `::text set k E'\\n'` followed by a query of four words frees one buffer twice (witnesses)."
  },
  {
   "property": "C62",
   "status": "partial",
   "theorems": [
    "Verif.Net.Admit.refused_only_at_limit_partial",
    "Verif.Net.Admit.refused_below_limit"
   ],
   "note": "False of the code: connections about to be refused count for a moment. Proved: a refusal happens only when admitted plus just being refused reach the limit."
  },
  {
   "property": "C63",
   "status": "partial",
   "theorems": [
    "Verif.Net.Tls.tls_iff_tls_port_partial",
    "Verif.Net.Tls.refused_tls_taints_number"
   ],
   "note": "False of the code after a refused TLS connection: its number stays marked (witness). True as long as none is refused."
  },
  {
   "property": "C64",
   "status": "partial",
   "theorems": [
    "Verif.Net.Cmap.table_finds",
    "Verif.Net.Cmap.table_grows_forever"
   ],
   "note": "Lookups are exact for all sequences and hash functions. The size is not bounded: the count is never decreased, so the table doubles with the number of connections ever made (proved for every n)."
  },
  {
   "property": "C65",
   "status": "partial",
   "theorems": [
    "Verif.Net.Out.all_receive_partial",
    "Verif.Net.Out.reluctant_reader_stalls_others"
   ],
   "note": "False of the code: flush_conn repeats write on EAGAIN, so a client that does not read stops its worker thread (proved for any number of attempts). True if all sockets take the bytes."
  },
  {
   "property": "C66",
   "status": "proved",
   "theorems": [
    "Verif.Main.last_option_wins"
   ],
   "note": "All command lines made of the options listed by --help."
  },
  {
   "property": "C67",
   "status": "proved",
   "theorems": [
    "Verif.Cmd.mc_get_exact"
   ],
   "note": "All key lists (valid memcache keys), all stored values, any interference; the client is a separate reader of the reply bytes."
  },
  {
   "property": "C68",
   "status": "partial",
   "theorems": [
    "Verif.Cmd.mc_touch_exact_partial",
    "Verif.Cmd.mc_touch_zero_removes",
    "Verif.Cmd.mc_touch_absolute"
   ],
   "note": "Proved for 1 second to 30 days. False of the code: exptime 0 removes the item and Unix times are taken as seconds from now (witnesses)."
  },
  {
   "property": "C69",
   "status": "partial",
   "theorems": [
    "Verif.Cmd.no_crash_partial",
    "Verif.Cmd.no_crash_cache_partial",
    "Verif.Cmd.scan_ends_partial",
    "Verif.Cmd.populate_divides_by_zero",
    "Verif.Cmd.scan_crashes",
    "Verif.Cmd.scan_request_crashes"
   ],
   "note": "False of the code: DEBUG POPULATE divides by zero, SCAN with the number of shards in the upper half of the cursor leaves the cache (in every state). All other requests are safe; for memcache lines and Postgres messages see C38 and C61."
  },
  {
   "property": "C70",
   "status": "partial",
   "theorems": [
    "Verif.Cmd.one_reply_partial",
    "Verif.Cmd.pipeline_reads",
    "Verif.Cmd.two_replies"
   ],
   "note": "False of the code: error lines repeat control characters of the request (witness). True for all requests whose quoted arguments have none. MONITOR with failed background work is excluded (bgwork)."
  },
  {
   "property": "C71",
   "status": "partial",
   "theorems": [
    "Verif.Cmd.scan_complete_partial",
    "Verif.Cache.cursor_walk_skips_entry",
    "Verif.Cmd.scan_request",
    "Verif.Cmd.scan_count_zero",
    "Verif.Cmd.scan_gets_on"
   ],
   "note": "Proved if only expiry happens between the commands. False after deletions (witness at the level of the cursor)."
  },
  {
   "property": "C72",
   "status": "partial",
   "theorems": [
    "Verif.Cmd.flushall_exact",
    "Verif.Cmd.flush_thread_empties",
    "Verif.Cmd.visited_all",
    "Verif.Cmd.delay_before_sync_is_ignored"
   ],
   "note": "Emptying proved for all options, schedules and concurrent writers. False of the code: SYNC behind DELAY removes the keys at once. Creating threads is assumed to succeed (the code compares with the wrong value)."
  },
  {
   "property": "C73",
   "status": "partial",
   "theorems": [
    "Verif.Cmd.keys_exact_partial",
    "Verif.Cmd.keys_alone_partial",
    "Verif.Cache.iteration_shows_entry_twice"
   ],
   "note": "Proved for patterns within C26. False of the code: a key may be listed twice (C11) and escaped question marks match anything (C26)."
  },
  {
   "property": "C74",
   "status": "partial",
   "theorems": [
    "Verif.Cmd.sweep_invisible",
    "Verif.Cmd.sweep_thread_invisible",
    "Verif.Cmd.sweep_async_fast_refused"
   ],
   "note": "Invisible for all states and interference. False of the code: the documented form with ASYNC and FAST is refused."
  },
  {
   "property": "C75",
   "status": "partial",
   "theorems": [
    "Verif.Net.Bg.requests_in_order",
    "Verif.Net.Bg.received_executed_partial",
    "Verif.Net.Bg.Example.half_closed_client_loses_requests"
   ],
   "note": "Order proved for all schedules. False of the code: if the client has closed its side when background work ends, requests already received are dropped (witness)."
  },
  {
   "property": "C76",
   "status": "proved",
   "theorems": [
    "Verif.Http.http_one_response",
    "Verif.Http.http_get_exact",
    "Verif.Http.http_put_exact",
    "Verif.Http.http_delete_exact",
    "Verif.Http.http_refused"
   ],
   "note": "From the bytes of the request to the bytes of the response; the client is a separate reader. Requests without header fields are never complete (C44), parameter values other than numbers are answered by 500 (only one response is proved for them)."
  },
  {
   "property": "C77",
   "status": "partial",
   "theorems": [
    "Verif.Mc.mc_one_reply_partial",
    "Verif.Mc.mc_pipeline_reads",
    "Verif.Mc.not_found_nul"
   ],
   "note": "All requests, from bytes to bytes. False for replace and cas on a missing key: a NUL follows the reply (not_found_nul). noreply is C39."
  },
  {
   "property": "C78",
   "status": "partial",
   "theorems": [
    "Verif.Pg.query_answered_partial",
    "Verif.Pg.queries_answered_partial",
    "Verif.Pg.pg_get_exact",
    "Verif.Pg.pg_del_exact",
    "Verif.Pg.pg_set_exact",
    "Verif.Pg.pg_mget_exact"
   ],
   "note": "All queries, from bytes to bytes; the client is a separate reader. Left out: QUIT, and the requests that crash (C69)."
  },
  {
   "property": "C79",
   "status": "partial",
   "theorems": [
    "Verif.Pg.prepared_answered_partial",
    "Verif.Pg.failed_parse_two_ready"
   ],
   "note": "Proved if all steps succeed. False of the code: a failed Parse is answered by an error with ReadyForQuery, and Sync by a second one (for every refused text)."
  },
  {
   "property": "C80",
   "status": "partial",
   "theorems": [
    "Verif.Pg.failed_parse_harmless_partial",
    "Verif.Pg.failed_parse_runs_old"
   ],
   "note": "False of the code: Execute behind a failed Parse runs the statement prepared before (witness: a key is stored). The failed message itself does nothing."
  },
  {
   "property": "C81",
   "status": "partial",
   "theorems": [
    "Verif.Pg.login_open",
    "Verif.Pg.login_asks",
    "Verif.Pg.login_password",
    "Verif.Pg.login_encoding",
    "Verif.Pg.login_ssl",
    "Verif.Pg.password_asked_again",
    "Verif.Pg.empty_parameter_refused"
   ],
   "note": "Login proved for all parameter lists without empty values. False of the code: an empty value shifts names and values; Describe of a portal is answered by another question for the password."
  },
  {
   "property": "C82",
   "status": "proved",
   "theorems": [
    "Verif.Net.Loop.loop_safe",
    "Verif.Net.Loop.one_life",
    "Verif.Net.Loop.nothing_lost",
    "Verif.Net.Loop.none_forgotten",
    "Verif.Net.Loop.none_leaked",
    "Verif.Net.Loop.broken_closed"
   ],
   "note": "One worker thread with arbitrary events, handlers, accepting threads and background threads. io_uring is C51, the limit and TLS C50 and C63, partial writes C53."
  },
  {
   "property": "C83",
   "status": "partial",
   "theorems": [
    "Verif.Net.Count.shown_exact",
    "Verif.Net.Count.shown_at_most",
    "Verif.Net.Count.shown_own_partial",
    "Verif.Net.Count.shown_in_the_end_partial",
    "Verif.Net.Count.stats_do_not_show_all",
    "Verif.Net.Count.pipelined_get_not_shown",
    "Verif.Net.Count.gets_without_hits",
    "Verif.Net.Loop.counters_exact_partial",
    "Verif.Net.Loop.counters_late"
   ],
   "note": "Proved for any number of threads: what is shown is exactly what has been published, never too much, it includes all earlier packets of the asking client, and all that is counted before a whole round of every thread. False of the code beyond that: an answered GET of another client, or one in the same packet, need not be shown, and one STATS may show gets without hits or misses (witnesses)."
  },
  {
   "property": "C84",
   "status": "partial",
   "theorems": [
    "Verif.Cmd.ping_exact",
    "Verif.Cmd.echo_exact",
    "Verif.Cmd.select_exact_partial",
    "Verif.Cmd.select_negative",
    "Verif.Cmd.dbsize_exact",
    "Verif.Cmd.dbsize_counts_expired",
    "Verif.Cmd.populate_exact",
    "Verif.Cmd.save_exact",
    "Verif.Pg.pg_echo_exact",
    "Verif.Pg.pg_dbsize_exact"
   ],
   "note": "Proved from command line to reply bytes. False of the code: SELECT accepts negative numbers (witness). DBSIZE includes keys whose time is over until they are swept (witness). DEBUG POPULATE without expiry range, nobody else active."
  },
  {
   "property": "C85",
   "status": "partial",
   "theorems": [
    "Verif.Lz4.compress_block",
    "Verif.Lz4.decompress_block",
    "Verif.Lz4.lz4_good",
    "Verif.Lz4.roundtrip_partial",
    "Verif.Lz4.block_written",
    "Verif.Lz4.oversize_shard_not_loadable",
    "Verif.Lz4.huge_shard_silently_cut"
   ],
   "note": "Proved for shards of at most LZ4_MAX_INPUT_SIZE bytes. False of the code for larger ones: the sizes are passed as int, so a shard beyond the maximum is saved as an empty block, and of a shard beyond 4 GiB only the beginning is saved, both while save reports success."
  },
  {
   "property": "C86",
   "status": "proved",
   "theorems": [
    "Verif.Lz4.runDecompress_defined",
    "Verif.Lz4.runCompress_defined",
    "Verif.Lz4.decompress_ends"
   ],
   "note": "All blocks and length fields below 2^32 (the fields have 32 bits), both versions of the decoder."
  },
  {
   "property": "C87",
   "status": "partial",
   "theorems": [
    "Verif.Net.TlsIo.in_order",
    "Verif.Net.TlsIo.all_handled_partial",
    "Verif.Net.TlsIo.all_but_one_handled",
    "Verif.Net.TlsIo.waits",
    "Verif.Net.TlsIo.last_byte_not_read"
   ],
   "note": "Proved for records of at most 16383 bytes; order and at most one missing byte for all. False of the code: the last byte of a record of 16384 bytes stays in OpenSSL, where epoll does not see it (witness)."
  },
  {
   "property": "C88",
   "status": "partial",
   "theorems": [
    "Verif.Net.TlsIo.closed_for_a_reason_partial",
    "Verif.Net.TlsIo.waiting_bytes_are_read_partial",
    "Verif.Net.TlsIo.failure_closes_other"
   ],
   "note": "Proved as long as no operation of TLS failed in the thread since the last handshake. False of the code in general: the error queue of OpenSSL is not cleared, so that a failure of one connection closes another one (witness). OpenSSL as its manual describes it."
  },
  {
   "property": "C89",
   "status": "partial",
   "theorems": [
    "Verif.Hashmap.found_partial",
    "Verif.Hashmap.pg_lookup_partial",
    "Verif.Hashmap.not_found"
   ],
   "note": "Proved for fewer than 65536 names. False of the code with 65536: whatever the hash function, there are as many names of the same hash, and the distance of 16 bits wraps (pigeonhole)."
  },
  {
   "property": "C90",
   "status": "partial",
   "theorems": [
    "Verif.Hashmap.freed_once_partial",
    "Verif.Hashmap.never_freed"
   ],
   "note": "Proved for fewer than 65536 names. False of the code with 65536, see C89."
  },
  {
   "property": "C91",
   "status": "partial",
   "theorems": [
    "Verif.Pg.portal_runs_bound_partial",
    "Verif.Pg.portal_runs_other"
   ],
   "note": "Proved if no message in between prepares the same name or binds the same portal. False of the code otherwise: a portal keeps the name of its statement only (witness)."
  },
  {
   "property": "C92",
   "status": "partial",
   "theorems": [
    "Verif.Cmd.get_counted",
    "Verif.Cmd.mget_counted",
    "Verif.Cmd.del_counted",
    "Verif.Cmd.touch_counted",
    "Verif.Cmd.set_counted",
    "Verif.Cmd.incr_counted_partial",
    "Verif.Cmd.auth_counted",
    "Verif.Cmd.gets_add_up_partial",
    "Verif.Cmd.gets_do_not_add_up",
    "Verif.Cmd.incr_missing_is_hit",
    "Verif.Cmd.append_no_memory_not_counted"
   ],
   "note": "Proved per command and for sums over sessions, with any interference. False of the code for TTL and PTTL (hits and misses without a get), GET with a wrong number of arguments (a get without hit or miss), INCR of a missing key (a hit, except for memcache) and APPEND without memory (not counted). cmd_flush and the counters of the parsers are left out."
  },
  {
   "property": "C93",
   "status": "partial",
   "theorems": [
    "Verif.Cache.tick_spec",
    "Verif.Cache.tick_exact_partial",
    "Verif.Cache.tick_mostly_over_partial",
    "Verif.Cache.tick_ends",
    "Verif.Cache.more_than_half_not_swept",
    "Verif.Cache.all_over_not_swept"
   ],
   "note": "Proved: a round changes nothing or removes exactly the expired entries of all shards; it sweeps if and only if more than a tenth of the first 20 entries looked at are expired, which is exact for shards of at most 20 entries. False of the code otherwise: 25 of 45 entries expired and not swept; all entries expired, but the shard looked at is empty (witnesses). double is a rounding with its usual properties."
  },
  {
   "property": "C94",
   "status": "partial",
   "theorems": [
    "Verif.Main.maxmemory_exact",
    "Verif.Main.maxmemory_percent",
    "Verif.Main.maxmemory_fraction",
    "Verif.Main.maxmemory_refused",
    "Verif.Main.maxmemory_no_number",
    "Verif.Main.maxmemory_unlimited",
    "Verif.Main.maxmemory_too_large",
    "Verif.Main.lowmem_iff",
    "Verif.Main.unlimited_never_low"
   ],
   "note": "Proved for decimal numbers; strtod and double are functions with their documented properties. False of the code for limits beyond 64 bits, which are converted with an undefined result (witness). Numbers with exponent and hexadecimal numbers are left out."
  },
  {
   "property": "C95",
   "status": "partial",
   "theorems": [
    "Verif.Cache.lowmem_does_not_grow_partial",
    "Verif.Cache.lowmem_grows",
    "Verif.Cmd.full_adds_nothing_partial",
    "Verif.Cmd.full_set_refused_partial",
    "Verif.Cmd.incr_adds_when_full",
    "Verif.Cmd.append_adds_when_full"
   ],
   "note": "Proved for stores into shards with two other keys of other hashes, and with --evict=no for all commands through SET. False of the code: a shard with one key may grow (witness); INCR, DECR, APPEND and PREPEND (and LOAD, DEBUG POPULATE) do not look at the limit (witnesses)."
  },
  {
   "property": "C96",
   "status": "partial",
   "theorems": [
    "Verif.Main.MonSession.pings_answered_partial",
    "Verif.Main.MonSession.other_ends",
    "Verif.Main.MonSession.shown_once_partial",
    "Verif.Main.MonSession.shown_only",
    "Verif.Main.MonSession.shown_in_order_partial",
    "Verif.Main.MonSession.split_ping_ends",
    "Verif.Main.MonSession.two_pings_end",
    "Verif.Main.MonSession.ping_with_monitor_unanswered",
    "Verif.Main.MonSession.ping_message_ignored",
    "Verif.Main.MonSession.command_after_ok_not_shown",
    "Verif.Main.MonSession.shown_in_other_order"
   ],
   "note": "Proved for all interleavings: between the entry in the list of monitors and the removal from it every command is shown exactly once, in order unless handled at the same time; PINGs that arrive one by one are answered. False of the code (witnesses): commands between OK and the entry in the list are not shown; commands of two threads may be shown in the other order; a PING in two parts, or two PINGs at once, end the session; a PING behind MONITOR in the same packet is not answered."
  },
  {
   "property": "C97",
   "status": "proved",
   "theorems": [
    "Verif.Cross.stored_here_read_there",
    "Verif.Cross.removed_here_gone_there"
   ],
   "note": "Proved from the bytes of the request to the bytes of the answer, for SET, set/add/replace/cas, PUT and SET (simple query), and GET, get/gets, GET and GET; memcache lifetimes up to 30 days, Postgres through the simple query protocol."
  },
  {
   "property": "C98",
   "status": "proved",
   "theorems": [
    "Verif.Wire.pipeline_served",
    "Verif.Wire.serves_unique"
   ],
   "note": "One client at a time, no low memory, allocations succeed, EXPIRE with a positive time, and no distance counter of the hash table wraps (as in C01; that case is named in the theorem). Commands other than those listed are left out."
  },
  {
   "property": "C99",
   "status": "proved",
   "theorems": [
    "Verif.StatsOut.stats_resp",
    "Verif.StatsOut.stats_mc",
    "Verif.StatsOut.stats_pg",
    "Verif.StatsOut.stats_model",
    "Verif.StatsOut.rows_show"
   ],
   "note": "Version, hash and the texts of times are short and without blanks."
  }
 ]
}
