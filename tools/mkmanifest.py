#!/usr/bin/env python3
"""Writes ../MANIFEST.json from the table below."""
import json, os
C = []
def c(prop, status, theorems, note=""):
    C.append({"property": prop, "status": status, "theorems": theorems, "note": note})

S = "Verif.Sixpack."; N = "Verif.Num."; E = "Verif.Entry."
c("C01", "partial", ["Verif.Cache.cache_is_dictionary_partial", "Verif.Cache.small_cache_is_dictionary_partial"],
  "All histories, hash functions and shard counts in which no 8-bit probe distance wraps (see C10); for shards "
  "holding at most 254 keys that condition is proved for every hash function.")
c("C10", "partial", ["Verif.Cache.colliding_keys_lose_an_entry", "Verif.Cache.small_cache_is_dictionary_partial"],
  "False as stated: for every hash function 256 colliding keys exist, all stores report success and one key is lost. "
  "Proved for at most 254 distinct keys per shard.")
K = "Verif.Cache."
c("C04", "proved", [K+"expiry_exact", K+"load_finds_live"], "All reachable cache states, all operations and times.")
c("C05", "partial", [K+"store_does_what_is_asked", K+"conditional_store_keeps_partial", K+"nx_with_cas_replaces_live_entry"],
  "False for the combination NX with a CAS token: NX is ignored (witness). Proved for every other combination.")
c("C06", "proved", [K+"cas_prevents_lost_update", K+"tokens_increase"],
  "The per-shard counter is an unbounded number in the model (the 64-bit counter would need 2^64 writes to wrap).")
c("C07", "proved", [K+"delete_veto_restores", K+"refused_store_restores"], "")
c("C08", "proved", [K+"probing_terminates"], "")
c("C09", "proved", [K+"eviction_at_most_one", K+"eviction_choice"], "")
c("C11", "partial", [K+"iteration_shows_live_entries_partial", K+"iteration_shows_entry_twice"],
  "False when entries are deleted during the iteration: an entry can be shown twice (witness). Proved: every live entry is shown, "
  "nothing else is, and deletions are exact; exactly once if nothing is deleted.")
c("C12", "partial", [K+"sweep_removes_expired_partial", K+"sweep_counts_entry_twice"],
  "The kept counter is wrong for a wrapped cluster (witness). Proved: exactly the expired entries are removed, and the swept counter.")
c("C13", "partial", [K+"count_exact", K+"size_exact_partial", K+"size_drifts", K+"total_accounting_partial", K+"total_counts_vetoed_delete"],
  "count is exact. The size and total counters drift (witnesses); proved exact for histories without the drifting calls.")
c("C14", "partial", [K+"alloc_failure_keeps_data_partial", K+"store_without_entry_memory_ub", K+"clear_without_table_memory_ub"],
  "False for the entry of a store and the new table of a clear: undefined behaviour in every reachable state. Proved for all other allocations.")
c("C15", "proved", [K+"notifications_replay"], "")
c("C16", "proved", [K+"shards_independent"], "")
c("C17", "partial", [K+"cursor_walk_complete_partial", K+"cursor_walk_skips_entry"],
  "False when keys are deleted between the calls: deleting the key just returned makes the scan skip another one (witness). "
  "Proved for every reachable cache when only expiry happens between the calls.")
c("C18", "partial", [K+"cursor_out_of_bounds", K+"cursor_touches_only_shards_partial"],
  "False for the cursors whose upper half is the number of shards: undefined behaviour in every state. Proved for all others.")
T = "Verif.Conc."
c("C19", "partial", [T+"concurrent_calls_serialise_partial", T+"locked_shard_is_isolated", T+"batch_scan_deadlocks"],
  "Any number of threads and any interleaving, calls on keys alone or in (adaptive) batches: strictly serialisable in commit order. "
  "Missing: calls over all shards made through a batch, which do not keep their locks and can block for ever (witness).")
c("C20", "partial", [T+"batches_deadlock", T+"batch_scan_deadlocks", T+"ascending_batches_progress_partial"],
  "False: two batches in opposite order deadlock, and a batch calling count/iter/sweep can deadlock with itself (witnesses). "
  "Proved deadlock-free for batches that use the shards in ascending order, and for calls without batches.")
c("C21", "proved", [T+"Refs.entries_freed_exactly_once", T+"Refs.count_is_number_of_references"],
  "The reference protocol with the steps of entry_new, entry_free, entry_clone and the callers as listed in the model.")
c("C02", "proved", [S+"unsixpack_sixpack", S+"sixpack_accepts_iff", S+"sixpack_fits", S+"unsixpack_fits",
  S+"sixpack_injective", E+"compare_eq_zero_iff", E+"keyEq_iff"],
  "All keys; packed and unpacked forms, buffer bounds, comparison of entries.")
c("C03", "proved", [E+"extract_entryNew", E+"entryNew_in_bounds", E+"accessors_entryNew"],
  "All legal field values and all format switches.")
c("C22", "proved", [N+"varint_length", N+"varint_roundtrip", N+"varint_roundtrip_raw", N+"varint_truncated",
  N+"zigzag_roundtrip", N+"varint_roundtrip_signed"], "")
c("C23", "proved", [N+"le_roundtrip", N+"be_roundtrip", N+"le_short"], "")
c("C24", "proved", [N+"saturate_spec", N+"addClamp_exact", N+"mulClamp_exact"], "")
c("C25", "proved", [N+"parseI64_iff", N+"u64_text_roundtrip", N+"i64_text_roundtrip", N+"u64toa_fits"], "")
c("C55", "partial", [N+"parseU64_accepts_negative", N+"parseU64_exact_partial"],
  "False of the code: blank followed by -1 is accepted as 2^64-1 (witness); exact for texts whose first character is not a blank.")
G = "Verif.Glob."; V = "Verif.Save."
c("C26", "partial", [G+"glob_exact_partial", G+"glob_sound_partial", G+"matchGo_terminates", G+"escaped_question_mark_matches_anything", G+"many_stars_never_match"],
  "False for an escaped question mark (matches any character) and for more than 127 groups of stars (never match), with witnesses; exact for all other patterns and all keys; terminates always.")
c("C27", "proved", ["Verif.Crc.crc_detects_adjacent_changes", V+"damaged_block_rejected_partial"], "All block contents and positions, changes of up to four adjacent bytes.")
c("C28", "partial", [V+"save_load_restores_partial", "Verif.Lz4.lz4_good", V+"deadline_at_load_time_never_expires"],
  "False at one instant: an entry loaded exactly at its deadline becomes permanent (witness). Proved otherwise for every reachable cache, "
  "any thread and shard counts; for any compression with the contract of LZ4, which lz4.c meets (lz4_good).")
c("C30", "partial", [V+"truncated_file_rejected_partial", V+"damaged_block_rejected_partial", V+"cut_between_blocks_accepted"],
  "False for a cut between two blocks, which loads without error (witness). Proved for every other truncation point, and for damage to the tag, the checksum, "
  "the length of the contents or up to four adjacent data bytes of a block.")
c("C29", "proved", [V+"Atomic.save_is_atomic", V+"Atomic.complete_is_fileOf", V+"Atomic.stale_work_file_damages_save"],
  "Any number of saves and threads, all interleavings, partial and failing writes, kills at any point. Assumes distinct work file names "
  "without leftovers (witness why); power failures are outside of the statement (the code does not sync).")
c("C31", "proved", [V+"Term.shutdown_respects_load", V+"Term.loaded_process_saves_before_exit"], "")
R = "Verif.Resp."
c("C32", "proved", [R+"resp_parse_exact"], "All argument lists within the limits, any digits of the numbers (leading zeros), anything behind.")
c("C33", "proved", [R+"resp_chunking", R+"resp_incomplete_waits"],
  "All command lists, all splits, any effect of the commands. Background commands (save, load) are not in the model of the loop.")
c("C34", "proved", [R+"replies_decode"], "All values, nested arrays, any buffer contents before and bytes after; independent decoder.")
c("C35", "partial", [R+"error_line_injection", R+"error_line_clean_partial"],
  "False of the code: behind another pending reply the name of an unknown command is echoed with its CR LF (witness). "
  "True for the first reply in the buffer if its text ends with a printable character.")
c("C36", "proved", [R+"inline_parse_exact", R+"inline_incomplete_not_executed"], "All lines; nothing without LF is ever executed, for all bytes.")
c("C56", "partial", [R+"split_inline_rejected", R+"inline_chunking_partial"],
  "False of the code: a new connection whose first chunk has no newline is closed (witness). True once the protocol is known.")
c("C57", "partial", [R+"empty_number_reads_outside", R+"resp_parse_in_bounds_partial"],
  "False of the code: strtoll skips CR LF of an empty number and reads on (witness). True whenever no number field is blank.")
M = "Verif.Mc."
c("C37", "partial", [M+"mc_store_parse", "Verif.Cmd.mc_store_stores_partial", "Verif.Cmd.append_exact", "Verif.Cmd.exptime_00_expires"],
  "All keys, values, flags, expiries and following bytes, from the wire to the cache. False of the code for an expiry written 00 or -0, which expires at once (witness).")
c("C38", "partial", [M+"missing_argument_used", M+"mc_parse_in_bounds_partial"],
  "False of the code: `set k` uses an argument that does not exist, and a CR before a blank makes a negative length (witnesses). "
  "True whenever the line has the arguments of its command and no stray CR.")
c("C58", "partial", [M+"mc_chunking_partial", M+"delete_noreply_refused", M+"split_mc_rejected"],
  "False of the code: the key `noreply` cannot be deleted, and a new connection whose first chunk has no newline is closed (witnesses). "
  "True otherwise for every list of requests and every split once the protocol is known.")
c("C59", "partial", [M+"refused_value_is_executed", M+"bad_chunk_skips_value_partial"],
  "False of the code: after a refused size the value is executed as commands (witness). True when the data block has the announced size but a bad end.")
D = "Verif.Cmd."
c("C45", "partial", [D+"incr_exact_partial", D+"memcache_incr_exact_partial", D+"memcache_decr_wraps", D+"command_on_cache"],
  "All values, amounts, forms, interference by other shards. False of the code for memcache: decr below 0 wraps (witness). "
  "Texts that the number reader takes although they are no numbers (empty, over-long) are excluded by Plain.")
c("C46", "proved", [D+"append_exact", D+"command_on_cache"], "All old values and added bytes, RESP and memcache, interference by other shards; HTTP and Postgres cannot reach or are not modelled.")
c("C48", "proved", [D+"command_lookup", D+"command_names"], "All byte strings as names; every probe stays in the table.")
c("C49", "proved", [D+"mget_is_gets", D+"mget_alone", D+"del_is_dels", D+"del_alone", D+"exists_counts", D+"mgets_exact", D+"touch_counts"],
  "All key lists, any interference between the single steps; RESP connections.")
c("C47", "partial", [D+"expire_exact_partial", D+"ttl_exact", D+"set_exact_partial", D+"expire_makes_permanent", D+"setex_exact", D+"exat_never_expires"],
  "All times and amounts for EXPIRE, TTL, PTTL, SETEX, EX, PX. False of the code for EXAT/PXAT (Unix time compared with time since boot) and for amounts before time 0, which make the key permanent (witnesses).")
c("C60", "partial", [D+"set_exact_partial", D+"set_nx_get_hides_value", D+"exat_never_expires"],
  "All option lists without EXAT/PXAT, RESP. False of the code: EXAT/PXAT, and the reply to a refused SET NX GET is null (witnesses).")

H = "Verif.Http."
c("C44", "partial", [H+"http_request_exact", H+"no_headers_never_answered", H+"nx_before_ampersand_ignored", H+"token_without_password_refused", H+"split_before_last_lf_refused"],
  "All keys, bodies, options, header fields in any order. False of the code: a request without header fields is never answered, `?nx&` ignores nx, "
  "a bearer token is refused when no password is configured, and a split between CR and LF is refused (witnesses).")
P = "Verif.Pg."
c("C41", "partial", [P+"prepared_exact_partial", P+"values_cannot_change_command", P+"repeated_parameter_refused", P+"frame_message", P+"checkParams_iff"],
  "All queries made of bare words, quoted texts and parameters, all values, any hash function of the set of parameters; for every query whatever the values cannot change the command. "
  "False of the code: a parameter that occurs twice is refused (witness).")
c("C42", "partial", [P+"query_exact_partial", P+"quote_loses_text"],
  "False of the code for every text with a quote: the argument becomes empty (proved for all such texts). True for all texts without quotes.")
c("C43", "partial", [P+"escapes_exact_partial", P+"astral_plane_shifted", P+"first_low_surrogate_lost"],
  "False of the code for every character of planes 2, 4, ..., 16 (stored one plane lower) and for pairs with the first low surrogate (U+FFFD). "
  "True for all sequences of plain bytes, letter escapes, characters below U+10000, and the characters of the odd planes with the exceptions stated.")

A = "Verif.Args."
c("C61", "partial", [A+"buffers_freed_once_partial", A+"type_prefix_double_free", A+"type_prefix_double_free_prepared"],
  "All request sequences in which no argument that owns memory stands right of a removed `::type` prefix. False otherwise: `::text set k E'\\n'` followed by a query of four words frees one buffer twice (witnesses).")
K = "Verif.Conn."
c("C39", "partial", [K+"noreply_same_effect_partial", K+"noreply_is_answered", K+"Example.noreply_stored"],
  "False of the code: conn->noreply is never read. Proved: the effect is that of the request without noreply, and so is the output, for all storage requests.")
c("C40", "proved", [K+"no_access_without_password", H+"http_needs_password"],
  "All byte strings, chunkings, protocols, passwords; any behaviour of the cache and of the commands that are not modelled.")
N = "Verif.Net."
c("C50", "proved", [N+"Admit.never_more_than_max"], "All interleavings of any number of threads, at the level of the atomic operations on nconns.")
c("C51", "partial", [N+"Uring.handlers_get_own_bytes_partial", N+"Uring.sockets_get_own_replies_partial", N+"Uring.uring_mixes_connections",
  N+"Uring.uring_foreign_bytes", N+"Uring.uring_mangles_replies"],
  "True with system calls and if io_uring completes in submission order. False otherwise: completions are matched by position, so lengths are exchanged between connections "
  "(proved for all data; witness with another client's bytes).")
X = "Verif.Main."
c("C52", "partial", [X+"options_obeyed_partial", X+"ports_checked", X+"evict_and_sixpack_ignored", X+"evict_no_evicts", X+"autosweep_confused", X+"large_numbers_wrap"],
  "False of the code: evict and sixpack are not passed to the cache, the check of autosweep looks at cas, numbers beyond int wrap. Everything else is obeyed.")
c("C53", "proved", [N+"Out.replies_arrive_in_order"], "All sequences of writes, all answers of the socket, any number of rounds.")
c("C54", "partial", [X+"Monitor.monitor_line_partial", X+"Monitor.auth_not_shown", X+"Monitor.monitor_leaks", X+"Monitor.monitor_two_lines"],
  "False of the code for bytes that need hexadecimal: eight bytes are appended of which five were written. True for all other arguments; passwords are never shown.")
c("C62", "partial", [N+"Admit.refused_only_at_limit_partial", N+"Admit.refused_below_limit"],
  "False of the code: connections about to be refused count for a moment. Proved: a refusal happens only when admitted plus just being refused reach the limit.")
c("C63", "partial", [N+"Tls.tls_iff_tls_port_partial", N+"Tls.refused_tls_taints_number"],
  "False of the code after a refused TLS connection: its number stays marked (witness). True as long as none is refused.")
c("C64", "partial", [N+"Cmap.table_finds", N+"Cmap.table_grows_forever"],
  "Lookups are exact for all sequences and hash functions. The size is not bounded: the count is never decreased, so the table doubles with the number of connections ever made (proved for every n).")
c("C65", "partial", [N+"Out.all_receive_partial", N+"Out.reluctant_reader_stalls_others"],
  "False of the code: flush_conn repeats write on EAGAIN, so a client that does not read stops its worker thread (proved for any number of attempts). True if all sockets take the bytes.")
c("C66", "proved", [X+"last_option_wins"], "All command lines made of the options listed by --help.")
c("C67", "proved", [D+"mc_get_exact"], "All key lists (valid memcache keys), all stored values, any interference; the client is a separate reader of the reply bytes.")
c("C68", "partial", [D+"mc_touch_exact_partial", D+"mc_touch_zero_removes", D+"mc_touch_absolute"],
  "Proved for 1 second to 30 days. False of the code: exptime 0 removes the item and Unix times are taken as seconds from now (witnesses).")
c("C69", "partial", [D+"no_crash_partial", D+"no_crash_cache_partial", D+"scan_ends_partial", D+"populate_divides_by_zero", D+"scan_crashes", D+"scan_request_crashes"],
  "False of the code: DEBUG POPULATE divides by zero, SCAN with the number of shards in the upper half of the cursor leaves the cache (in every state). All other requests are safe; for memcache lines and Postgres messages see C38 and C61.")
c("C70", "partial", [D+"one_reply_partial", D+"pipeline_reads", D+"two_replies"],
  "False of the code: error lines repeat control characters of the request (witness). True for all requests whose quoted arguments have none. MONITOR with failed background work is excluded (bgwork).")
c("C71", "partial", [D+"scan_complete_partial", "Verif.Cache.cursor_walk_skips_entry", D+"scan_request", D+"scan_count_zero", D+"scan_gets_on"],
  "Proved if only expiry happens between the commands. False after deletions (witness at the level of the cursor).")
c("C72", "partial", [D+"flushall_exact", D+"flush_thread_empties", D+"visited_all", D+"delay_before_sync_is_ignored"],
  "Emptying proved for all options, schedules and concurrent writers. False of the code: SYNC behind DELAY removes the keys at once. Creating threads is assumed to succeed (the code compares with the wrong value).")
c("C73", "partial", [D+"keys_exact_partial", D+"keys_alone_partial", "Verif.Cache.iteration_shows_entry_twice"],
  "Proved for patterns within C26. False of the code: a key may be listed twice (C11) and escaped question marks match anything (C26).")
c("C74", "partial", [D+"sweep_invisible", D+"sweep_thread_invisible", D+"sweep_async_fast_refused"],
  "Invisible for all states and interference. False of the code: the documented form with ASYNC and FAST is refused.")
c("C75", "partial", [N+"Bg.requests_in_order", N+"Bg.received_executed_partial", N+"Bg.Example.half_closed_client_loses_requests"],
  "Order proved for all schedules. False of the code: if the client has closed its side when background work ends, requests already received are dropped (witness).")
c("C76", "proved", [H+"http_one_response", H+"http_get_exact", H+"http_put_exact", H+"http_delete_exact", H+"http_refused"],
  "From the bytes of the request to the bytes of the response; the client is a separate reader. Requests without header fields are never complete (C44), parameter values other than numbers are answered by 500 (only one response is proved for them).")
c("C77", "partial", [M+"mc_one_reply_partial", M+"mc_pipeline_reads", M+"not_found_nul"],
  "All requests, from bytes to bytes. False for replace and cas on a missing key: a NUL follows the reply (not_found_nul). noreply is C39.")
c("C78", "partial", [P+"query_answered_partial", P+"queries_answered_partial", P+"pg_get_exact", P+"pg_del_exact", P+"pg_set_exact", P+"pg_mget_exact"],
  "All queries, from bytes to bytes; the client is a separate reader. Left out: QUIT, and the requests that crash (C69).")
c("C79", "partial", [P+"prepared_answered_partial", P+"failed_parse_two_ready"],
  "Proved if all steps succeed. False of the code: a failed Parse is answered by an error with ReadyForQuery, and Sync by a second one (for every refused text).")
c("C80", "partial", [P+"failed_parse_harmless_partial", P+"failed_parse_runs_old"],
  "False of the code: Execute behind a failed Parse runs the statement prepared before (witness: a key is stored). The failed message itself does nothing.")
c("C81", "partial", [P+"login_open", P+"login_asks", P+"login_password", P+"login_encoding", P+"login_ssl", P+"password_asked_again", P+"empty_parameter_refused"],
  "Login proved for all parameter lists without empty values. False of the code: an empty value shifts names and values; Describe of a portal is answered by another question for the password.")
c("C82", "proved", [N+"Loop.loop_safe", N+"Loop.one_life", N+"Loop.nothing_lost", N+"Loop.none_forgotten", N+"Loop.none_leaked", N+"Loop.broken_closed"],
  "One worker thread with arbitrary events, handlers, accepting threads and background threads. io_uring is C51, the limit and TLS C50 and C63, partial writes C53.")
K="Verif.Net.Count."
c("C83", "partial", [K+"shown_exact", K+"shown_at_most", K+"shown_own_partial", K+"shown_in_the_end_partial", K+"stats_do_not_show_all", K+"pipelined_get_not_shown", K+"gets_without_hits", N+"Loop.counters_exact_partial", N+"Loop.counters_late"],
  "Proved for any number of threads: what is shown is exactly what has been published, never too much, it includes all earlier packets of the asking client, and all that is counted before a whole round of every thread. False of the code beyond that: an answered GET of another client, or one in the same packet, need not be shown, and one STATS may show gets without hits or misses (witnesses).")
c("C84", "partial", [D+"ping_exact", D+"echo_exact", D+"select_exact_partial", D+"select_negative", D+"dbsize_exact", D+"dbsize_counts_expired", D+"populate_exact", D+"save_exact", P+"pg_echo_exact", P+"pg_dbsize_exact"],
  "Proved from command line to reply bytes. False of the code: SELECT accepts negative numbers (witness). DBSIZE includes keys whose time is over until they are swept (witness). DEBUG POPULATE without expiry range, nobody else active.")
Z="Verif.Lz4."
c("C85", "partial", [Z+"compress_block", Z+"decompress_block", Z+"lz4_good", Z+"roundtrip_partial", Z+"block_written", Z+"oversize_shard_not_loadable", Z+"huge_shard_silently_cut"],
  "Proved for shards of at most LZ4_MAX_INPUT_SIZE bytes. False of the code for larger ones: the sizes are passed as int, so a shard beyond the maximum is saved as an empty block, and of a shard beyond 4 GiB only the beginning is saved, both while save reports success.")
c("C86", "proved", [Z+"runDecompress_defined", Z+"runCompress_defined", Z+"decompress_ends"],
  "All blocks and length fields below 2^32 (the fields have 32 bits), both versions of the decoder.")
c("C87", "partial", [N+"TlsIo.in_order", N+"TlsIo.all_handled_partial", N+"TlsIo.all_but_one_handled", N+"TlsIo.waits", N+"TlsIo.last_byte_not_read"],
  "Proved for records of at most 16383 bytes; order and at most one missing byte for all. False of the code: the last byte of a record of 16384 bytes stays in OpenSSL, where epoll does not see it (witness).")
c("C88", "partial", [N+"TlsIo.closed_for_a_reason_partial", N+"TlsIo.waiting_bytes_are_read_partial", N+"TlsIo.failure_closes_other"],
  "Proved as long as no operation of TLS failed in the thread since the last handshake. False of the code in general: the error queue of OpenSSL is not cleared, so that a failure of one connection closes another one (witness). OpenSSL as its manual describes it.")
S="Verif.Hashmap."
c("C89", "partial", [S+"found_partial", S+"pg_lookup_partial", S+"not_found"],
  "Proved for fewer than 65536 names. False of the code with 65536: whatever the hash function, there are as many names of the same hash, and the distance of 16 bits wraps (pigeonhole).")
c("C90", "partial", [S+"freed_once_partial", S+"never_freed"],
  "Proved for fewer than 65536 names. False of the code with 65536, see C89.")
c("C91", "partial", [P+"portal_runs_bound_partial", P+"portal_runs_other"],
  "Proved if no message in between prepares the same name or binds the same portal. False of the code otherwise: a portal keeps the name of its statement only (witness).")
c("C92", "partial", [D+x for x in ["get_counted", "mget_counted", "del_counted", "touch_counted", "set_counted", "incr_counted_partial", "auth_counted",
  "gets_add_up_partial", "gets_do_not_add_up", "incr_missing_is_hit", "append_no_memory_not_counted"]],
  "Proved per command and for sums over sessions, with any interference. False of the code for TTL and PTTL (hits and misses without a get), GET with a wrong number of arguments (a get without hit or miss), INCR of a missing key (a hit, except for memcache) and APPEND without memory (not counted). cmd_flush and the counters of the parsers are left out.")
c("C93", "partial", ["Verif.Cache."+x for x in ["tick_spec", "tick_exact_partial", "tick_mostly_over_partial", "tick_ends", "more_than_half_not_swept", "all_over_not_swept"]],
  "Proved: a round changes nothing or removes exactly the expired entries of all shards; it sweeps if and only if more than a tenth of the first 20 entries looked at are expired, which is exact for shards of at most 20 entries. False of the code otherwise: 25 of 45 entries expired and not swept; all entries expired, but the shard looked at is empty (witnesses). double is a rounding with its usual properties.")
X="Verif.Main."
c("C94", "partial", [X+x for x in ["maxmemory_exact", "maxmemory_percent", "maxmemory_fraction", "maxmemory_refused", "maxmemory_no_number", "maxmemory_unlimited", "maxmemory_too_large",
  "lowmem_iff", "unlimited_never_low"]],
  "Proved for decimal numbers; strtod and double are functions with their documented properties. False of the code for limits beyond 64 bits, which are converted with an undefined result (witness). Numbers with exponent and hexadecimal numbers are left out.")
c("C95", "partial", ["Verif.Cache.lowmem_does_not_grow_partial", "Verif.Cache.lowmem_grows", "Verif.Cmd.full_adds_nothing_partial", "Verif.Cmd.full_set_refused_partial",
  "Verif.Cmd.incr_adds_when_full", "Verif.Cmd.append_adds_when_full"],
  "Proved for stores into shards with two other keys of other hashes, and with --evict=no for all commands through SET. False of the code: a shard with one key may grow (witness); INCR, DECR, APPEND and PREPEND (and LOAD, DEBUG POPULATE) do not look at the limit (witnesses).")
c("C96", "partial", ["Verif.Main.MonSession."+x for x in ["pings_answered_partial", "other_ends", "shown_once_partial", "shown_only", "shown_in_order_partial",
  "split_ping_ends", "two_pings_end", "ping_with_monitor_unanswered", "ping_message_ignored", "command_after_ok_not_shown", "shown_in_other_order"]],
  "Proved for all interleavings: between the entry in the list of monitors and the removal from it every command is shown exactly once, in order unless handled at the same time; PINGs that arrive one by one are answered. False of the code (witnesses): commands between OK and the entry in the list are not shown; commands of two threads may be shown in the other order; a PING in two parts, or two PINGs at once, end the session; a PING behind MONITOR in the same packet is not answered.")
c("C97", "proved", ["Verif.Cross.stored_here_read_there", "Verif.Cross.removed_here_gone_there"],
  "Proved from the bytes of the request to the bytes of the answer, for SET, set/add/replace/cas, PUT and SET (simple query), and GET, get/gets, GET and GET; memcache lifetimes up to 30 days, Postgres through the simple query protocol.")
c("C98", "proved", ["Verif.Wire.pipeline_served", "Verif.Wire.serves_unique"],
  "One client at a time, no low memory, allocations succeed, EXPIRE with a positive time, and no distance counter of the hash table wraps (as in C01; that case is named in the theorem). Commands other than those listed are left out.")
O="Verif.StatsOut."
c("C99", "proved", [O+"stats_resp", O+"stats_mc", O+"stats_pg", O+"stats_model", O+"rows_show"],
  "Version, hash and the texts of times are short and without blanks.")
V="Verif.McWire."
c("C100", "partial", [V+x for x in ["mc_served_partial", "sniff_mc", "talk_reads", "cas_safe", "serves_unique", "off_is_off", "Example.mc_not_served", "Example.get_sniffed_as_http"]],
  "Proved up to four exact cases, in which the server is shown to send something else (Off; off_is_off; witness mc_not_served): add to a key that exists is answered EXISTS, replace and cas of a missing key are answered with a NUL behind the line, decr below zero goes on from 2^64, and some texts that are no numbers count. The first chunk of the connection must show the protocol (sniff_mc); tokens switched on; one client at a time, no low memory, allocations succeed, and no distance counter of the hash table wraps (as in C01; named in the theorem). noreply, gat, flush_all, stats, verbosity and quit are left out.")
N="Verif.Many."
c("C101", "proved", [N+x for x in ["clients_served", "clients_answered", "parts_whole"]],
  "All interleavings of any number of clients and all commands of C98 (assumptions as in C98: no distance counter of the hash table has wrapped, memory not low, allocations succeed); clocks of at least the time from which on the state at the start is known. parts_whole: the parts of a command on several keys do, if nothing comes in between, what the command does.")
c("C102", "partial", [N+x for x in ["one_key_answered_partial", "counter_exact", "lock_once", "Example.mget_not_atomic"]],
  "Proved for all interleavings and all commands of C98 on one key. False of the code for commands on several keys, whose keys are read one after the other (witness mget_not_atomic); what they do is C101.")
c("C103", "partial", [N+"restart_served_partial", "Verif.Save.deadline_at_load_time_never_expires"],
  "Proved for all conversations before and after (C101 on both sides, C28 in between), except when the wall-clock deadline of an item is the very nanosecond at which its block is loaded: then it comes back without a deadline (C28, witness deadline_at_load_time_never_expires). The save is made while the clients are idle; sizes fit the file format.")
c("C104", "proved", [N+"live_served"],
  "All interleavings of any number of clients and tasks (assumptions as in C101). The tasks are those of the threads that run beside the network threads: SAVE, KEYS, FLUSHALL, SWEEP, the automatic sweep and the save at the end; times of tasks are those from which on the state at the start is known.")
c("C105", "partial", [N+"live_restart_partial", N+"Example.save_not_snapshot", "Verif.Save.deadline_at_load_time_never_expires"],
  "Proved: each shard is restored as it was at one moment, that of its save, and the later clients are served from there. False of the code for the store as a whole: shards are saved one after the other while clients write (witness save_not_snapshot: the file has the second of two acknowledged writes, but not the first). As in C103, no deadline is the very nanosecond at which its block is loaded.")
X="Verif.Mix."
c("C106", "proved", [X+"all_served"],
  "All interleavings of any number of clients of both protocols and all commands of C98 and C100, with the differences from memcached named in C100; assumptions as in C98 and C100 (no distance counter of the hash table has wrapped, memory not low, allocations succeed). The protocol of a connection is known from its first bytes (C98, C100).")
c("C107", "proved", [X+x for x in ["no_lost_update", "one_winner", "cas_safe"]],
  "no_lost_update and one_winner for all that the reference server of C106 can do; cas_safe for all executions of the threads. At the start no token is beyond the counter of its shard (true of an empty cache, and kept by all commands: Moves.bounded).")
c("C108", "proved", ["Verif.Low.low_served", "Verif.Low.never_wrong"],
  "low_served: all conversations, from the bytes to the hash table, with the lowmem flag of each command arbitrary (assumptions otherwise as in C98: one client, allocations succeed, no distance counter has wrapped). never_wrong: for all conversations of that server; APPEND, PREPEND, INCR, DECR and KEEPTTL are left out there, as they build on the value that may have been evicted (an example beside the theorem).")
c("C109", "proved", [X+"all_served", X+"sniff_http"],
  "All interleavings of any number of clients of the three protocols. HTTP clients send one request (the server closes after each), well formed (Http.Request.Ok, Allowed: C44, C76), a PUT with at most one of nx, xx and cas, its head in one packet (split_before_last_lf_refused shows why); the body in any packets. Assumptions otherwise as in C106. Refused requests are C76.")
c("C110", "proved", [X+"all_served", X+"query_kept"],
  "All interleavings of any number of clients of the four protocols. Postgres clients are past their start (C81) and send simple queries, of words that are bare or in quotes without a quote inside, each of at most 512 MB and the message below 2 GB; DEL of one key. The model keeps the state of the connection; query_kept: these queries leave it as it is. Prepared statements and other commands for one client are C78, C79 and C82. Assumptions otherwise as in C106.")
c("C111", "partial", ["Verif.Main.sysmem_exact", "Verif.Main.percent_of_total_partial", "Verif.Main.no_total_low"],
  "sysmem_exact and percent_of_total_partial: for every file with the line in its first 4095 bytes. Otherwise false: no_total_low shows that without the file or the line any percentage, such as the default 80%, is a limit of 0 bytes, and low memory mode is on for ever. The whole percentages 1 to 100; Linux; the properties of strtod and double as in C94.")
c("C112", "partial", ["Verif.Main.threads_per_cpu_partial", "Verif.Main.one_thread_on_failure"],
  "threads_per_cpu_partial: for masks of at most 1024 CPUs. Otherwise false: one_thread_on_failure, as sched_getaffinity fails with the fixed cpu_set_t. Linux.")
c("C113", "proved", ["Verif.Main.allocs_exact", "Verif.Main.quiet_exact", "Verif.Main.never_null"],
  "All interleavings of threads; assumed is the contract of malloc, realloc and free (a new block is none of those in use) and that callers free only what is in use. The server gives xmalloc to the engine, so the engine's own handling of failed allocations (C14) is never used for that reason by the server.")
c("C114", "partial", [X+"restart_all_served_partial", X+"Example.restart_reuses_token", "Verif.Save.deadline_at_load_time_never_expires"],
  "Proved for all conversations before and after, except when the wall-clock deadline of an item is the very nanosecond at which its block is loaded (C28, witness deadline_at_load_time_never_expires), and up to the tokens of the items, which are new (C115). The save is made while the clients are idle; sizes fit the file format. Assumptions otherwise as in C103 and C110.")
c("C115", "partial", [X+"restart_all_served_partial", X+"Example.restart_reuses_token"],
  "False of the code: the tokens are written to the file and read from it, but storeop does not use the token it is given, and counts from 2 in the new server, so a token of before the restart is given again to a later value (witness restart_reuses_token: a count that was acknowledged is lost). Proved (restart_all_served_partial): no update is lost between a gets and a cas that are both before the restart (C107), or both after it.")
c("C116", "proved", [X+"all_answered"],
  "All commands of C110 and all interleavings at the locks of the shards, from any state of the cache. Assumed: the process has not given up for lack of memory, no distance counter has wrapped (C01). LOAD, SAVE, FLUSH and SWEEP, which go over all shards, are not included (see C20).")
c("C117", "proved", [X+"all_end", X+"all_finish"],
  "All commands of C110. A failed attempt to lock is not a step: assumed is that the scheduler of the system lets a thread that can go on do so at last.")
c("C118", "partial", ["Verif.Hash.known_keys_lose_an_entry", "Verif.Hash.same_hash", "Verif.Hash.eight_bytes_differ_partial"],
  "False of the code: known_keys_lose_an_entry gives 256 keys of 128 bytes that have the same hash with every seed, so that every server, whatever its seed, says that it stored them all and loses the last. same_hash: there are 2^n such keys of 16n bytes. Proved instead (eight_bytes_differ_partial): different keys of 8 bytes never have the same 64-bit hash (they can still agree in the 24 bits kept in a bucket).")
c("C119", "proved", ["Verif.Save.block_exact", "Verif.Save.file_exact"],
  "For any decompressor (C30 and C88 have LZ4). The file does not change while it is read. What the time to live in an entry means is in C28. When a block is refused in the middle, the entries before that have been stored (finding of C30).")
c("C120", "partial", ["Verif.Glob.slow_pattern", "Verif.Glob.never_ends", "Verif.Glob.time_bounded_partial"],
  "False of the code: with the pattern *a*a...*ab of k stars and a key of n letters a the loop makes at least (n choose k) rounds (slow_pattern), for 255 and 254 bytes more than 2^245 (never_ends). Proved (time_bounded_partial): at most (|pattern|+|key|+1)^(stars+1) rounds.")
c("C121", "partial", ["Verif.Cmd.scan_skips_while_growing", "Verif.Cmd.scan_complete_partial"],
  "False of the code: scan_skips_while_growing, on the level of commands. Proved (scan_complete_partial) if nothing but expiry happens between the calls.")
c("C122", "partial", ["Verif.Mc.memcache_never_in", "Verif.McWire.mc_served_partial"],
  "False of the code: memcache_never_in shows for all bytes that no request gets access. mc_served_partial is about servers without a password (C100).")
c("C123", "proved", [X+"live_served", X+"no_lost_update_live", X+"one_winner_live"],
  "All interleavings of any number of clients of all four protocols and tasks (assumptions as in C110 and C104). The statement about tokens assumes that no item of the first state has a token beyond the counter of its shard, as is so of a new cache.")
c("C124", "partial", [X+"live_restart_partial", "Verif.Many.Example.save_not_snapshot", X+"Example.live_restart_case", "Verif.Save.deadline_at_load_time_never_expires"],
  "Proved: each shard is restored as it was at one moment, that of its save, and the later clients of all protocols are served from there, with the same values, flags and deadlines on the wall clock. False of the code for the store as a whole (witness save_not_snapshot); live_restart_case: a client is told 42, and after the restart it reads 41. As in C114, no deadline is the very nanosecond at which its block is loaded, and tokens are new ones (C115).")
c("C125", "proved", [X+"live_answered", X+"live_end", X+"live_finish"],
  "All interleavings of any number of clients of all four protocols and tasks (assumptions as in C123; a failed attempt to lock is not a step, so fairness between threads that wait for one lock is not claimed). live_finish: from any point an end is reached; live_end: no execution is endless.")
c("C126", "partial", ["Verif.Cache.overwrite_without_table_memory_partial", "Verif.Cache.overwrite_refused"],
  "Proved while the shard is below its growth limit (assuming memory for the entry, C14, and the proviso of C01). False at the limit (48 of 64 buckets): every store is refused there, overwrite_refused for all states, with the concrete case of 48 keys.")
c("C127", "partial", ["Verif.Conc.Batches.given_back_partial", "Verif.Conc.Batches.end_frees_partial", "Verif.Conc.Batches.nested_never_given_back"],
  "Proved if no batch is begun again before its end, which is so without usethreadbatch. False with usethreadbatch if a thread begins a second batch before the end of the first: the header calls it non-reentrant, but nothing checks it; the shard stays locked for ever.")
c("C128", "partial", ["Verif.Main.short_options", "Verif.Main.m_option_partial", "Verif.Main.later_maxmemory_ignored"], "All command lines. The part about a later --maxmemory is false (later_maxmemory_ignored); m_option_partial proves for all public options after -m that they have no effect on the limit.")
with open(os.path.join(os.path.dirname(os.path.abspath(__file__)), "..", "MANIFEST.json"), "w") as f:
    json.dump({"claims": sorted(C, key=lambda x: x["property"])}, f, indent=1)
    f.write("\n")
