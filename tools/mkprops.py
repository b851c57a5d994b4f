#!/usr/bin/env python3
# Regenerates /verif/properties.jsonl from the table below (one JSON object per line).
import json, os
P = []
def p(id, title, statement, quantifier, why, anchors):
    P.append(dict(id=id, title=title, statement=statement, quantifier=quantifier,
                  why_tests_cant=why, anchors=anchors))

# ---------------------------------------------------------------- cache engine
p("C01", "The cache is a map: every operation history behaves like a dictionary with expiry",
  "For every history of store, load, delete, sweep, iterate and clear calls with a non-decreasing clock, each call returns the status and the value, flags, expiry and CAS token that a plain dictionary (key -> last stored live entry) would return. Nothing is lost, resurrected, mixed up between keys or reported twice, whatever the hash function, the seed, the number of shards, the load factor and the shrink setting. (Scope: no low-memory eviction and no probe-distance overflow; those are C09 and C10.)",
  "all finite operation histories, all keys/values/options/callback decisions, all hash functions and shard counts",
  "collisions, table growth, shrinking and backward-shift deletion interact in unboundedly many orders; a test samples a few histories and usually one seed",
  ["src/pogocache.c: storeop, loadop, deleteop, sweepop, iterop, clearop, map_insert, map_get_bucket, map_delete, delbkt, resize, tryshrink, shard_index"])
p("C02", "Key compression never confuses two keys",
  "Compressing a key into the packed 6-bit form and unpacking it returns the original key bytes for every key the packer accepts, the packed key never exceeds the 128 byte scratch buffer, and two keys are treated as equal by the table exactly when their original bytes are equal, including when one is packed and the other is not.",
  "all byte strings of every length, all pairs of keys, packing enabled or disabled",
  "the key space is infinite; the last-character and length-modulo-4 corner cases are invisible unless the right length and character are picked",
  ["src/pogocache.c: sixpack, unsixpack, tosix, fromsix, entry_compare, bucket_eq, entry_key"])
p("C03", "Packed entries read back exactly what was stored",
  "Reading key, value, expiry, flags and CAS token back from a stored entry returns exactly the stored ones for every combination of optional fields and for every size class, and the recorded memory size is the size that was allocated; a non-positive expiry is stored as 'no expiry'.",
  "all keys, values, expiries, flags, CAS tokens, usecas/nosixpack settings with total size below 2^64",
  "the layout has 2x2x2x2 optional field combinations times four size-class boundaries (255, 65535, 2^32) that cannot be reached in tests",
  ["src/pogocache.c: entry_new, entry_extract, entry_memsize, entry_expires, entry_cas, entry_rawkey, entry_value, varint_write_u64, varint_read_u64"])
p("C04", "An expired entry is never served and a live entry is never expired early",
  "A load, conditional store or delete at time t never observes an entry whose expiry is at or before t, and an entry with no expiry or an expiry after t is never dropped because of expiry by any operation at time t (load, store, delete, sweep, iterate, cursor scan, auto-evict). (Scope: states in which no probe distance has wrapped; whether that can happen is C10.)",
  "all states, all times, all operations",
  "needs every lazy-deletion path at every clock value",
  ["src/pogocache.c: entry_alive_exp, loadop, deleteop, storeop, sweepop, iterop, entryiter, auto_evict_entry"])
p("C05", "Conditional stores (NX, XX, CAS, cancel) take effect exactly when their condition holds",
  "A store with NX changes nothing when a live entry exists, with XX or CAS changes nothing when none exists, with CAS stores only if the supplied token equals the entry's current token, and a callback veto leaves the old entry (value, expiry, flags, token, access time) untouched; the status returned says which case happened.",
  "all states, keys, option combinations (also contradictory ones), callback decisions",
  "the insert-then-put-back implementation temporarily changes the table; only a proof covers all combinations and table shapes",
  ["src/pogocache.c: storeop (put_back), map_insert, map_delete"])
p("C06", "CAS tokens prevent lost updates",
  "Within one run of the process, two different versions of the same key never carry the same CAS token, so a CAS store succeeds only if no other write to that key happened since the token was read. (Scope: states in which no probe distance has wrapped; whether that can happen is C10.)",
  "all histories between the read of the token and the CAS store, any number of intervening writes, deletes and re-creations",
  "the ABA case needs delete/re-create histories of arbitrary length",
  ["src/pogocache.c: storeop, loadop (update), shard.cas, entry_cas"])
p("C07", "The put-back and cancel paths cannot fail",
  "When a conditional store is refused or a delete is vetoed, putting the old entry back never needs memory, never displaces another key, and never trips an assertion: the operation always completes and restores exactly the previous contents. (Scope: states in which no probe distance has wrapped; whether that can happen is C10.)",
  "all reachable table states including those exactly at the growth threshold, any allocator behaviour",
  "depends on the occupancy being exactly at the threshold and on allocation failing at that moment",
  ["src/pogocache.c: storeop put_back, deleteop cancel path, map_insert, resize"])
p("C08", "Probing always terminates and the load stays under the configured factor",
  "In every reachable state there is at least one free bucket, the entry count never exceeds the growth threshold, every search/insert/delete loop terminates, and shrinking never shrinks below the number of stored entries or the initial size.",
  "all histories, all load factors the options allow",
  "an infinite probe loop needs an exactly full table; tests do not reach it",
  ["src/pogocache.c: map_insert, map_get_bucket, map_delete, delbkt, resize, tryshrink, opts_to_ctx"])
p("C09", "Low-memory eviction removes at most one other entry and never the one just stored",
  "A store under low memory removes at most one other entry; it never removes the key being stored nor a live entry when the first candidate found is expired; the victim is reported to the eviction callback with the right reason; without low memory (or when the store replaces an entry) nothing is evicted. (Scope: states in which no probe distance has wrapped; whether that can happen is C10.)",
  "all states, keys, hashes, access times",
  "victim choice depends on bucket order and hash collisions",
  ["src/pogocache.c: auto_evict_entry, evict_entry, storeop"])
p("C10", "No set of keys can make the table lose an entry",
  "A successful store is followed by a successful load of the same key, whatever the stored keys are, including keys chosen by an adversary to collide.",
  "all sets of keys, all seeds",
  "needs 256 keys with equal 24-bit hashes inside one shard; random tests never produce that",
  ["src/pogocache.c: struct bucket.dib (uint8_t), map_insert, set_dib, get_dib"])
p("C11", "Iteration reports every live entry exactly once",
  "A full iteration calls the callback exactly once for each entry that is live at the iteration time and not removed during it, and never for an expired one, also when the callback deletes entries while iterating.",
  "all table states, all callback behaviours (continue, delete, stop)",
  "double visits only occur when a probe cluster wraps around the end of the array and a deletion happens in it",
  ["src/pogocache.c: iterop, delbkt, pogocache_iter", "src/cmds.c: cmdKEYS"])
p("C12", "Sweep removes all expired entries, only them, and reports true counts",
  "After a sweep at time t no entry expired at t remains and all entries live at t remain unchanged; the swept count is the number of removed entries and the kept count the number of remaining entries.",
  "all table states and times",
  "same wrap-around cases as C11",
  ["src/pogocache.c: sweepop, pogocache_sweep"])
p("C13", "Counters tell the truth",
  "The reported entry count equals the number of distinct stored keys at all times; the entries-only memory size equals the sum of the memory sizes of the stored entries; the lifetime total counts exactly the entries ever inserted.",
  "all histories",
  "drift shows only after particular mixes of expiry, cancelled deletes and updates",
  ["src/pogocache.c: map.count, map.entsize, map.total, pogocache_count, pogocache_size, pogocache_total"])
p("C14", "A failed allocation never corrupts or loses data",
  "If memory allocation fails at any point during store, update, shrink or clear, the call reports it (or ignores it for shrink), every previously stored entry is still there with its old value, and no invalid memory is touched.",
  "all states and every allocation-failure point",
  "requires failure injection at every allocation in every state",
  ["src/pogocache.c: entry_new, map_init, resize, storeop nomem, loadop NOMEM, tryshrink, clearop"])
p("C15", "Change notifications are complete and consistent",
  "Replaying the notifications (inserted, replaced, deleted, expired, cleared, evicted) of any history on an initially empty dictionary reproduces exactly the contents of the cache. (Scope: states in which no probe distance has wrapped; whether that can happen is C10.)",
  "all histories with all operations",
  "a replica fed by notifications diverges only after rare combinations such as refused conditional stores over expired entries",
  ["src/pogocache.c: notify, storeop, loadop, deleteop, sweepop, iterop, clearop, evict_entry"])
p("C16", "Shards are independent and a key always lives in the same shard",
  "Every key is always routed to the same in-range shard, an operation on a key touches only that shard, and the whole cache behaves as one dictionary over all keys. (Scope: states in which no probe distance has wrapped; whether that can happen is C10.)",
  "all keys, hash values, shard counts, histories",
  "routing errors for particular hash values",
  ["src/pogocache.c: shard_index, shard_get, acquire_for_key, pogocache_iter, pogocache_count"])
p("C17", "A full cursor scan returns every entry exactly once",
  "Following the cursor from 0 until it returns 0 on an unchanging cache yields every live entry exactly once; entries added or removed elsewhere during the scan do not cause an untouched entry to be skipped.",
  "all cache contents and all interleaved modifications",
  "depends on bucket positions and on growth between two cursor calls",
  ["src/pogocache.c: pogocache_entry_iter, entryiter", "src/cmds.c: cmdSCAN"])
p("C18", "A cursor supplied by a client can never address memory outside the cache",
  "For every 64-bit cursor value the cursor scan only touches existing shards.",
  "all 2^64 cursor values, all shard counts",
  "one bad value in 2^64",
  ["src/pogocache.c: pogocache_entry_iter", "src/cmds.c: cmdSCAN"])
p("C19", "Operations from concurrent threads are atomic and serialisable per shard; batches are atomic",
  "Any concurrent execution of operations and batches by any number of threads gives every thread the results, and leaves the cache in the state, of some sequential execution; no other thread's operation on a locked shard runs between two operations of a batch.",
  "all interleavings, any number of threads, shards and operations",
  "schedules are unbounded and rare ones do not show in stress tests",
  ["src/pogocache.c: lock, acquire_for_key, acquire_for_scan, pogocache_begin, pogocache_end, ACQUIRE_FOR_KEY_AND_EXECUTE"])
p("C20", "Batches never deadlock",
  "Any set of threads running batches over keys always makes progress.",
  "all interleavings and all key orders inside batches",
  "needs two batches locking two shards in opposite order at the right moment",
  ["src/pogocache.c: lock, pogocache_begin, pogocache_end"])
p("C21", "Entries are freed exactly once and never while someone holds a reference",
  "An entry handed out by the cursor scan (or retained in a notification) stays readable until it is released, whatever happens to the key meanwhile, and its memory is released exactly once after the last holder lets go.",
  "all interleavings of retain/release with store/delete/clear",
  "use-after-free and double free depend on schedule",
  ["src/pogocache.c: entry_free, entry_clone, pogocache_entry_retain, pogocache_entry_release, entryiter"])
# ---------------------------------------------------------------- encoders
p("C22", "Variable-length integers round-trip and never read past their own bytes",
  "Writing any 64-bit number as a varint yields 1 to 10 bytes; reading it back from a buffer that starts with these bytes (followed by anything) returns the number and exactly that length; a truncated prefix is reported as incomplete and never as another number; signed (zigzag) numbers round-trip too.",
  "all 2^64 values, all following bytes, all truncations",
  "2^64 values and all suffixes",
  ["src/util.c: varint_write_u64, varint_read_u64, varint_write_i64, varint_read_i64", "src/pogocache.c: varint_write_u64, varint_read_u64"])
p("C23", "Fixed-width integers in files and messages round-trip",
  "Little-endian 32/64-bit numbers in the save file, big-endian 16/32-bit numbers of the Postgres protocol and the 48-bit packed pointers / 24-bit hashes in the table read back as the written value.",
  "all values of the width",
  "too many values to enumerate for 64 bit",
  ["src/util.c: write_u64, read_u64, write_u32, read_u32", "src/postgres.c: write_i32, read_i32, write_i16, read_i16", "src/pogocache.c: load_ptr, store_ptr, write_hash, read_hash"])
p("C24", "Saturating time arithmetic never wraps",
  "Adding or multiplying two 64-bit times gives the exact result if it fits and the nearest bound otherwise, so a huge TTL never turns into a time in the past.",
  "all pairs of 64-bit integers",
  "2^128 pairs",
  ["src/pogocache.c: int64_add_clamp", "src/util.c: int64_add_clamp, int64_mul_clamp"])
p("C25", "Decimal numbers print and parse back exactly",
  "Printing any signed or unsigned 64-bit integer and parsing the text returns the integer, and the text fits the caller's buffer; the signed parser accepts a text exactly when it denotes (optional blanks, sign, digits) a number in the signed 64-bit range, and returns that number.",
  "all 64-bit integers, all texts",
  "boundary and length cases over 2^64 values",
  ["src/util.c: u64toa, i64toa, parse_i64, parse_u64"])
p("C26", "Glob patterns match exactly what the pattern language says",
  "A KEYS/SCAN pattern matches a key if and only if the standard meaning of *, ? and backslash escapes says so, and matching always terminates.",
  "all patterns and all keys",
  "infinite pattern/key space and backtracking order",
  ["src/util.c: match", "src/cmds.c: cmdKEYS, cmdSCAN"])
p("C27", "The checksum detects every single corrupted byte",
  "Any change confined to one byte (or up to four adjacent bytes) of a saved block changes its checksum, so it is detected on load.",
  "all block contents, all positions, all replacement bytes",
  "all contents of all lengths",
  ["src/util.c: crc32", "src/save.c: load_block"])
# ---------------------------------------------------------------- persistence
p("C28", "Save followed by load restores the cache",
  "Loading a file written by save into an empty cache restores exactly the entries that are live at load time, with the same key, value, flags and remaining lifetime measured on the wall clock; entries that expired in between are not restored.",
  "all cache contents, all save/load times, all thread counts and shard counts on both sides",
  "combination of contents, clock offsets and block boundaries",
  ["src/save.c: save, save_entry, flush, load, load_block"])
p("C29", "Save is atomic: a crash never leaves a damaged data file",
  "If the process is killed at any moment during a save, the data file afterwards is either the complete old file or the complete new one.",
  "every crash point, every sequence of saves",
  "crash points between arbitrary system calls",
  ["src/save.c: save, thsave, flush, cleanwork"])
p("C30", "A damaged or truncated data file is rejected, never partially believed",
  "Loading a file that is a strict prefix of a valid file, or a valid file with a corrupted block, reports an error and leaves the cache without wrong entries.",
  "all files, all truncation points, all corruptions of one block",
  "every truncation offset of every file",
  ["src/save.c: load, load_block, thload"])
p("C31", "A shutdown before the data was loaded never overwrites the data file",
  "While the initial load has not completed, and if it fails, no save is attempted and the data file is left untouched, whatever signals arrive; once it has completed, a shutdown by one signal attempts exactly one save before the process exits.",
  "all arrival times of signals, load success or failure",
  "timing of signals against start-up phases",
  ["src/main.c: sigterm, sigtermticker, listening"])
# ---------------------------------------------------------------- RESP
p("C32", "RESP requests are parsed exactly, binary safe and pipelined",
  "For every list of arguments within the limits, parsing its RESP encoding followed by any bytes returns exactly these arguments and consumes exactly the encoded bytes.",
  "all argument lists, all byte values, all following bytes",
  "arguments can contain CR, LF, '$', '*' and NUL; all lengths",
  ["src/resp.c: parse_resp, read_resp_num, read_num", "src/conn.c: evdata"])
p("C33", "RESP parsing does not depend on how TCP splits the stream",
  "Feeding the encoding of a sequence of commands in any chunks executes the same commands in the same order as feeding it at once, and an incomplete command is never executed or rejected.",
  "all command sequences and all chunkings",
  "2^(n-1) chunkings of each stream",
  ["src/resp.c: parse_resp", "src/parse.c: parse_command, sniff_proto", "src/conn.c: evdata"])
p("C34", "RESP replies are well-formed and decode to the value sent",
  "Every bulk string, integer, null and array reply decodes with a standard RESP decoder to exactly the value the server wanted to send, for every byte content and whatever follows.",
  "all values and all sequences of replies",
  "all byte contents",
  ["src/conn.c: conn_write_bulk, conn_write_array, conn_write_int, conn_write_uint, conn_write_null, conn_write_string"])
p("C35", "An error line cannot be used to inject protocol data",
  "Error and status lines contain no CR or LF besides the terminator, whatever the client sent.",
  "all error texts including echoed client bytes",
  "needs hostile bytes at particular positions",
  ["src/conn.c: writeln, conn_write_error", "src/cmds.c: evcommand"])
p("C36", "Inline (telnet) commands split at blanks and round-trip",
  "A line consisting of non-empty words without blanks, quotes or CR/LF parses into exactly these words, consumes exactly the line, and an incomplete line is never executed.",
  "all word lists, all following bytes, all prefixes",
  "all words and splits",
  ["src/resp.c: parse_resp_telnet"])
# ---------------------------------------------------------------- memcache / http / postgres
p("C37", "Memcache storage requests are binary safe",
  "A well-formed memcache set/add/replace/append/prepend/cas request stores exactly the announced number of data bytes whatever these bytes are, under exactly the given key, flags and expiry, and consumes exactly the request.",
  "all keys, flags, expiries, values and following bytes",
  "data blocks may contain CR LF and command text",
  ["src/memcache.c: parse_memcache, parse_memcache_telnet"])
p("C38", "Malformed memcache requests never read outside the request",
  "For every byte sequence sent on a memcache connection the parser only looks at arguments that exist.",
  "all byte sequences",
  "short argument lists on each command",
  ["src/memcache.c: parse_memcache", "src/args.c"])
p("C39", "Memcache noreply suppresses the reply",
  "A memcache storage command with noreply produces no reply bytes.",
  "all commands that accept noreply",
  "visible only by protocol desynchronisation on pipelines",
  ["src/memcache.c: parse_memcache (noreply)", "src/conn.c: evdata"])
p("C40", "Without the password nothing can be read or changed",
  "When a password is configured, a connection on which no correct password has been presented never executes a command other than authentication, in any protocol, for any sequence of requests; every refused command leaves the cache unchanged.",
  "all protocols, all request sequences, all passwords",
  "sequences of requests mixing protocols and authentication attempts",
  ["src/cmds.c: evcommand, cmdAUTH", "src/http.c: parse_http auth", "src/postgres.c: parsep, pg_respond", "src/conn.c: conn_auth, conn_setauth"])
p("C41", "Prepared-statement parameters are inserted verbatim",
  "Executing a prepared statement substitutes each $n by exactly the bytes bound to it; parameter contents can never change the command or the number of arguments.",
  "all queries, all parameter contents (quotes, NUL-free or binary, spaces, dollar signs)",
  "injection strings are unbounded",
  ["src/postgres.c: parseP, parseB, parseE, parse_query_args"])
p("C42", "A quoted SQL string denotes its contents",
  "Quoting any text as an SQL string literal (doubling quotes) and sending it in a query delivers exactly that text as the argument.",
  "all texts",
  "only texts containing quotes are affected",
  ["src/postgres.c: parse_query_args, arg_append_unescape_simplestr"])
p("C43", "Unicode escapes decode to the right character",
  "In E'' strings, \\uXXXX escapes (and surrogate pairs) produce the UTF-8 encoding of the denoted code point.",
  "all code points",
  "1.1 million code points; errors only in some planes",
  ["src/postgres.c: decode_codepoint, encode_codepoint, is_surrogate, for_each_utf8"])
p("C44", "HTTP requests map to the documented cache operation",
  "PUT/GET/DELETE of a path executes set/get/delete of exactly the key in the path with the body as value and the documented options, and only if authorised.",
  "all keys, bodies, query options, header orders",
  "combinatorial header/query space",
  ["src/http.c: parse_http"])
# ---------------------------------------------------------------- commands
p("C45", "INCR/DECR is exact integer arithmetic or an error",
  "Incrementing a key by any amount stores exactly old+delta (missing key counts as 0) when the result is in range, otherwise reports an error and leaves the entry unchanged; expiry and flags are kept; no concurrent change can slip in between read and write.",
  "all stored values, all deltas, signed and unsigned forms",
  "boundary arithmetic over 2^128 pairs and schedules",
  ["src/cmds.c: execINCRDECR"])
p("C46", "APPEND/PREPEND concatenate",
  "Appending or prepending to a key yields exactly the concatenation, keeps expiry and flags, reports the new length, and refuses results over the size limit leaving the entry unchanged.",
  "all old values, all added bytes",
  "size-limit boundary and byte contents",
  ["src/cmds.c: execAPPENDPREPEND"])
p("C47", "EXPIRE and SET expiry options set the requested lifetime",
  "EXPIRE k s (s > 0) makes the key live until exactly now+s seconds; s <= 0 removes it; EX/PX/EXAT/PXAT give the requested deadline; TTL/PTTL report the remaining time rounded as documented.",
  "all times, all option values including extreme ones",
  "extreme values and clock relations",
  ["src/cmds.c: cmdSET, cmdEXPIRE, cmdTTL, expiry_seconds_time", "src/sys.c: sys_now, sys_unixnow"])
p("C48", "Every documented command name is found, in any letter case, and nothing else is",
  "Looking up a command name returns the command whose name equals it ignoring ASCII case, or nothing if there is none, and the lookup never leaves the command table.",
  "all byte strings as command names",
  "all possible names; probe chains near the table end",
  ["src/cmds.c: build_commands_table, get_cmd", "src/util.c: fnv1a_case, argeq_bytes"])
p("C49", "Multi-key commands are the sequence of their single-key commands",
  "MGET returns the values in argument order with null for missing keys; DEL, EXISTS and TOUCH return the number of keys that were deleted / exist; MGETS adds flags and token of each.",
  "all key lists including repeated keys",
  "arbitrary lists, repeated keys",
  ["src/cmds.c: cmdMGET, cmdDEL, cmdEXISTS, cmdTOUCH"])
# ---------------------------------------------------------------- server
p("C50", "Never more connections than configured",
  "At no time are more than maxconns client connections admitted, whatever the interleaving of accepts, rejects and closes on the worker threads.",
  "all interleavings of any number of threads",
  "race between increment, check and decrement",
  ["src/net.c: qaccept, qclose, nconns"])
p("C51", "Each connection's bytes are delivered to that connection only",
  "In one event-loop round the handler of each connection receives exactly the bytes read from its own socket, and each reply is written in full to its own socket, in whatever order the kernel completes the requests.",
  "all completion orders, all read/write sizes",
  "completion order is up to the kernel",
  ["src/net.c: qread, qwrite, handle_read, flush_conn"])
p("C52", "Command line switches do what they say",
  "--evict no means no live entry is ever removed because of memory pressure; --autosweep and --sixpack accept yes/no and are honoured; out-of-range numeric options are clamped to the documented range.",
  "all option combinations",
  "combinations of independent options",
  ["src/main.c: main option parsing, pogocache_opts"])
p("C53", "Output buffering preserves order and content",
  "The bytes a client receives are the concatenation of everything written for it, in order, whatever the sizes of writes, buffer growth and partial socket writes.",
  "all write sequences and all partial-write behaviours",
  "all partitions of the output",
  ["src/net.c: net_conn_out_ensure, net_conn_out_write, flush_conn", "src/buf.c"])
p("C54", "Monitor output is safe and secrets-free",
  "Every monitored command is rendered as one line containing only printable characters plus escapes that decode to the original arguments, and authentication commands are never echoed.",
  "all argument contents",
  "all byte values in all positions",
  ["src/monitor.c"])
p("C55", "Unsigned numbers never come from negative text",
  "The unsigned number parser accepts a text exactly when it denotes a number between 0 and 2^64-1, and returns that number; text denoting a negative number is rejected.",
  "all texts",
  "infinitely many texts; only unusual blank/sign combinations go wrong",
  ["src/util.c: parse_u64"])
p("C56", "Inline commands do not depend on how TCP splits the stream",
  "Feeding inline commands, mixed with RESP encoded ones, in any chunks to a new connection executes the same commands in the same order as feeding them at once.",
  "all command lines, all splits of the stream into chunks",
  "2^n possible splits; tests send whole lines",
  ["src/parse.c: sniff_proto, parse_command", "src/resp.c: parse_resp_telnet", "src/conn.c: evdata"])
p("C57", "The RESP parser stays inside the received data",
  "For every byte sequence, parsing it as a RESP command reads only bytes that were received.",
  "all byte sequences",
  "only unusual malformed numbers at the very end of the received data go wrong, and then usually unnoticed",
  ["src/resp.c: read_num, read_resp_num, parse_resp"])
p("C58", "Memcache requests execute the command they name, however they are split into chunks",
  "Every well-formed memcache get, gets, delete, incr, decr, touch, flush_all, version, quit or storage request, pipelined and split into chunks in any way, executes exactly the corresponding command with the given arguments; a line with an unknown command is answered with an error and skipped.",
  "all request sequences, all keys and values, all ways of splitting",
  "number of ways of splitting; keys that look like keywords",
  ["src/memcache.c: parse_memcache, parse_memcache_telnet", "src/conn.c: evdata", "src/parse.c: sniff_proto"])
p("C59", "Refused memcache value data is never executed as commands",
  "When a memcache storage request is refused, its data block is skipped, so that no part of the value is executed as a command.",
  "all refused storage requests, all values",
  "values that contain protocol text are attacks, not test data",
  ["src/memcache.c: parse_memcache"])
p("C60", "SET does exactly what its options say",
  "SET with any list of options, in any order and letter case, stores the value exactly under the conditions the options state (NX, XX, CAS), with the deadline (EX, PX, EXAT, PXAT, KEEPTTL) and flags they state; contradicting options are refused; nothing else changes; with GET the reply is the old value.",
  "all keys, values, option lists, times, interference before the command",
  "combinations and orders of options with arbitrary numbers",
  ["src/cmds.c: cmdSET, execSET, set_entry"])
p("C61", "Argument buffers are freed exactly once",
  "Whatever sequence of queries, prepared statements, bound portals and executions a Postgres client sends, no argument buffer is freed twice or used after it was freed, and every buffer is freed when the connection closes.",
  "all sequences of requests, all numbers of arguments",
  "the fault shows only when a later request happens to reuse a stale slot; without a sanitizer it is silent",
  ["src/args.c: args_append, args_clear, args_free, args_remove_first", "src/buf.c: buf_append, buf_clear", "src/postgres.c: parseQ, parseP, parseB, parseE, pg_precommand"])
p("C62", "A connection is refused only when the limit is reached",
  "A client connection is refused with the connection limit as reason only when maxconns connections are admitted at that moment.",
  "all interleavings of any number of threads",
  "needs several connections to arrive or be refused at the same instant",
  ["src/net.c: qaccept, nconns"])
p("C63", "A connection is treated as TLS exactly if it came in on the TLS port",
  "Whatever connections are made, refused and closed, a connection is handled with TLS if it was accepted on the TLS port and without TLS otherwise.",
  "all sequences of accepts, refusals and closes, all reuses of descriptor numbers",
  "needs a refused TLS connection whose descriptor number is reused by a plain one",
  ["src/net.c: tls_ready_fds, add_tls_fd, del_tls_fd, qaccept"])
p("C64", "The connection table finds every open connection and stays proportional to them",
  "After any sequence of opening and closing connections, looking up a descriptor finds its connection exactly if it is open, and the table's size is bounded by a multiple of the largest number of connections open at one time.",
  "all sequences of opens and closes, all hash functions",
  "memory growth needs millions of connections; misplacement needs particular collisions",
  ["src/net.c: cmap_insert, cmap_get, cmap_delete, cmap_grow"])
p("C65", "A client that does not read its replies does not hold up others",
  "When one client stops reading, the other clients of the same worker thread still receive their replies.",
  "all behaviours of the sockets",
  "needs a full socket buffer at the right moment; then it looks like a slow network",
  ["src/net.c: flush_conn, qwrite"])
p("C66", "The last value given for an option counts",
  "A command line made of documented options in either form, with any values and repetitions, is accepted by the argument parser, and each option has the last value given for it, or its default.",
  "all command lines made of documented options",
  "all combinations, orders and values (also values that look like options)",
  ["src/main.c: BEGIN_FLAGS, AFLAG, BFLAG, TFLAG, main"])
p("C67", "A memcache get reply contains exactly the stored items",
  "Reading the bytes of the reply to get or gets with one or more keys the way a memcache client does (VALUE line, announced number of data bytes, END) gives exactly the stored items of the requested keys, in order, with their flags, values and (gets) tokens, whatever bytes the values contain.",
  "all key lists, all stored values including ones that look like protocol lines, any interference between the keys",
  "values that contain protocol text, all lengths, concurrent changes between keys",
  ["src/cmds.c: cmdMGET, get_entry", "src/memcache.c: parse_memcache"])
p("C68", "Memcache touch sets the lifetime the protocol describes",
  "touch key exptime keeps value and flags and makes the item live for exptime seconds; 0 means never expire, and numbers above 30 days are Unix times.",
  "all times, all expiry numbers, all stored items",
  "extreme numbers, relation of the clocks",
  ["src/memcache.c: parse_memcache", "src/cmds.c: cmdEXPIRE"])
p("C69", "No request crashes a command",
  "Whatever arguments a client sends, on any protocol, in any state of the cache and whatever other connections do, no command overflows, divides by zero, fails an assertion or leaves the cache's memory.",
  "all requests, all states, all interference, all clock values",
  "extreme numbers in unusual options; a crash needs exactly the wrong value",
  ["src/cmds.c: evcommand and all cmd* functions", "src/pogocache.c: pogocache_entry_iter"])
p("C70", "Every RESP request gets exactly one reply",
  "Every request on a RESP connection is answered by exactly one complete reply that a client can read, wherever it lands in the output, so that the n-th reply belongs to the n-th request.",
  "all requests, all states, all interference, all pending output",
  "every branch of every command, and bytes of requests that are repeated in replies",
  ["src/cmds.c: evcommand and all cmd* functions", "src/conn.c: conn_write_*"])
p("C71", "Repeated SCAN returns every key",
  "Following the cursors of SCAN with a pattern from 0 until 0 comes back ends after a bounded number of commands, returns only live matching keys, and returns every matching key that is live all the time, each once.",
  "all cache contents, patterns, counts and times",
  "depends on bucket layout and on what expires between two commands",
  ["src/cmds.c: cmdSCAN, scan_work", "src/pogocache.c: pogocache_entry_iter, entryiter"])
p("C72", "FLUSHALL removes every key, when it is asked to",
  "FLUSHALL with any options removes every key that nobody writes meanwhile: before OK is sent, or, with ASYNC or DELAY, after the delay asked for and not earlier; no key is missed however many threads share the work.",
  "all contents, all numbers of shards and threads, all schedules, all options and orders",
  "division of the shards among threads, order of options, concurrent writers",
  ["src/cmds.c: cmdFLUSHALL, flush_work, flushfast, thflush, thflush0", "src/pogocache.c: pogocache_clear"])
p("C73", "KEYS lists exactly the live matching keys",
  "KEYS pattern lists every matching key that is live during the whole command, no key that is not live during the whole command, only matching keys, and each key once; it changes nothing.",
  "all contents, patterns and interference between the shards",
  "concurrent changes between shards; patterns",
  ["src/cmds.c: cmdKEYS, keys_entry, bgkeys_work, bgkeys_done", "src/pogocache.c: pogocache_iter"])
p("C74", "SWEEP changes nothing visible",
  "SWEEP in each documented form answers OK and changes nothing that any client can see, whatever others do meanwhile.",
  "all contents, times, options, schedules and interference",
  "absence of an effect in all states",
  ["src/cmds.c: cmdSWEEP, sweep_work, sweepfast", "src/pogocache.c: pogocache_sweep"])
p("C75", "Requests of one connection are executed one after the other, also with background work",
  "Whatever commands are done in the background and however long they take, the requests of one connection are executed in the order received, none starting before the previous one is finished, and every request received completely is executed.",
  "all request streams, chunkings, durations of background work and ends of the connection",
  "needs pipelining behind a slow command and a client that closes its side at the right moment",
  ["src/net.c: qattach, handle_read, qprocess, qthread", "src/conn.c: evdata"])
p("C76", "HTTP requests get one response that says what happened",
  "Every HTTP request gets exactly one response with the announced number of body bytes; GET answers 200 with exactly the stored bytes or 404; PUT answers 200 exactly if the body was stored as the parameters ask, 404 if they forbid it; DELETE answers 200 exactly if the key was there; without the password 401 and nothing changes.",
  "all byte strings, keys, values, parameters, header fields, states and interference",
  "all combinations of parameters and stored items; bodies that look like protocol text",
  ["src/conn.c: conn_write_http, write_error, evdata", "src/http.c: parse_http", "src/cmds.c: execSET, cmdSET, cmdGET, get_entry, cmdDEL"])
p("C77", "Memcache requests get exactly one reply",
  "Every memcache request (but quit) is answered by exactly one reply of the protocol, with the announced number of data bytes, ending where a client that reads it expects its end; so the n-th reply on the connection belongs to the n-th request.",
  "all byte strings, states and interference",
  "all combinations of requests and contents; stray bytes show up only in a later reply",
  ["src/memcache.c: parse_memcache", "src/conn.c: write_error, conn_write_raw, evdata", "src/cmds.c: execSET, get_entry, cmdMGET, cmdDEL, cmdEXPIRE, execINCRDECR, cmdAPPEND, cmdFLUSHALL, stats_end, cmdVERSION, cmdAUTH"])
p("C78", "Postgres queries get exactly one answer, which says what happened",
  "Every query on a logged-in Postgres connection is answered by exactly one error, empty answer, tag or table (each row with as many values as columns, all lengths right) followed by exactly one ReadyForQuery, so the n-th answer belongs to the n-th query; GET shows exactly the stored value or no row, DEL and SET say what they did.",
  "all query texts, states, interference, sequences of queries",
  "all combinations of commands, contents and values; a stray message shows up only in a later answer",
  ["src/postgres.c: pg_respond, pg_precommand, pg_write_*, parse_postgres", "src/conn.c: evdata, write_error", "src/cmds.c: the Postgres branches of all commands"])
p("C79", "Prepared statements get exactly one answer",
  "A client that sends Parse, Bind, Execute and Sync in one go gets exactly one reply to each of them, and exactly one ReadyForQuery.",
  "all statements, values, names, states and interference",
  "needs all combinations of commands and values; errors in the middle of a sequence",
  ["src/postgres.c: parseP, parseB, parseE, parseS, pg_respond, pg_write_ready"])
p("C80", "After a failed step of a prepared statement nothing is executed",
  "When Parse or Bind fails, the messages behind it are skipped up to Sync, as the protocol says: no command is executed that the client did not ask for.",
  "all sequences of messages sent in one go",
  "needs pipelined messages behind a failing one",
  ["src/postgres.c: parse_postgres, parseP, parseB, parseE, pg_respond"])
p("C81", "Postgres clients log in once, with the password if there is one",
  "A client that sends a startup message with any parameters (and encoding UTF8 or none) is logged in, after giving the password if there is one; a wrong password or another encoding is answered by an error and changes nothing; it is never asked for the password again.",
  "all parameter lists, passwords, states",
  "all parameter lists; all later messages of the session",
  ["src/postgres.c: parse_magic_proto3, parse_magic_ssl, parsep, write_auth_ok, pg_respond, parseD"])
p("C82", "The event loop neither loses nor misuses a connection",
  "Whatever happens on the sockets, whatever the handlers do and whenever background work ends: no connection is used before it is opened or after it is closed, every connection is closed at most once, its socket is closed with it and no open socket is forgotten; when the thread waits for events, all data read has been handled in order, all replies have been written in order (also those of connections closed since), every connection is waited for or busy in the background, and one to which writing failed is closed.",
  "all sequences of events, handler actions, failures of reads and writes, and interleavings with accepting and background threads",
  "needs particular interleavings of events on several sockets, reuse of descriptor numbers, and failures of system calls",
  ["src/net.c: qthread, qaccept, qattach, qread, handle_read, qprocess, qwrite, flush_conn, qclose, net_conn_bgwork, bgwork, cmap_*"])
p("C83", "The counters of STATS add up",
  "The numbers of gets, sets, hits and misses shown by STATS are the numbers counted by all commands executed so far.",
  "all executions of any number of worker threads and connections",
  "needs all interleavings of threads and rounds; a count lost when a connection closes or goes to the background shows up rarely",
  ["src/net.c: sumstats, sumstats_global, qprocess, qthread, net_stat_*"])
p("C84", "PING, ECHO, SELECT, DBSIZE, SAVE and DEBUG POPULATE do what they say",
  "PING is answered by PONG, PING and ECHO with a text by exactly that text, SELECT accepts database 0 and refuses all others, DBSIZE is the number of stored keys, SAVE changes nothing and says OK exactly if the file was written, DEBUG POPULATE n prefix len stores exactly the keys prefix:0 ... prefix:n-1 with len bytes each and touches no other key; for RESP and Postgres clients, byte for byte.",
  "all texts, numbers, states of the cache, numbers of threads",
  "all texts including control characters, all ways of splitting the work among threads",
  ["src/cmds.c: cmdPING, cmdECHO, cmdSELECT, cmdDBSIZE, cmdSAVELOAD, cmdDEBUG_populate, populate_entry", "src/pogocache.c: pogocache_count"])
p("C85", "Compression loses nothing",
  "What save compresses with LZ4, load decompresses to the same bytes: the compressor writes a block of the LZ4 format that means its input, not longer than the bound, and the decoder answers exactly what a block of the format means.",
  "all contents of a shard, all earlier contents of the buffers, both versions of the decoder",
  "the copies overlap and overshoot by up to 32 bytes depending on lengths and distances; all inputs of up to 2 GiB",
  ["src/lz4.c: LZ4_compress_default, LZ4_compress_generic_validated, LZ4_count, LZ4_hash4, LZ4_hash5, LZ4_decompress_safe, LZ4_decompress_generic, read_variable_length, LZ4_wildCopy8, LZ4_wildCopy32, LZ4_memcpy_using_offset", "src/save.c: flush, load_block"])
p("C86", "No block of a file makes LZ4 leave its buffers",
  "Whatever the bytes of a block and whatever the length fields say, decompressing ends, reads only the block and the target, writes only the target, and answers at most the length of the target; compressing a shard of any size stays within its buffers.",
  "all blocks, all length fields, all shard sizes",
  "all corrupt and hostile blocks",
  ["src/lz4.c: LZ4_decompress_safe, LZ4_decompress_generic, read_variable_length, LZ4_wildCopy8, LZ4_wildCopy32, LZ4_memcpy_using_offset, LZ4_compress_default, LZ4_compressBound", "src/save.c: flush, load_block"])
p("C87", "Over TLS, what a client sends is handled without waiting for more",
  "The bytes that a TLS client sends are given to the handler in order, each once; when the thread waits for events, all bytes of whole records have been given to it.",
  "all sequences and lengths of records, all interleavings of arrivals and events of any number of connections",
  "depends on how the client cuts its stream into records, and on what is buffered inside OpenSSL",
  ["src/tls.c: tls_accept, tls_read", "src/net.c: qread, handle_read, qaccept"])
p("C88", "A failure on one TLS connection does not affect another",
  "A TLS connection is closed only because its client ended or broke it, because writing to it failed, or because the handler closed it.",
  "all interleavings of records, failures and events of any number of connections of a thread",
  "needs a failure on one connection and then half a record on another one served by the same thread",
  ["src/tls.c: tls_accept, tls_read, tls_write, tls_close", "src/net.c: qread, handle_read, flush_conn, qclose"])
p("C89", "A prepared statement or portal is found under its name",
  "On a Postgres connection, each legal name stands for the statement (portal) made last under it, and for nothing if none was made.",
  "all sequences of names and statements, any hash function",
  "depends on collisions of hashes, on the growth of the table and on the order of insertion; fails only with 65536 names",
  ["src/hashmap.c: hashmap_new_with_allocator, hashmap_set, hashmap_get, resize0", "src/postgres.c: statement_insert, statement_get, portal_insert, portal_get"])
p("C90", "What is kept for statements and portals is freed exactly once",
  "Each statement and portal of a connection is freed exactly once: when it is replaced or when the connection goes away.",
  "all sequences of names and statements, any hash function",
  "a leak or a second free needs particular collisions and orders",
  ["src/hashmap.c: hashmap_set, hashmap_iter", "src/postgres.c: statement_insert, portal_insert, statments_free, portals_free"])
p("C91", "A portal runs the statement to which it was bound",
  "Executing a portal runs the words of the query that was prepared when the portal was bound, with the values bound, whatever messages came in between.",
  "all queries, values, names and messages in between",
  "all sequences of messages between Bind and Execute",
  ["src/postgres.c: parseP, parseB, parseE, portal_get, statement_get"])
p("C92", "The counters of STATS count what happened",
  "Each command adds to the counters shown by STATS what it did: one get per key asked for and a hit or a miss for each, one delete hit per key deleted, one touch and hit or miss per key touched, one set per store, hits and misses of INCR and DECR by whether the key was there, a failed store for lack of memory, an AUTH and its failure; in particular gets are hits plus misses.",
  "all sequences of commands on all protocols, with any changes by other connections in between",
  "every path through every command has to be counted, under every interleaving",
  ["src/cmds.c: execSET, cmdGET, cmdMGET, cmdDEL, cmdTTL, cmdTOUCH, execINCRDECR, cmdAPPEND, cmdAUTH", "src/stats.c"])
p("C93", "Expired entries are removed in time, and only they",
  "Once a second the server looks at a shard; if more than a tenth of its entries are expired, all expired entries of all shards are removed, and in any case no live entry is touched.",
  "all caches, all times, all numbers of shards",
  "depends on the time of the round, on the position of entries in the table and on what is looked at",
  ["src/main.c: autosweepticker", "src/pogocache.c: pogocache_sweep_poll, pogocache_sweep, mix13"])
p("C94", "The memory limit is the one asked for",
  "--maxmemory with a number and a unit, or a percentage, sets the limit to that many bytes; other texts are refused; the low memory mode is on exactly while the memory in use exceeds the limit.",
  "all texts, all sizes of memory, all sequences of measurements",
  "all numbers, units, spaces and upper or lower case letters, with the rounding of double",
  ["src/main.c: calc_memlimit, memticker"])
p("C95", "Over the memory limit the cache does not grow",
  "In low memory mode no command adds to the number of entries: with eviction, each new entry takes the place of another one; with --evict=no, storing is refused with out of memory.",
  "all caches, all commands and arguments",
  "depends on the positions and hashes of the entries in the shard",
  ["src/pogocache.c: storeop, auto_evict_entry", "src/cmds.c: execSET, execINCRDECR, cmdAPPEND"])
p("C96", "A monitor is shown what is executed",
  "From its OK to the end of its session a MONITOR client is shown every command executed by anyone, once, in the order of execution, except those that carry secrets; every PING it sends is answered, however it arrives, and any other request ends the session.",
  "all numbers of monitors, clients and threads, all interleavings, all ways of splitting the client's bytes",
  "depends on how threads interleave and on how TCP splits the stream",
  ["src/cmds.c: monitor_work, cmdMONITOR, evcommand", "src/monitor.c"])
p("C97", "What is stored over one protocol is read over every other",
  "A value stored over RESP, memcache, HTTP or Postgres, with flags and seconds to live, is shown to clients of all four protocols exactly as it was stored (bytes, and on memcache the flags) until the seconds have passed and to none of them afterwards; a key removed over one protocol is gone for all.",
  "all keys, values (any bytes), flags and lifetimes that the two protocols permit, all spellings of the requests, anything done by others that leaves the key alone",
  "sixteen pairs of protocols, and values whose bytes look like the framing of one of them",
  ["src/cmds.c: cmdSET, cmdGET, cmdMGET, cmdDEL, get_entry, execSET", "src/resp.c", "src/memcache.c", "src/http.c", "src/postgres.c"])
p("C98", "A RESP connection is a reference key-value server",
  "Whatever commands a client sends, pipelined, in any spelling and split into packets in any way, the bytes it receives are exactly the replies, in order, of a plain key-value server with expiry that executes the commands received completely, one after the other at their times; an incomplete last command has no effect.",
  "all sequences of PING, ECHO, GET, MGET, EXISTS, TOUCH, TTL, PTTL, SET with its options, SETEX, DEL, EXPIRE, APPEND, PREPEND, INCR, DECR, INCRBY, DECRBY, all keys and values, all previous contents of the cache, all clocks that do not run backwards, all packets",
  "infinitely many conversations, contents, times and ways of splitting the stream; parser, buffers, commands, expiry and hash table have to be right together",
  ["src/conn.c: evdata", "src/resp.c: parse_command_resp", "src/cmds.c: evcommand, cmdSET, cmdGET, cmdMGET, cmdDEL, cmdINCR, cmdAPPEND, cmdTTL, cmdEXPIRE, cmdEXISTS, cmdTOUCH", "src/pogocache.c: storeop, loadop, deleteop"])
p("C99", "STATS shows each number under its name",
  "The answer to STATS, read by a client of any of the protocols RESP, memcache and Postgres, is a table in which each of the 27 numbers the server keeps stands exactly once, in decimal, under its own name; nothing in the cache is changed.",
  "all values of all numbers below 2^64, all spellings, all following bytes, three protocols",
  "names and values are cut out of printed lines; tests look at a few of the numbers, of small size",
  ["src/cmds.c: stats, stats_begin, stats_end, stats_printf, cmdSTATS"])
p("C100", "A memcache connection is a reference memcached server",
  "Whatever commands a client sends, pipelined and split into packets in any way, the bytes it receives are exactly the replies, in order, of a plain memcached server (values with flags, expiry and tokens) that executes the commands received completely, one after the other at their times; an incomplete last command has no effect; and a cas that is answered STORED has replaced exactly what the client saw.",
  "all sequences of get, gets, set, add, replace, cas, append, prepend, delete, incr, decr, touch, version and unknown commands, all keys, values, flags, expiries and tokens, all previous contents of the cache, all clocks that do not run backwards, all packets",
  "infinitely many conversations, contents, times and ways of splitting the stream; values may look like commands or replies",
  ["src/conn.c: evdata", "src/parse.c: sniff_proto", "src/memcache.c: parse_memcache", "src/cmds.c: evcommand, cmdSET, cmdMGET, cmdDEL, cmdINCRBY, cmdAPPEND, cmdEXPIRE, cmdVERSION", "src/pogocache.c: storeop, loadop, deleteop"])
p("C101", "Many RESP clients at once are served as if one key at a time",
  "With any number of clients on any number of threads, each client receives exactly the replies of a plain key-value server that executes the commands of all clients one at a time, each client's in the order sent, where MGET, EXISTS, TOUCH and DEL are executed key by key; no command ends the process or blocks the others for ever. The clocks of the threads need not agree: a key that is gone by the clock of one command may from then on be gone for all.",
  "all numbers of clients, all interleavings of their threads, all commands of C98, all clocks, all ways in which keys share shards and locks, all packets",
  "the interleavings of threads cannot be enumerated or even forced by tests",
  ["src/conn.c: evdata", "src/cmds.c: execINCRDECR, cmdAPPEND, cmdMGET, cmdEXISTS, cmdTOUCH, cmdDEL", "src/pogocache.c: lock, unlock, pogocache_begin, pogocache_end, pogocache_store, pogocache_load, pogocache_delete"])
p("C102", "Commands of many RESP clients at once are atomic",
  "With any number of clients on any number of threads, the replies to all clients are those of a server that executes the commands one at a time, each as a whole. In particular concurrent INCRs give out every number exactly once, and of many SET NX exactly one succeeds.",
  "all numbers of clients, all interleavings of their threads, all commands of C98, all ways in which keys share shards and locks, all packets",
  "the interleavings of threads cannot be enumerated or even forced by tests",
  ["src/cmds.c: execINCRDECR, cmdAPPEND, cmdMGET, cmdEXISTS, cmdTOUCH, cmdDEL", "src/pogocache.c: lock, unlock, pogocache_begin, pogocache_end"])
p("C103", "A restart cannot be told from the replies to RESP clients",
  "Any number of RESP clients use the server; when they are idle the cache is saved, the process ends, a new one (with any number of shards and any hash seed) loads the file, and any number of RESP clients use the new server. All replies, before and after, are those of one server that was never restarted: values are the same and every key goes on to expire at the same wall-clock time, keys whose time ended in between being gone.",
  "all commands of C98 from any number of clients before and after, all interleavings, all orders of the saving and loading threads, all numbers of shards and hash functions, all clocks of the two processes",
  "the property is about two processes, two clocks and all states that any conversation can lead to",
  ["src/save.c: save, thsave, save_work_entry, load, load_block", "src/cmds.c", "src/conn.c: evdata", "src/pogocache.c: pogocache_iter, pogocache_store"])
p("C104", "SAVE, KEYS, sweeps and FLUSHALL beside RESP clients",
  "While any number of RESP clients are served, threads may go over the shards to save them, list their keys, sweep or flush them. The clients receive exactly the replies of a plain server that does one part of a command, or one shard of such a task, at a time; a sweep makes no difference to any reply, a flush removes exactly the keys of its shard, and what is saved or listed of a shard is exactly what is in it at that moment, no key left out and none twice with different values.",
  "all commands of C98 from any number of clients, any number of tasks in any order of the shards, all interleavings of their threads, all clocks",
  "the interleavings of threads cannot be enumerated or even forced by tests",
  ["src/save.c: save, thsave", "src/cmds.c: cmdKEYS, cmdFLUSHALL, cmdSWEEP", "src/main.c: autosweepticker", "src/pogocache.c: pogocache_iter, pogocache_sweep, pogocache_clear"])
p("C105", "A save while clients work is a snapshot",
  "The cache is saved while RESP clients are being served, by SAVE or at the end of the process, which may then end in the middle of commands. A new process that loads the file continues with the store as it was at one moment of the first one.",
  "all commands of C98 from any number of clients before and after, all interleavings, all orders of the saving and loading threads, all numbers of shards and hash functions, all clocks of the two processes",
  "the property is about two processes, two clocks and all interleavings of clients and saving threads",
  ["src/main.c: sigtermticker", "src/save.c: save, thsave, save_work_entry, load, load_block", "src/cmds.c", "src/pogocache.c: pogocache_iter"])
p("C106", "RESP and memcache clients at once share one server",
  "While any number of RESP clients and memcache clients use the same keys, from any number of threads, all receive the replies of one server that does one part of a command (a key of a command on several keys) at a time, each client's in the order sent: for the RESP clients the plain key-value server of C98, for the memcache clients the memcached server of C100 (with the differences listed there), on the same values and deadlines. What a client of one protocol writes, clients of the other read; a RESP command that changes a key gives it a new token, and keeps its flags (INCR, APPEND, EXPIRE) or clears them (SET); one that does not change it leaves token and flags.",
  "all numbers of clients of either protocol, all interleavings of their threads, all commands of C98 and C100, all clocks of the threads, all ways in which keys share shards and locks, all packets",
  "the interleavings of threads cannot be enumerated or even forced by tests, and tests use one protocol at a time",
  ["src/conn.c: evdata", "src/parse.c: parse_command", "src/resp.c", "src/memcache.c", "src/cmds.c: execSET, get_entry, execINCRDECR, cmdAPPEND, cmdMGET, cmdEXPIRE", "src/pogocache.c: storeop, loadop, deleteop, lock, unlock"])
p("C107", "gets and cas lose no update, whoever else writes",
  "A memcache client reads a key with gets and later does cas with the token it was given, while any number of RESP, memcache and HTTP clients work; or an HTTP client does PUT with cas= and that token. If the cas is answered STORED (PUT: 200) then the key held exactly what the client had read all the time from the gets to the cas; nobody has written, touched or deleted it in between. Of all the cas commands with the same token for the same key, in either protocol, at most one is ever answered so.",
  "all numbers of clients of the three protocols, all interleavings of their threads, all commands of C98, C100 and C109, all clocks of the threads, all packets",
  "the interleavings of threads cannot be enumerated or even forced by tests; that a key comes back with the same token would take a coincidence",
  ["src/cmds.c: execSET, get_entry, cmdMGET, execINCRDECR, cmdAPPEND, cmdDEL, cmdEXPIRE", "src/pogocache.c: storeop, lock, unlock"])
p("C108", "When memory is low, values may be missing but are never wrong",
  "A RESP client uses a server whose memory is enough or low at each command as it likes. With eviction (the default) each SET of a new key makes the server forget at most one other key, and nothing else changes; without eviction a SET while memory is low is answered with an out of memory error and changes nothing. Hence GET answers that there is no such key, or exactly the value of the last SET of that key that was acknowledged, unless it was deleted or its time is over; and without eviction it always answers that value.",
  "all sequences of the commands of C98, all ways in which memory becomes low or enough again, all ways of writing the commands, all divisions into packets, all clocks, all states of the cache at the start",
  "when memory is low, and what is then chosen for eviction, is decided by hashes, sizes and access times that tests do not control",
  ["src/pogocache.c: storeop, auto_evict_entry, evict_entry", "src/cmds.c: execSET, cmdSET, cmdSETEX", "src/main.c: memticker", "src/conn.c: evdata"])
p("C109", "HTTP, RESP and memcache clients at once share one server",
  "While any number of HTTP clients, RESP clients and memcache clients use the same keys from any number of threads, each HTTP client reads from the bytes of its response the code and body that a plain server gives: GET 200 and the value the key has then, whoever wrote it, or 404; PUT 200 if the key was stored, with the flags, time to live and condition (nx, xx or cas) asked for, else 404 and nothing is changed; DELETE 200 if there was such a key, else 404. All this at one moment in the one order of C106, and the RESP and memcache clients read what was put, with its flags and with a token larger than all the key had.",
  "all numbers of clients of the three protocols, all interleavings of their threads, all well formed requests with the right password (header fields in any order), all commands of C98 and C100, all clocks of the threads, all packets (the head of an HTTP request in one)",
  "the interleavings of threads cannot be enumerated or even forced by tests, and tests use one protocol at a time",
  ["src/conn.c: evdata", "src/parse.c: parse_command, sniff_proto", "src/http.c", "src/cmds.c: execSET, cmdGET, cmdDEL", "src/pogocache.c: storeop, loadop, deleteop, lock, unlock"])
p("C110", "Postgres, HTTP, RESP and memcache clients at once share one server",
  "While any number of Postgres clients, and of HTTP, RESP and memcache clients, use the same keys from any number of threads, each Postgres client reads from the bytes it is sent one answer to each of its queries GET, SET, DEL, MGET, INCR, DECR, INCRBY, DECRBY, APPEND and PREPEND, in their order: GET a table with the value the key has then, whoever wrote it, or no row; SET the tag SET 1, and all clients see the value, with no flags and no deadline and with a token larger than all the key had; DEL the tag DEL 1 if there was such a key, else DEL 0; MGET a table with a row for each key that was there when it was read, and the number of rows; INCR and its like a table with the new number, computed exactly from the number the key has at that moment (zero if there is no such key), which then is its value, so that no count is lost, or an error and no change if the value is not a number or the result does not fit in 64 bits; APPEND and PREPEND the new length, or an error and no change if it would be over 512 MB. A number or a joined value keeps the flags and the deadline, and has a larger token. All this in the one order of C106; MGET reads key by key, and others may come in between.",
  "all numbers of clients of the four protocols, all interleavings of their threads, all words in the queries (bare or in quotes, names in any case), all commands of C98 and C100 and requests of C109, all clocks of the threads, all packets",
  "the interleavings of threads cannot be enumerated or even forced by tests, and tests use one protocol at a time",
  ["src/conn.c: evdata", "src/postgres.c: parse_message, parseQ, pg_precommand, pg_write_row_data, pg_write_complete", "src/cmds.c: execSET, cmdGET, cmdDEL, cmdMGET, execINCRDECR, cmdAPPEND", "src/pogocache.c: storeop, loadop, deleteop, lock, unlock, pogocache_begin, pogocache_end"])
p("C111", "A percentage memory limit is that part of the memory of the machine",
  "The memory of the system is exactly the number of kilobytes in the line MemTotal of /proc/meminfo, times 1024, wherever that line is in the file and however many blanks precede the number; and --maxmemory with a percentage is that part of it, to within a byte and a half.",
  "all contents of the file, all amounts of memory up to 2^40 kilobytes, all percentages from 1 to 100, all rounding of double that is exact on small integers and within half a unit else",
  "tests run on one machine, with one file; there are unboundedly many files and amounts, and one without the line is not at hand",
  ["src/sys.c: sys_memory", "src/main.c: calc_memlimit, memticker"])
p("C112", "There is one thread for each CPU the process may use",
  "Without --threads the server has as many threads as there are CPUs in the affinity mask of the process (at least one), however many are configured, and later calls of sys_nprocs give the same number.",
  "all masks, all numbers of configured CPUs",
  "a test has one machine, and no machine with more than 1024 CPUs",
  ["src/sys.c: sys_nprocs", "src/main.c: main"])
p("C113", "The count of allocations is exact, and nobody ever gets NULL",
  "With allocations tracked, at any time the count is the number of blocks in use, but for the threads that are in the middle of a call (exact when there are none): no leak is hidden and none is invented by threads that race. Whoever asks for a block gets one: if the allocator has none, the process ends, and no caller sees NULL.",
  "all numbers of threads, all interleavings of their calls of xmalloc, xrealloc and xfree, all results of the underlying allocator",
  "interleavings of threads at the counter cannot be forced, and the allocator does not fail in tests",
  ["src/xmalloc.c: xmalloc, xrealloc, xfree, check_ptr, add_alloc, sub_alloc, xallocs"])
p("C114", "A restart cannot be told from the replies to clients of any protocol",
  "While any number of RESP, memcache, HTTP and Postgres clients use the same keys, each is served as C110 says; if the cache is then saved and loaded into a new server, with any hash function and number of shards, the file loads without an error, and any number of later clients of any of the protocols are served from a store with the same values, flags and deadlines on the wall clock.",
  "all conversations of clients of the four protocols before and after, all interleavings of their threads, all orders in which shards are saved, blocks are written and entries are loaded, all clocks, hash functions and numbers of shards",
  "neither the conversations nor the interleavings nor the orders can be enumerated; tests restart with a few keys, and look over one protocol",
  ["src/save.c: save, load, thsave, thload, save_entry, load_block", "src/conn.c: evdata", "src/parse.c: parse_command", "src/pogocache.c: storeop, iterop"])
p("C115", "gets and cas lose no update across a restart",
  "If a client is given a value and its token by gets, and later stores with cas and this token, then nobody has changed the key in between, also if the server was restarted in between (with the file saved and loaded).",
  "all conversations before and after the restart, all interleavings",
  "the tokens after a restart depend on the order in which the entries are loaded; a test would have to hit the one token that is given again",
  ["src/save.c: load_block, save_entry", "src/pogocache.c: storeop, entry_new", "src/cmds.c: execSET"])
p("C116", "Clients of all protocols never block each other for ever",
  "Whatever commands RESP, memcache, HTTP and Postgres clients send at the same time, and however their threads take the locks of the shards, a state in which no thread can go on is one in which every client has got the replies to all commands that have come completely: there is no circle of clients that wait for each other's locks, also not of commands that keep a lock over two calls (INCR, APPEND) or that take one lock after the other (MGET).",
  "all numbers of clients, all conversations, all interleavings of their threads, all ways in which keys share shards and locks, all packets",
  "a deadlock needs a particular interleaving on particular shards; tests cannot force it, and cannot show that there is none",
  ["src/pogocache.c: lock, unlock, pogocache_begin, pogocache_end, acquire_for_key", "src/cmds.c: execINCRDECR, cmdAPPEND, cmdMGET", "src/conn.c: evdata"])
p("C117", "With what finitely many clients have sent the server comes to an end, and all are answered",
  "If finitely many clients have sent something, then whatever the order in which the threads take their steps there are only finitely many steps: no command loops, is done again or does not end. From wherever the server has got, it can go on until nothing is left to do, and then every client has got all its replies.",
  "all numbers of clients, all conversations, all infinite orders in which threads can be run, all states",
  "a test that has not ended yet has shown nothing; that every order of the threads ends is about infinitely long executions",
  ["src/pogocache.c: lock, unlock, pogocache_begin, pogocache_end", "src/cmds.c", "src/conn.c: evdata", "src/parse.c: parse_command"])
p("C118", "Someone who does not know the seed cannot find keys that collide",
  "The server hashes keys with a secret random seed. A client that does not know it cannot choose keys that fall together: whatever fixed list of different keys it sends, with some seeds their hashes differ, and so it cannot fill one place of one shard on purpose and make the cache lose an entry it has acknowledged (C10).",
  "all seeds, all lists of keys, all numbers of shards, all load factors",
  "tests use a few seeds and ordinary keys; keys that collide with every one of 2^64 seeds are found, or ruled out, only by reasoning about the function",
  ["src/pogocache.c: th64, get_shard, map_insert, acquire_for_key", "src/sys.c: sys_seed"])
p("C119", "A data file is believed exactly if it is well formed, whatever its bytes are",
  "For any bytes at all, also those made by someone who computes the checksums right: a file is read to its end exactly if it is blocks one after the other with nothing left over, and a block is loaded successfully exactly if it is a time and entries one after the other with nothing left over; no length written in it makes the load take bytes from outside of it. Then exactly the entries that have not expired are stored, with the keys, values and flags written.",
  "all byte strings, all encodings of numbers (also not the shortest ones), all lengths up to 64 bits",
  "every byte string as a file; crafted lengths and numbers that wrap",
  ["src/save.c: load, load_block", "src/util.c: varint_read_u64, read_u32"])
p("C120", "No pattern makes the server busy for long",
  "Matching a key with the pattern of KEYS or SCAN takes time in proportion to the product of their lengths, whatever the pattern and the key are; in particular a client cannot choose a pattern with which the server, which holds the lock of a shard during KEYS, is busy for ever.",
  "all patterns, all keys",
  "the slow cases are rare and cannot be waited for: a test that has not ended shows nothing",
  ["src/util.c: match", "src/cmds.c: keys_entry, scan_work"])
p("C121", "SCAN returns every key that is there from the beginning to the end, also while others are stored",
  "If a client goes through the keys with SCAN until the cursor is 0, while other clients store other keys and nothing is deleted, then every key that was there all the time has been returned.",
  "all caches, all orders of stores between the calls, all hash functions",
  "a key is missed only if the table grows between two calls and the key moves to before the cursor",
  ["src/pogocache.c: pogocache_entry_iter, map_insert, resize", "src/cmds.c: scan_work, cmdSCAN"])
p("C122", "A memcache client that knows the password can use a server that has one",
  "If a password is configured, there is something a memcache client that knows it can send so that its further requests are executed, as is so for the clients of the other protocols.",
  "all byte strings a memcache client can send, all passwords",
  "that nothing at all can be sent to get access is a statement about all byte strings",
  ["src/memcache.c: parse_memcache", "src/cmds.c: evcommand, cmdAUTH"])
p("C123", "SAVE, KEYS, sweeps and FLUSHALL beside clients of all protocols",
  "While any number of RESP, memcache, HTTP and Postgres clients are served, threads may go over the shards to save them, list their keys, sweep or flush them. All clients receive exactly the replies of one server that does one part of a command, or one shard of such a task, at a time; a sweep makes no difference to any reply, a flush removes exactly the keys of its shard, and what is saved or listed of a shard is exactly what is in it at that moment, with values, flags, deadlines and tokens. Sweeps and flushes never make an old token valid: a cas that is stored finds just the item of which the client got the token, and of those who use the same token one is stored.",
  "all commands of C106, C109 and C110 from any number of clients, any number of tasks in any order of the shards, all interleavings of their threads, all clocks",
  "the interleavings of threads cannot be enumerated or even forced by tests, and tests use one protocol at a time",
  ["src/save.c: save, thsave", "src/cmds.c: cmdKEYS, cmdFLUSHALL, cmdSWEEP", "src/main.c: autosweepticker", "src/pogocache.c: pogocache_iter, pogocache_sweep, pogocache_clear", "src/conn.c: evdata"])
p("C124", "A save while clients of all protocols work is a snapshot",
  "The cache is saved while RESP, memcache, HTTP and Postgres clients are being served, by SAVE or at the end of the process, which may then end in the middle of commands. A new process that loads the file continues, for clients of all protocols, with the values, flags and deadlines as they were at one moment of the first one.",
  "all commands of C106, C109 and C110 from any number of clients before and after, all interleavings, all orders of the saving and loading threads, all numbers of shards and hash functions, all clocks of the two processes",
  "the property is about two processes, two clocks and all interleavings of clients and saving threads",
  ["src/main.c: sigtermticker", "src/save.c: save, thsave, save_work_entry, load, load_block", "src/cmds.c", "src/pogocache.c: pogocache_iter"])
p("C125", "Clients and saves, sweeps and flushes never block each other, and come to an end",
  "While RESP, memcache, HTTP and Postgres clients are served, and threads save, list, sweep and flush shards, nobody waits for ever: whenever nothing can happen any more, every client has got the replies to all commands it has sent completely, and all tasks are done, each having seen its shard at one moment. And with finitely many clients and tasks that point is always reached, whatever the order in which the threads run.",
  "all commands of C106, C109 and C110 from any number of clients, any number of tasks in any order of the shards, all interleavings of their threads",
  "a deadlock needs one particular interleaving of threads, which tests cannot force; that there is none is a statement about all of them",
  ["src/pogocache.c: ACQUIRE_FOR_KEY_AND_EXECUTE, ACQUIRE_FOR_SCAN_AND_EXECUTE, pogocache_begin, pogocache_end", "src/save.c: thsave", "src/cmds.c", "src/conn.c: evdata"])
p("C126", "A key can be stored over without memory for a larger table",
  "While the system has memory for an entry but none for a larger table of the hash map, a plain store over a key that is there replaces its value, as no larger table is needed; all other keys are as before.",
  "all states of the cache, all keys, values, options of a plain store, times, and hash functions",
  "the failing allocation must meet one particular fill level of one shard",
  ["src/pogocache.c: map_insert, resize, storeop"])
p("C127", "When all batches are ended no shard stays locked",
  "Programs that use the cache as a library do work in batches. A shard is locked only by a batch that has worked on it and has not ended; the end of a batch gives back all its shards and none of another batch, and when all batches are ended every shard is free for others.",
  "all sequences of begins, work on shards and ends, of any number of batches at once, all numbers of shards",
  "the list of locked shards goes through the shards themselves; whether it is whole depends on all orders in which batches begin, work and end",
  ["src/pogocache.c: pogocache_begin, pogocache_end, lock", "src/pogocache.h: usethreadbatch"])
p("C128", "Short options mean what they are documented to mean",
  "Anywhere on the command line -t n is the same as --threads n and -M the same as --evict no; -h, -p and -s set the host, the port and the socket; -v, -vv and -vvv set the level 1, 2 and 3; -m n is a memory limit of exactly n megabytes. (Whether a later --maxmemory replaces an earlier -m, as with all other options: it does not.)",
  "all command lines, all values, all whole numbers of megabytes that a limit can have",
  "all combinations and orders of options, all values",
  ["src/main.c: main, calc_memlimit"])
with open(os.path.join(os.path.dirname(os.path.abspath(__file__)), "..", "properties.jsonl"), "w") as f:
    for x in P:
        f.write(json.dumps(x, ensure_ascii=True) + "\n")
print(len(P))
