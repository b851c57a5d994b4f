import Verif.Cmd.Table
import Verif.Resp.Reply
import Verif.Main.Options
import Verif.Glob.Model

/-!
The rest of the commands of `/repo/src/cmds.c`: those that report, empty or sweep the cache, save or load it, or serve for tests.  What they
need from outside of the cache (`Sys`) is arbitrary.  Background work (`conn_bgwork`) is done in place: between its calls of the cache other threads may
be active as between all calls; that the connection does nothing else meanwhile is in `Verif.Net.Bg`.
-/

namespace Verif.Cmd

open Verif.Num Verif.Resp Verif.Cache

/-- Texts of the errors, `/repo/src/conn.h:21-25` and `/repo/src/cmds.c`. -/
def ErrMsg.text : ErrMsg → Bytes
  | .wrongNumArgs => [69, 82, 82, 32, 119, 114, 111, 110, 103, 32, 110, 117, 109, 98, 101, 114, 32, 111, 102, 32, 97, 114, 103, 117, 109, 101, 110, 116, 115]
  | .syntaxError => [69, 82, 82, 32, 115, 121, 110, 116, 97, 120, 32, 101, 114, 114, 111, 114]
  | .invalidInteger => [69, 82, 82, 32, 118, 97, 108, 117, 101, 32, 105, 115, 32, 110, 111, 116, 32, 97, 110, 32, 105, 110, 116, 101, 103, 101, 114, 32, 111, 114, 32, 111, 117, 116, 32, 111, 102, 32, 114, 97, 110, 103, 101]
  | .outOfMemory => [69, 82, 82, 32, 111, 117, 116, 32, 111, 102, 32, 109, 101, 109, 111, 114, 121]
  | .invalidExpire => [69, 82, 82, 32, 105, 110, 118, 97, 108, 105, 100, 32, 101, 120, 112, 105, 114, 101, 32, 116, 105, 109, 101]
  | .overflow => [69, 82, 82, 32, 105, 110, 99, 114, 101, 109, 101, 110, 116, 32, 111, 114, 32, 100, 101, 99, 114, 101, 109, 101, 110, 116, 32, 119, 111, 117, 108, 100, 32, 111, 118, 101, 114, 102, 108, 111, 119]
  | .tooLarge => [69, 82, 82, 32, 118, 97, 108, 117, 101, 32, 116, 111, 111, 32, 108, 97, 114, 103, 101]
  | .noAuth => [78, 79, 65, 85, 84, 72, 32, 65, 117, 116, 104, 101, 110, 116, 105, 99, 97, 116, 105, 111, 110, 32, 114, 101, 113, 117, 105, 114, 101, 100, 46]
  | .wrongPass => [87, 82, 79, 78, 71, 80, 65, 83, 83, 32, 105, 110, 118, 97, 108, 105, 100, 32, 117, 115, 101, 114, 110, 97, 109, 101, 45, 112, 97, 115, 115, 119, 111, 114, 100, 32, 112, 97, 105, 114, 32, 111, 114, 32, 117, 115, 101, 114, 32, 105, 115, 32, 100, 105, 115, 97, 98, 108, 101, 100, 46]
  | .indexOutOfRange => [69, 82, 82, 32, 105, 110, 100, 101, 120, 32, 105, 115, 32, 111, 117, 116, 32, 111, 102, 32, 114, 97, 110, 103, 101]
  | .invalidDelay => [69, 82, 82, 32, 105, 110, 118, 97, 108, 105, 100, 32, 100, 101, 108, 97, 121, 32, 97, 114, 103, 117, 109, 101, 110, 116]
  | .noPath => [69, 82, 82, 32, 112, 97, 116, 104, 32, 110, 111, 116, 32, 112, 114, 111, 118, 105, 100, 101, 100]
  | .loadFailed => [108, 111, 97, 100, 32, 102, 97, 105, 108, 101, 100]
  | .saveFailed => [115, 97, 118, 101, 32, 102, 97, 105, 108, 101, 100]
  | .unknownSubcommand => [69, 82, 82, 32, 117, 110, 107, 110, 111, 119, 110, 32, 115, 117, 98, 99, 111, 109, 109, 97, 110, 100]
  | .unavailable => [117, 110, 97, 118, 97, 105, 108, 97, 98, 108, 101]
  | .invalidCursor => [69, 82, 82, 32, 105, 110, 118, 97, 108, 105, 100, 32, 99, 117, 114, 115, 111, 114]
  | .failedWork => [69, 82, 82, 32, 102, 97, 105, 108, 101, 100, 32, 116, 111, 32, 100, 111, 32, 119, 111, 114, 107]
  | .unknownCommand name => unknownText name
  | .unknownType name => (([69, 82, 82, 32, 117, 110, 107, 110, 111, 119, 110, 32, 116, 121, 112, 101, 32, 110, 97, 109, 101, 32, 39] : Bytes) ++ name.takeWhile (· ≠ 0) ++ [39]).take 127

/-- What these commands find outside of the cache. -/
structure Sys where
  /-- `nshards` and `sys_nprocs()`. -/
  nshards : Nat
  nprocs : Nat
  /-- Order in which the calls of several threads happen. -/
  order : List Nat → List Nat
  /-- Whether `conn_bgwork` succeeds, `/repo/src/net.c:1259-1298`. -/
  bgwork : Bool
  /-- `persist`, `version`. -/
  persist : Bytes
  version : Bytes
  /-- Whether saving (or, if `true`, loading) a path succeeds, and what loading it stores (`Verif.Save`). -/
  saved : Bool → Bytes → Bool → Bool
  loaded : Bytes → List Spec.StoreArgs
  /-- `pogocache_count`, and keys and next cursor found by `scan_work` for a cursor, a pattern and a count (`Verif.Cmd.Scan`; `none` if it
  leaves the cache's memory). -/
  count : Nat
  scan : Nat → Bytes → Nat → Option (List Bytes × Nat)
  /-- Names and values shown by STATS. -/
  stats : List (Bytes × Bytes)
  /-- Text of `detach_done`, whether memory for a value is there, and `rand()` for the i-th key. -/
  detach : Bytes
  alloc : Int → Bool
  rand : Nat → Nat

/-- Calls one after the other. -/
def calls {α : Type} : List Spec.Call → Prog α → Prog α
  | [], p => p
  | c :: cs, p => .call c fun _ => calls cs p

/-- The loop that gives each of `procs` threads its part, `/repo/src/cmds.c:701-714, 1122-1137, 1379-1403`: start and number of items of the threads
with numbers `procs - r`, ..., `procs - 1`. -/
def spans (total procs : Nat) : Nat → Nat → List (Nat × Nat)
  | 0, _ => []
  | r + 1, start =>
    let count := if r = 0 then total - start else total / procs
    (start, count) :: spans total procs r (start + count)

/-- All items visited by the threads, `/repo/src/cmds.c:686-689`. -/
def visited (total procs : Nat) : List Nat :=
  (spans total procs procs 0).flatMap fun x => (List.range x.2).map (x.1 + ·)

/-- The threads of `flushfast` and `sweepfast`, `/repo/src/cmds.c:693-724, 1112-1153`. -/
def shardOrder (y : Sys) : List Nat := y.order (visited y.nshards (min y.nprocs y.nshards))

/-- `flush_work`, `/repo/src/cmds.c:726-747`, with the loop of `pogocache_clear` over the shards (`/repo/src/pogocache.c:2059-2061`): other threads
may be active between two shards. -/
def flushWork {α : Type} (y : Sys) (fast : Bool) (p : Prog α) : Prog α :=
  calls ((if fast then shardOrder y else List.range y.nshards).map fun i => .clear (some (i : Int))) p

/-- `sweep_work`, `/repo/src/cmds.c:1155-1174`, with the loop of `pogocache_sweep` over the shards (`/repo/src/pogocache.c:1942-1984`). -/
def sweepWork {α : Type} (y : Sys) (fast : Bool) (p : Prog α) : Prog α :=
  calls ((if fast then shardOrder y else List.range y.nshards).map fun i => .sweep (some (i : Int))) p

/-- "OK" for memcache and for the others, and a tag for Postgres, e.g. `/repo/src/cmds.c:752-763`. -/
def okReply (e : Env) (tag : Bytes) : List W :=
  if e.proto = .postgres then pgEnd tag else if e.proto = .memcache then [.raw [79, 75, 13, 10]] else [.str [79, 75]]

/-- "OK" and a tag for Postgres, `/repo/src/cmds.c:1177-1186, 1248-1257, 1417-1422`. -/
def okPlain (e : Env) (tag : Bytes) : List W := if e.proto = .postgres then pgEnd tag else [.str [79, 75]]

/-- `args_eq`, `/repo/src/args.c:28-43`: like `argeq`, for names without capital letters. -/
def argsEq (args : List Bytes) (name : Bytes) : Bool := argeq (args.headD []) name

/-- " SYNC" and " ASYNC", ends of tags. -/
def syncTag : Bytes := [32, 83, 89, 78, 67]
/-- See `syncTag`. -/
def asyncTag : Bytes := [32, 65, 83, 89, 78, 67]

/-- `cmdname` of `cmdFLUSHALL`, `/repo/src/cmds.c:780-783`. -/
def flushName (args : List Bytes) : Bytes :=
  if argsEq args [102, 108, 117, 115, 104] then [70, 76, 85, 83, 72]
  else if argsEq args [102, 108, 117, 115, 104, 100, 98] then [70, 76, 85, 83, 72, 68, 66]
  else [70, 76, 85, 83, 72, 65, 76, 76]

/-- Options of FLUSHALL, `/repo/src/cmds.c:784-813`: async, fast, delay. -/
def flushLoop : List Bytes → Bool × Bool × Int → Except ErrMsg (Bool × Bool × Int)
  | [], o => .ok o
  | a :: as, (async, fast, delay) =>
    if argeq a [97, 115, 121, 110, 99] then flushLoop as (true, fast, delay)
    else if argeq a [115, 121, 110, 99] then flushLoop as (false, fast, delay)
    else if argeq a [102, 97, 115, 116] then flushLoop as (async, true, delay)
    else if argeq a [100, 101, 108, 97, 121] then
      match as with
      | [] => .error .syntaxError
      | x :: as =>
        match parseI64 x with
        | none => .error .invalidDelay
        | some d => if d < 0 ∨ d > 31536000 then .error .invalidDelay
            else if d > 0 then flushLoop as (true, fast, d) else flushLoop as (async, fast, 0)
    else .error .syntaxError

/-- `cmdFLUSHALL`, `/repo/src/cmds.c:779-845`. -/
def cmdFLUSHALL (y : Sys) (e : Env) (args : List Bytes) : Prog (List W) :=
  match flushLoop args.tail (false, false, 0) with
  | .error m => .ret [.err m]
  | .ok (async, fast, delay) =>
    if async then .ret (okReply e (flushName args ++ asyncTag) ++ [.spawn (.flush delay fast)])
    else if y.bgwork = false then .ret [.err .failedWork]
    else flushWork y fast (.ret (okReply e (flushName args ++ syncTag)))

/-- Options of SAVE and LOAD, `/repo/src/cmds.c:895-913`: fast and path. -/
def saveLoop (load : Bool) : List Bytes → Bool × Bytes → Except ErrMsg (Bool × Bytes)
  | [], o => .ok o
  | a :: as, (fast, path) =>
    if argeq a [102, 97, 115, 116] then saveLoop load as (true, path)
    else if (load ∧ argeq a [102, 114, 111, 109]) ∨ (¬ load ∧ argeq a [116, 111]) then
      match as with
      | [] => .error .syntaxError
      | x :: as => saveLoop load as (fast, x)
    else .error .syntaxError

/-- `cmdSAVELOAD`, `/repo/src/cmds.c:890-934`, with `bgsaveloadwork` and `bgsaveloaddone` (854-886). -/
def cmdSAVELOAD (y : Sys) (e : Env) (args : List Bytes) : Prog (List W) :=
  let load := argeq (args.headD []) [108, 111, 97, 100]
  match saveLoop load args.tail (false, y.persist) with
  | .error m => .ret [.err m]
  | .ok (fast, path) =>
    if path = [] then .ret [.err .noPath]
    else if y.bgwork = false then .ret [.err .failedWork]
    else
      let fin : Prog (List W) :=
        .ret (if y.saved load path fast then okReply e ((if load then [76, 79, 65, 68] else [83, 65, 86, 69]) ++ [32, 79, 75])
          else [.err (if load then .loadFailed else .saveFailed)])
      if load then calls ((y.loaded path).map .store) fin else fin

/-- Options of SWEEP, `/repo/src/cmds.c:1202-1211`: async and fast. -/
def sweepLoop : List Bytes → Bool × Bool → Except ErrMsg (Bool × Bool)
  | [], o => .ok o
  | a :: as, (async, fast) =>
    if argeq a [97, 115, 121, 110, 99] then sweepLoop as (true, fast)
    else if argeq a [102, 97, 115, 116] then sweepLoop as (async, true)
    else .error .syntaxError

/-- `cmdSWEEP`, `/repo/src/cmds.c:1195-1237`. -/
def cmdSWEEP (y : Sys) (e : Env) (args : List Bytes) : Prog (List W) :=
  if args.length > 2 then .ret [.err .wrongNumArgs]
  else
    match sweepLoop args.tail (false, false) with
    | .error m => .ret [.err m]
    | .ok (async, fast) =>
      if async then .ret (okPlain e ([83, 87, 69, 69, 80] ++ asyncTag) ++ [.spawn (.sweep fast)])
      else if y.bgwork = false then .ret [.err .failedWork]
      else sweepWork y fast (.ret (okPlain e ([83, 87, 69, 69, 80] ++ syncTag)))

/-- `cmdPURGE`, `/repo/src/cmds.c:1270-1298`. -/
def cmdPURGE (y : Sys) (e : Env) (args : List Bytes) : Prog (List W) :=
  match args with
  | _ :: _ :: _ :: _ => .ret [.err .wrongNumArgs]
  | [_, a] => if argeq a [97, 115, 121, 110, 99] then
      .ret (okPlain e ([80, 85, 82, 71, 69] ++ asyncTag) ++ [.spawn .purge]) else .ret [.err .syntaxError]
  | _ => .ret (if y.bgwork then okPlain e ([80, 85, 82, 71, 69] ++ syncTag) else [.err .failedWork])

/-- `keys_entry`, `/repo/src/cmds.c:509-525`, for one key. -/
def keyWanted (pattern key : Bytes) : Bool := pattern = [42] || Glob.globMatch pattern key = some true

/-- `bgkeys_work`, `/repo/src/cmds.c:527-535`, with the loop of `pogocache_iter` over the shards (`/repo/src/pogocache.c:1744-1751`): other threads
may be active between two shards.  `keys`: those found so far. -/
def keysWork {α : Type} (pattern : Bytes) (fin : List Bytes → Prog α) : List Nat → List Bytes → Prog α
  | [], keys => fin keys
  | i :: is, keys => .call (.iter (some (i : Int)) (some fun _ _ => .cont)) fun r =>
      keysWork pattern fin is (keys ++ (r.shown.map (·.1)).filter (keyWanted pattern))

/-- `cmdKEYS`, `/repo/src/cmds.c:565-585`, with `bgkeys_done` (537-563); the keys are kept in a buffer behind their lengths
(`Verif.Num`, varints). -/
def cmdKEYS (y : Sys) (e : Env) (args : List Bytes) : Prog (List W) :=
  match args with
  | [_, pattern] =>
    if y.bgwork = false then .ret [.err .failedWork]
    else keysWork pattern (fun keys => .ret (
      if e.proto = .postgres then
        .pg (.desc [[107, 101, 121]]) :: ((keys.map fun k => .pg (.row [k])) ++ pgEnd ([75, 69, 89, 83, 32] ++ u64toa keys.length))
      else .arr keys.length :: keys.map .bulk)) (List.range y.nshards) []
  | _ => .ret [.err .wrongNumArgs]

/-- `cmdDBSIZE`, `/repo/src/cmds.c:659-671`. -/
def cmdDBSIZE (y : Sys) (e : Env) (args : List Bytes) : Prog (List W) :=
  match args with
  | [_] => .ret (if e.proto = .postgres then pgRow [99, 111, 117, 110, 116] (i64toa y.count) [68, 66, 83, 73, 90, 69] else [.int y.count])
  | _ => .ret [.err .wrongNumArgs]

/-- `cmdSELECT`, `/repo/src/cmds.c:590-612`; the text for other protocols is cut at 63 bytes there, not here. -/
def cmdSELECT (e : Env) (args : List Bytes) : Prog (List W) :=
  if e.proto ≠ .resp then .ret [.err (.unknownCommand (args.headD []))]
  else
    match args with
    | [_, db] =>
      match parseI64 db with
      | none => .ret [.err .invalidInteger]
      | some x => .ret [if x > 0 then .err .indexOutOfRange else .str [79, 75]]
    | _ => .ret [.err .wrongNumArgs]

/-- "message", the name of a column. -/
def messageCol : Bytes := [109, 101, 115, 115, 97, 103, 101]

/-- `cmdECHO`, `/repo/src/cmds.c:1479-1490`. -/
def cmdECHO (e : Env) (args : List Bytes) : Prog (List W) :=
  match args with
  | [_, t] => .ret (if e.proto = .postgres then pgRow messageCol t [69, 67, 72, 79] else [.bulk t])
  | _ => .ret [.err .wrongNumArgs]

/-- `cmdPING`, `/repo/src/cmds.c:1561-1580`. -/
def cmdPING (e : Env) (args : List Bytes) : Prog (List W) :=
  match args with
  | [_] => .ret (if e.proto = .postgres then pgRow messageCol [80, 79, 78, 71] [80, 73, 78, 71] else [.str [80, 79, 78, 71]])
  | [_, t] => .ret (if e.proto = .postgres then pgRow messageCol t [80, 73, 78, 71] else [.bulk t])
  | _ => .ret [.err .wrongNumArgs]

/-- `cmdQUIT`, `/repo/src/cmds.c:1582-1588`. -/
def cmdQUIT (e : Env) : Prog (List W) := .ret ((if e.proto = .resp then [.str [79, 75]] else []) ++ [.close])

/-- `cmdMONITOR`, `/repo/src/cmds.c:1541-1559`: the connection is handed over after the reply, and closed at the end. -/
def cmdMONITOR (y : Sys) (e : Env) (args : List Bytes) : Prog (List W) :=
  if e.proto ≠ .resp then .ret [.err .unavailable]
  else
    match args with
    | [_] => .ret [.str [79, 75], if y.bgwork then .monitor else .err .failedWork]
    | _ => .ret [.err .wrongNumArgs]

/-- The expiry range of `cmdDEBUG_populate`, `/repo/src/cmds.c:1358-1371`. -/
def populateRange (t : Bytes) : Option (Int × Int) :=
  let t := t.takeWhile (· ≠ 0)
  if 45 ∈ t then some (Main.atoi t, Main.atoi ((t.dropWhile (· ≠ 45)).drop 1)) else none

/-- `populate_entry`, `/repo/src/cmds.c:1319-1322`, for one key: the time to live, or `none` if the remainder is not defined (divisor 0, or
outside of `int`). -/
def populateTtl (y : Sys) (range : Option (Int × Int)) (i : Nat) : Option Int :=
  match range with
  | none => some 0
  | some (lo, hi) =>
    if hi - lo = 0 ∨ hi - lo < -(2 ^ 31) ∨ hi - lo ≥ 2 ^ 31 then none
    else some ((((y.rand i : Int).tmod (hi - lo)) + lo) * second)

/-- The loop of `populate_entry`, `/repo/src/cmds.c:1312-1330`, over the keys of all threads; `fin` is the reply. -/
def populateLoop (y : Sys) (fin : List W) (prefix_ : Bytes) (len : Nat) (range : Option (Int × Int)) : List Nat → Prog (List W)
  | [] => .ret fin
  | i :: is =>
    match populateTtl y range i with
    | none => .ret [.undefined]
    | some ttl =>
      .call (.store { key := prefix_ ++ [58] ++ i64toa i, val := List.replicate len 0, expires := 0, ttl, cas := 0, flags := 0, keepttl := false,
                      casop := false, nx := false, xx := false, lowmem := false, ask := none }) fun _ =>
        populateLoop y fin prefix_ len range is

/-- `cmdDEBUG`, `/repo/src/cmds.c:1461-1477`, with `cmdDEBUG_populate` (1336-1420) and `cmdDEBUG_detach` (1449-1459). -/
def cmdDEBUG (y : Sys) (e : Env) (args : List Bytes) : Prog (List W) :=
  match args with
  | _ :: sub :: as =>
    if argeq sub [112, 111, 112, 117, 108, 97, 116, 101] then
      let go : Bytes → Bytes → Bytes → Option (Int × Int) → Prog (List W) := fun count prefix_ len range =>
        match parseI64 count with
        | none => .ret [.err .syntaxError]
        | some n =>
          if n < 0 then .ret [.err .syntaxError]
          else
            match parseI64 len with
            | none => .ret [.err .syntaxError]
            | some l =>
              if l < 0 then .ret [.err .syntaxError]
              else if y.alloc l = false then .ret [.failed]
              else populateLoop y (okPlain e ([68, 69, 66, 85, 71, 32, 80, 79, 80, 85, 76, 65, 84, 69, 32] ++ i64toa n)) prefix_ l.toNat range (y.order (visited n.toNat y.nprocs))
      match as with
      | [count, prefix_, len] => go count prefix_ len none
      | [count, prefix_, len, ex] => go count prefix_ len (populateRange ex)
      | _ => .ret [.err .wrongNumArgs]
    else if argeq sub [100, 101, 116, 97, 99, 104] then .ret (
      if y.bgwork then
        if e.proto = .postgres then pgRow [100, 101, 116, 97, 99, 104] y.detach [68, 69, 66, 85, 71, 32, 68, 69, 84, 65, 67, 72] else [.bulk y.detach]
      else [.err .failedWork])
    else .ret [.err .unknownSubcommand]
  | _ => .ret [.err .wrongNumArgs]

/-- `stats_end`, `/repo/src/cmds.c:1997-2040`, and `cmdSTATS` (2103-2110); the line of a statistic is its name, a blank and its value. -/
def cmdSTATS (y : Sys) (e : Env) (args : List Bytes) : Prog (List W) :=
  match args with
  | [_] =>
    if e.proto = .memcache then
      .ret ((y.stats.map fun x => .raw ([83, 84, 65, 84, 32] ++ x.1 ++ [32] ++ x.2 ++ [13, 10])) ++ [.raw [69, 78, 68, 13, 10]])
    else if e.proto = .postgres then
      .ret (.pg (.desc [[115, 116, 97, 116], valueCol]) ::
        ((y.stats.map fun x => .pg (.row [x.1, x.2])) ++ pgEnd ([83, 84, 65, 84, 83, 32] ++ u64toa y.stats.length)))
    else .ret (.arr y.stats.length :: y.stats.flatMap fun x => [.arr 2, .bulk x.1, .bulk x.2])
  | _ => .ret [.err .syntaxError]

/-- `cmdVERSION`, `/repo/src/cmds.c:2112-2130`. -/
def cmdVERSION (y : Sys) (e : Env) : Prog (List W) :=
  .ret (if e.proto = .memcache then [.raw [86, 69, 82, 83, 73, 79, 78, 32], .raw y.version, .raw [13, 10]]
    else if e.proto = .postgres then
      pgRow [118, 101, 114, 115, 105, 111, 110] y.version [86, 69, 82, 83, 73, 79, 78, 32, 49]
    else [.str y.version])

/-- The options of SCAN, `/repo/src/cmds.c:2219-2254`: pattern and count. -/
def scanLoop : List Bytes → Bytes × Nat → Except ErrMsg (Bytes × Nat)
  | [], o => .ok o
  | [_], _ => .error .syntaxError
  | a :: x :: as, (pattern, count) =>
    if argeq a [109, 97, 116, 99, 104] then scanLoop as (x, count)
    else if argeq a [99, 111, 117, 110, 116] then
      match parseU64 x with
      | none => .error .syntaxError
      | some n => if n = 0 ∨ n > 2147483647 then .error .syntaxError else scanLoop as (pattern, n)
    else if argeq a [116, 121, 112, 101] then
      if argeq x [115, 116, 114, 105, 110, 103] then scanLoop as (pattern, count) else .error (.unknownType x)
    else .error .syntaxError

/-- `cmdSCAN`, `/repo/src/cmds.c:2203-2275`, with `scan_done` (2167-2200). -/
def cmdSCAN (y : Sys) (e : Env) (args : List Bytes) : Prog (List W) :=
  match args with
  | _ :: cursor :: opts =>
    match parseU64 cursor with
    | none => .ret [.err .invalidCursor]
    | some c =>
      match scanLoop opts ([42], 100) with
      | .error m => .ret [.err m]
      | .ok (pattern, count) =>
        match y.scan c pattern count with
        | none => .ret [.undefined]
        | some r => .ret (
          if e.proto = .postgres then
            .pg (.desc [[107, 101, 121], [99, 117, 114, 115, 111, 114]]) ::
              ((r.1.map fun k => .pg (.row [k, u64toa r.2])) ++ pgEnd ([83, 67, 65, 78, 32] ++ u64toa r.1.length))
          else .arr 2 :: .bulk (u64toa r.2) :: .arr r.1.length :: r.1.map .bulk)
  | _ => .ret [.err .wrongNumArgs]

/-- The functions of the command table that `Verif.Cmd.Model` leaves out. -/
def admin (y : Sys) : Fn → Env → List Bytes → Prog (List W) := fun fn e args =>
  match fn with
  | .cmdDBSIZE => cmdDBSIZE y e args
  | .cmdQUIT => cmdQUIT e
  | .cmdECHO => cmdECHO e args
  | .cmdFLUSHALL => cmdFLUSHALL y e args
  | .cmdMONITOR => cmdMONITOR y e args
  | .cmdPURGE => cmdPURGE y e args
  | .cmdSWEEP => cmdSWEEP y e args
  | .cmdKEYS => cmdKEYS y e args
  | .cmdSELECT => cmdSELECT e args
  | .cmdPING => cmdPING e args
  | .cmdDEBUG => cmdDEBUG y e args
  | .cmdSAVELOAD => cmdSAVELOAD y e args
  | .cmdSTATS => cmdSTATS y e args
  | .cmdVERSION => cmdVERSION y e
  | .cmdSCAN => cmdSCAN y e args
  | _ => .ret []

end Verif.Cmd
