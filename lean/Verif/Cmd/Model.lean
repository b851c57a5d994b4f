import Verif.Num.Model
import Verif.Resp.Model
import Verif.Cache.Props

/-!
Model of the commands, `/repo/src/cmds.c`, as programs that call the cache.  The replies are the list of the `conn_write_*` and `pg_write_*`
calls.  Statistics counters are left out.
-/

namespace Verif.Cmd

open Verif.Num Verif.Resp Verif.Map Verif.Shard Verif.Cache

/-- A program calling the cache: the calls and what is done with their results. -/
inductive Prog (α : Type) where
  | ret (a : α)
  | call (c : Spec.Call) (k : Spec.Reply → Prog α)

/-- Do something with the result of a program. -/
def Prog.map {α β : Type} (f : α → β) : Prog α → Prog β
  | .ret a => .ret (f a)
  | .call c k => .call c fun r => (k r).map f

/-- Running a program on the model of the cache (`Verif.Cache.exec`); the allocations of the i-th call are given by `mems i`. -/
def Prog.exec {α : Type} (c : Ctx) (n : Nat) (mems : Nat → Nat → Mem) (now : Int) : Prog α → Nat → Shards → Out (α × Shards)
  | .ret a, _, shs => .val (a, shs)
  | .call op k, i, shs =>
    (Cache.exec c n (mems i) now (toOp op) shs).bind fun r => (k (reply r)).exec c n mems now (i + 1) r.shs

/-- Error texts that occur in the modelled commands, `/repo/src/conn.h:21-25` and `/repo/src/cmds.c`. -/
inductive ErrMsg where
  | wrongNumArgs | syntaxError | invalidInteger | outOfMemory | invalidExpire | overflow | tooLarge
  | unknownCommand (name : Bytes) | noAuth | wrongPass
  | indexOutOfRange | invalidDelay | noPath | loadFailed | saveFailed | unknownSubcommand | unavailable | invalidCursor
  | unknownType (name : Bytes) | failedWork
deriving DecidableEq, Repr

/-- Work handed to a new detached thread: `thflush0`, `thsweep0`, `thpurge`, `/repo/src/cmds.c:765-774, 1187-1192, 1263-1267`. -/
inductive Task where
  | flush (delay : Int) (fast : Bool)
  | sweep (fast : Bool)
  | purge
deriving DecidableEq, Repr

/-- One `pg_write_*` call, `/repo/src/postgres.c:1247-1254, 1269-1348`: names of the columns, a row, the tag that ends an answer, and
`pg_write_ready` (always with 'I').  The tags written with `pg_write_completef` are cut at 126 bytes there, but are all shorter. -/
inductive PgOut where
  | desc (names : List Bytes)
  | row (cols : List Bytes)
  | complete (tag : Bytes)
  | ready
deriving DecidableEq, Repr

/-- One `conn_write_*` call, `/repo/src/conn.c:230-373`.  `undefined` stands for arithmetic outside of C's rules, `failed` for a failed
`assert` or an `abort`, `close` for `conn_close`, `monitor` for handing the connection to `monitor_work`, `spawn` for a detached thread. -/
inductive W where
  | err (e : ErrMsg)
  | str (t : Bytes)
  | null
  | int (i : Int)
  | uint (n : Nat)
  | bulk (b : Bytes)
  | arr (n : Nat)
  | raw (b : Bytes)
  | http (code : Nat) (body : Bytes)
  | pg (m : PgOut)
  | undefined
  | failed
  | close
  | monitor
  | spawn (t : Task)
deriving DecidableEq, Repr

/-- A tag and the end of an answer, e.g. `/repo/src/cmds.c:651-652`. -/
def pgEnd (tag : Bytes) : List W := [.pg (.complete tag), .pg .ready]

/-- `pg_write_simple_row_data_ready`, `/repo/src/postgres.c:1350-1357`. -/
def pgRow (name row tag : Bytes) : List W := .pg (.desc [name]) :: .pg (.row [row]) :: pgEnd tag

/-- "value", the name of a column. -/
def valueCol : Bytes := [118, 97, 108, 117, 101]

/-- `tolower` in the C locale. -/
def lower (b : UInt8) : UInt8 := if 65 ≤ b ∧ b ≤ 90 then b + 32 else b

/-- The loop of `argeq_bytes`, `/repo/src/util.c:24-34`; the C string `s` contains no NUL. -/
def argeqLoop : Bytes → Bytes → Bool
  | [], [] => true
  | [], _ :: _ => false
  | _ :: _, [] => false
  | b :: p, c :: s => if lower b = c then argeqLoop p s else false

/-- `argeq`, `/repo/src/util.c:36-38`. -/
def argeq (a name : Bytes) : Bool := argeqLoop a name

/-- `SECOND`, `MILLISECOND`, `HOUR`, `/repo/src/util.h:22-25`. -/
def second : Int := 1000000000
/-- See `second`. -/
def millisecond : Int := 1000000
/-- See `second`. -/
def hour : Int := 3600000000000

/-- Clocks and switches read by commands: `sys_now()`, `sys_unixnow()`, the flag `lowmem`, and the protocol of the connection.  Each clock
is read once per command here; the code reads them up to twice. -/
structure Env where
  now : Int
  unix : Int
  lowmem : Bool
  proto : Proto

/-- `expiry_seconds_time`, `/repo/src/cmds.c:155-170`. -/
def expirySeconds (e : Env) (expiry : Int) : Option Int :=
  if e.proto = .memcache ∧ expiry > hour * 24 * 30 then
    addClamp e.now (if expiry > e.unix then expiry - e.unix else 0)
  else addClamp e.now expiry

/-- Kinds of expiry options. -/
inductive ExKind where
  | ex | px | exat | pxat
deriving DecidableEq, Repr

/-- Options of SET collected by its loop, `/repo/src/cmds.c:194-203`. -/
structure SetOpts where
  expires : Int
  nx : Bool
  xx : Bool
  get : Bool
  keepttl : Bool
  hasex : Bool
  flags : Nat
  cas : Nat
  withcas : Bool
deriving DecidableEq, Repr

/-- The label `parse_ex`, `/repo/src/cmds.c:216-254`: value of an expiry option; `Except.error` is an error reply, `none` undefined
arithmetic. -/
def parseEx (e : Env) (kind : ExKind) (text : Bytes) : Except ErrMsg (Option Int) :=
  match parseI64 text with
  | none => .error .invalidExpire
  | some x =>
    if x ≤ 0 then
      if e.proto = .memcache then .ok (expirySeconds e 0) else .error .invalidExpire
    else
      match kind with
      | .ex => .ok ((mulClamp x second).bind fun y => expirySeconds e y)
      | .px => .ok ((mulClamp x millisecond).bind fun y => expirySeconds e y)
      | .exat => .ok (mulClamp x second)
      | .pxat => .ok (mulClamp x millisecond)

/-- The loop of `cmdSET` over the options, `/repo/src/cmds.c:204-285`. -/
def setLoop (e : Env) : List Bytes → SetOpts → Except ErrMsg (Option SetOpts)
  | [], o => .ok (some o)
  | a :: as, o =>
    let ex : ExKind → Except ErrMsg (Option SetOpts) := fun kind =>
      match as with
      | [] => .error .syntaxError
      | x :: as =>
        match parseEx e kind x with
        | .error m => .error m
        | .ok none => .ok none
        | .ok (some t) => setLoop e as { o with expires := t, hasex := true }
    if argeq a [101, 120] then ex .ex
    else if argeq a [112, 120] then ex .px
    else if argeq a [101, 120, 97, 116] then ex .exat
    else if argeq a [112, 120, 97, 116] then ex .pxat
    else if argeq a [110, 120] then setLoop e as { o with nx := true }
    else if argeq a [120, 120] then setLoop e as { o with xx := true }
    else if argeq a [103, 101, 116] then setLoop e as { o with get := true }
    else if argeq a [107, 101, 101, 112, 116, 116, 108] then setLoop e as { o with keepttl := true }
    else if argeq a [102, 108, 97, 103, 115] then
      match as with
      | [] => .error .syntaxError
      | x :: as =>
        match parseU64 x with
        | none => .error .syntaxError
        | some y => setLoop e as { o with flags := y % 2 ^ 32 }
    else if argeq a [99, 97, 115] then
      match as with
      | [] => .error .syntaxError
      | x :: as =>
        match parseU64 x with
        | none => .error .syntaxError
        | some y => setLoop e as { o with cas := y, withcas := true }
    else .error .syntaxError

/-- `set_entry`, `/repo/src/cmds.c:63-81`; `name` is the name of the command. -/
def setEntry (e : Env) (name : Bytes) (x : Bytes × Spec.Item) : List W :=
  if e.proto = .postgres then pgRow valueCol x.2.value (name ++ [32, 49]) else [.bulk x.2.value]

/-- The end of `execSET`, `/repo/src/cmds.c:104-152`: the replies.  "NOT_FOUND\r\n" is sent with length 12, which includes the
terminating NUL (line 128). -/
def setReply (e : Env) (name : Bytes) (get : Bool) (r : Spec.Reply) : List W :=
  if r.status = .nomem then r.shown.flatMap (setEntry e name) ++ [.err .outOfMemory]
  else if get then
    if r.shown = [] then
      if e.proto = .postgres then .pg (.desc [valueCol]) :: pgEnd (name ++ [32, 48]) else [.null]
    else r.shown.flatMap (setEntry e name)
  else
    let stored := r.status = .inserted ∨ r.status = .replaced
    match e.proto with
    | .memcache =>
      if stored then [.raw [83, 84, 79, 82, 69, 68, 13, 10]]
      else if r.status = .found then [.raw [69, 88, 73, 83, 84, 83, 13, 10]]
      else [.raw [78, 79, 84, 95, 70, 79, 85, 78, 68, 13, 10, 0]]
    | .http => if stored then [.http 200 [83, 116, 111, 114, 101, 100, 13, 10]]
      else [.http 404 [78, 111, 116, 32, 70, 111, 117, 110, 100, 13, 10]]
    | .postgres => pgEnd (name ++ [32] ++ if stored then [49] else [48])
    | _ => if stored then [.str [79, 75]] else [.null]

/-- `execSET`, `/repo/src/cmds.c:83-153`, with `set_entry`, which shows the old value and goes on. -/
def execSET (e : Env) (name key val : Bytes) (o : SetOpts) : Prog (List W) :=
  .call (.store { key, val, expires := o.expires, ttl := 0, cas := o.cas, flags := o.flags, keepttl := o.keepttl, casop := o.withcas
                  nx := o.nx, xx := o.xx, lowmem := e.lowmem, ask := if o.get then some fun _ => true else none })
    fun r => .ret (setReply e name o.get r)

/-- `cmdSET`, `/repo/src/cmds.c:173-298`; `args` includes the name. -/
def cmdSET (e : Env) (args : List Bytes) : Prog (List W) :=
  match args with
  | _ :: key :: val :: opts =>
    match setLoop e opts ⟨0, false, false, false, false, false, 0, 0, false⟩ with
    | .error m => .ret [.err m]
    | .ok none => .ret [.undefined]
    | .ok (some o) =>
      if o.expires < 0 then .ret [.failed]
      else if o.keepttl ∧ o.hasex then .ret [.err .syntaxError]
      else if o.xx ∧ o.nx then .ret [.err .syntaxError]
      else execSET e [83, 69, 84] key val o
  | _ => .ret [.err .wrongNumArgs]

/-- `cmdSETEX`, `/repo/src/cmds.c:300-320`. -/
def cmdSETEX (e : Env) (args : List Bytes) : Prog (List W) :=
  match args with
  | [_, key, ex, val] =>
    match parseI64 ex with
    | none => .ret [.err .invalidExpire]
    | some x =>
      if x ≤ 0 then .ret [.err .invalidExpire]
      else
        match (mulClamp x second).bind fun y => addClamp e.now y with
        | none => .ret [.undefined]
        | some t => execSET e [83, 69, 84, 69, 88] key val ⟨t, false, false, false, false, false, 0, 0, false⟩
  | _ => .ret [.err .wrongNumArgs]

/-- Commands that print entries, `/repo/src/cmds.c:322-324`. -/
inductive Kind where
  | get | mget | mgets
deriving DecidableEq, Repr

/-- `get_entry`, `/repo/src/cmds.c:330-388`. -/
def getEntry (e : Env) (kind : Kind) (x : Bytes × Spec.Item) : List W :=
  match e.proto with
  | .memcache =>
    [.raw ([86, 65, 76, 85, 69, 32] ++ x.1 ++ [32] ++ u64toa x.2.flags ++ [32] ++ u64toa x.2.value.length ++
      (if kind = .mgets then [32] ++ u64toa x.2.cas else []) ++ [13, 10] ++ x.2.value ++ [13, 10])]
  | .http => [.http 200 x.2.value]
  | .postgres =>
    match kind with
    | .get => [.pg (.row [x.2.value])]
    | .mget => [.pg (.row [x.1, x.2.value])]
    | .mgets => [.pg (.row [x.1, u64toa x.2.flags, u64toa x.2.cas, x.2.value])]
  | _ => (if kind = .mgets then [.arr 3, .uint x.2.flags, .uint x.2.cas] else []) ++ [.bulk x.2.value]

/-- `cmdGET`, `/repo/src/cmds.c:391-442`. -/
def cmdGET (e : Env) (args : List Bytes) : Prog (List W) :=
  match args with
  | [_, key] => .call (.load key false (some fun _ => none)) fun r =>
      if e.proto = .postgres then
        .ret (.pg (.desc [valueCol]) :: ((if r.status = .notfound then [] else r.shown.flatMap (getEntry e .get)) ++
          pgEnd ([71, 69, 84, 32] ++ if r.status = .notfound then [48] else [49])))
      else if r.status = .notfound then .ret [if e.proto = .http then .http 404 [78, 111, 116, 32, 70, 111, 117, 110, 100, 13, 10] else .null]
      else .ret (r.shown.flatMap (getEntry e .get))
  | _ => .ret [.err .wrongNumArgs]

/-- The loop of `cmdMGET`, `/repo/src/cmds.c:473-494`, and its end; `n` is `count`. -/
def mgetLoop (e : Env) (kind : Kind) : List Bytes → List W → Nat → Prog (List W)
  | [], out, n => .ret (out ++ if e.proto = .memcache then [.raw [69, 78, 68, 13, 10]]
      else if e.proto = .postgres then pgEnd ([77, 71, 69, 84, 32] ++ u64toa n) else [])
  | key :: ks, out, n => .call (.load key false (some fun _ => none)) fun r =>
      mgetLoop e kind ks (out ++ if r.status = .notfound then (if e.proto = .resp then [.null] else [])
        else r.shown.flatMap (getEntry e kind)) (if r.status = .notfound then n else n + 1)

/-- The names of the columns of MGET and MGETS, `/repo/src/cmds.c:463-469`. -/
def mgetCols (kind : Kind) : List Bytes :=
  if kind = .mgets then [[107, 101, 121], [102, 108, 97, 103, 115], [99, 97, 115], valueCol] else [[107, 101, 121], valueCol]

/-- `cmdMGET`, `/repo/src/cmds.c:444-494`. -/
def cmdMGET (e : Env) (args : List Bytes) : Prog (List W) :=
  match args with
  | name :: key :: ks =>
    let kind : Kind := if argeq name [109, 103, 101, 116, 115] then .mgets else .mget
    mgetLoop e kind (key :: ks)
      (if e.proto = .resp then [.arr (key :: ks).length] else if e.proto = .postgres then [.pg (.desc (mgetCols kind))] else []) 0
  | _ => .ret [.err .wrongNumArgs]

/-- The loop of `cmdDEL`, `/repo/src/cmds.c:624-634`. -/
def delLoop (e : Env) : List Bytes → Nat → Prog (List W)
  | [], d =>
    match e.proto with
    | .memcache => .ret [.raw (if d = 0 then [78, 79, 84, 95, 70, 79, 85, 78, 68, 13, 10] else [68, 69, 76, 69, 84, 69, 68, 13, 10])]
    | .http => .ret [if d = 0 then .http 404 [78, 111, 116, 32, 70, 111, 117, 110, 100, 13, 10]
        else .http 200 [68, 101, 108, 101, 116, 101, 100, 13, 10]]
    | .postgres => .ret (pgEnd ([68, 69, 76, 32] ++ i64toa d))
    | _ => .ret [.int d]
  | key :: ks, d => .call (.delete key none) fun r => delLoop e ks (if r.status = .deleted then d + 1 else d)

/-- `cmdDEL`, `/repo/src/cmds.c:614-657`. -/
def cmdDEL (e : Env) (args : List Bytes) : Prog (List W) :=
  match args with
  | _ :: key :: ks => delLoop e (key :: ks) 0
  | _ => .ret [.err .wrongNumArgs]

/-- The loop of `cmdEXISTS`, `/repo/src/cmds.c:1074-1081`, and its end. -/
def existsLoop (e : Env) : List Bytes → Nat → Prog (List W)
  | [], d => .ret (if e.proto = .postgres then pgRow [101, 120, 105, 115, 116, 115] (i64toa d) [69, 88, 73, 83, 84, 83] else [.int d])
  | key :: ks, d => .call (.load key true none) fun r => existsLoop e ks (if r.status = .found then d + 1 else d)

/-- `cmdEXISTS`, `/repo/src/cmds.c:1063-1087`. -/
def cmdEXISTS (e : Env) (args : List Bytes) : Prog (List W) :=
  match args with
  | _ :: key :: ks => existsLoop e (key :: ks) 0
  | _ => .ret [.err .wrongNumArgs]

/-- The loop of `cmdTOUCH`, `/repo/src/cmds.c:1601-1612`, and its reply (1613-1625). -/
def touchLoop (e : Env) : List Bytes → Nat → Prog (List W)
  | [], d =>
    if e.proto = .memcache then
      .ret [.raw (if d > 0 then [84, 79, 85, 67, 72, 69, 68, 13, 10] else [78, 79, 84, 95, 70, 79, 85, 78, 68, 13, 10])]
    else .ret (if e.proto = .postgres then pgEnd ([84, 79, 85, 67, 72, 32] ++ i64toa d) else [.int d])
  | key :: ks, d => .call (.load key false none) fun r => touchLoop e ks (if r.status = .found then d + 1 else d)

/-- `cmdTOUCH`, `/repo/src/cmds.c:1590-1626`. -/
def cmdTOUCH (e : Env) (args : List Bytes) : Prog (List W) :=
  match args with
  | _ :: key :: ks => touchLoop e (key :: ks) 0
  | _ => .ret [.err .wrongNumArgs]

/-- The number shown by `ttl_entry`, `/repo/src/cmds.c:947-958`. -/
def ttlOf (e : Env) (pttl : Bool) (x : Spec.Item) : Int :=
  if x.expires > 0 then (x.expires - e.now).tdiv (if pttl then millisecond else second) else -1

/-- `cmdTTL` with `ttl_entry`, `/repo/src/cmds.c:941-1002`. -/
def cmdTTL (e : Env) (args : List Bytes) : Prog (List W) :=
  match args with
  | [name, key] => .call (.load key true (some fun _ => none)) fun r =>
      let pttl := argeq name [112, 116, 116, 108]
      if e.proto = .postgres then
        .ret (.pg (.desc [if pttl then [112, 116, 116, 108] else [116, 116, 108]]) ::
          ((if r.status = .notfound then [] else r.shown.map fun x => .pg (.row [i64toa (ttlOf e pttl x.2)])) ++
            pgEnd ((if pttl then [80, 84, 84, 76, 32] else [84, 84, 76, 32]) ++ if r.status = .notfound then [48] else [49])))
      else if r.status = .notfound then .ret (if e.proto = .resp then [.int (-2)] else [])
      else .ret (r.shown.map fun x => .int (ttlOf e pttl x.2))
  | _ => .ret [.err .wrongNumArgs]

/-- `cmdEXPIRE` with `expire_entry`, `/repo/src/cmds.c:1004-1058`. -/
def cmdEXPIRE (e : Env) (args : List Bytes) : Prog (List W) :=
  match args with
  | _ :: key :: secs :: _ =>
    match parseI64 secs with
    | none => .ret [.err .invalidInteger]
    | some s =>
      match (mulClamp s second).bind fun y => addClamp e.now y with
      | none => .ret [.undefined]
      | some t => .call (.load key false (some fun it => some ⟨it.value, it.flags, t⟩)) fun r =>
          let ok := r.status = .found
          if e.proto = .memcache then
            .ret [.raw (if ok then [84, 79, 85, 67, 72, 69, 68, 13, 10] else [78, 79, 84, 95, 70, 79, 85, 78, 68, 13, 10])]
          else if e.proto = .postgres then .ret (pgEnd ([69, 88, 80, 73, 82, 69, 32] ++ if ok then [49] else [48]))
          else .ret [.int (if ok then 1 else 0)]
  | _ => .ret [.err .wrongNumArgs]

/-- A number in its 64-bit form, signed or unsigned: `union delta` and the union of `get64ctx`, `/repo/src/cmds.c:1628-1643`. -/
structure Num64 where
  isunsigned : Bool
  val : Int
deriving DecidableEq, Repr

/-- Range of the signed or unsigned form. -/
def inRange (uns : Bool) (x : Int) : Bool := if uns then 0 ≤ x && x < 2 ^ 64 else -(2 ^ 63) ≤ x && x < 2 ^ 63

/-- The result stored by `__builtin_add_overflow` and `__builtin_sub_overflow`: reduced to the range. -/
def wrap (uns : Bool) (x : Int) : Int := if uns then x % 2 ^ 64 else (x + 2 ^ 63) % 2 ^ 64 - 2 ^ 63

/-- `get64`, `/repo/src/cmds.c:1645-1659`: parse the stored value. -/
def parse64 (uns : Bool) (t : Bytes) : Option Int := if uns then (parseU64 t).map Int.ofNat else parseI64 t

/-- `u64toa`/`i64toa` as used in `/repo/src/cmds.c:1711-1715`. -/
def text64 (uns : Bool) (x : Int) : Bytes := if uns then u64toa x.toNat else i64toa x

/-- "CLIENT_ERROR cannot increment or decrement non-numeric value", `/repo/src/cmds.c:1678`. -/
def nonNumericValue : Bytes :=
  [67, 76, 73, 69, 78, 84, 95, 69, 82, 82, 79, 82, 32, 99, 97, 110, 110, 111, 116, 32, 105, 110, 99, 114, 101, 109, 101, 110, 116, 32, 111, 114, 32, 100, 101, 99, 114, 101, 109, 101, 110, 116, 32, 110, 111, 110, 45, 110, 117, 109, 101, 114, 105, 99, 32, 118, 97, 108, 117, 101, 13, 10]

/-- "CLIENT_ERROR invalid numeric delta argument", `/repo/src/cmds.c:1791`. -/
def badDelta : Bytes :=
  [67, 76, 73, 69, 78, 84, 95, 69, 82, 82, 79, 82, 32, 105, 110, 118, 97, 108, 105, 100, 32, 110, 117, 109, 101, 114, 105, 99, 32, 100, 101, 108, 116, 97, 32, 97, 114, 103, 117, 109, 101, 110, 116, 13, 10]

/-- `execINCRDECR`, `/repo/src/cmds.c:1661-1770`, with the name `cmd`, between `pogocache_begin` and `pogocache_end`. -/
def execIncr (e : Env) (cmd key : Bytes) (delta : Int) (decr uns : Bool) : Prog (List W) :=
  .call (.load key false (some fun _ => none)) fun r =>
    let found := r.status = .found
    let ctx : Option Int × Int × Nat × Nat :=
      match r.shown with
      | [] => (some 0, 0, 0, 0)
      | x :: _ => (parse64 uns x.2.value, x.2.expires, x.2.flags, x.2.cas)
    match ctx with
    | (none, _, _, _) =>
      if e.proto = .memcache then .ret [.raw nonNumericValue] else .ret [.err .invalidInteger]
    | (some v, expires, flags, cas) =>
      if ¬ found ∧ e.proto = .memcache then .ret [.raw [78, 79, 84, 95, 70, 79, 85, 78, 68, 13, 10]]
      else
        let exact := if decr then v - delta else v + delta
        if !inRange uns exact ∧ e.proto ≠ .memcache then .ret [.err .overflow]
        else
          let new := wrap uns exact
          .call (.store { key, val := text64 uns new, expires, ttl := 0, cas, flags, keepttl := false, casop := false
                          nx := false, xx := false, lowmem := false, ask := none }) fun r =>
            if r.status = .nomem then .ret [.err .outOfMemory]
            else if r.status = .inserted ∨ r.status = .replaced then
              .ret (if e.proto = .memcache then [.raw (text64 uns new), .raw [13, 10]]
                else if e.proto = .postgres then pgRow valueCol (text64 uns new) cmd else [if uns then .uint new.toNat else .int new])
            else .ret [.failed]

/-- `cmdINCRDECRBY`, `/repo/src/cmds.c:1772-1809`. -/
def cmdINCRDECRBY (e : Env) (args : List Bytes) (decr : Bool) : Prog (List W) :=
  match args with
  | [name, key, d] =>
    let uns := name.head?.map lower = some 117
    match parse64 uns d with
    | none => if e.proto = .memcache then .ret [.raw badDelta] else .ret [.err .invalidInteger]
    | some delta => execIncr e (if decr then [68, 69, 67, 82, 66, 89] else [73, 78, 67, 82, 66, 89]) key delta decr uns
  | _ => .ret [.err .wrongNumArgs]

/-- `cmdINCR` and `cmdDECR`, `/repo/src/cmds.c:1811-1835`. -/
def cmdINCRDECR (e : Env) (args : List Bytes) (decr : Bool) : Prog (List W) :=
  match args with
  | [name, key] => execIncr e (if decr then [68, 69, 67, 82] else [73, 78, 67, 82]) key 1 decr (name.head?.map lower = some 117)
  | _ => .ret [.err .wrongNumArgs]

/-- `cmdAPPEND` with `append_entry`, `/repo/src/cmds.c:1847-1934`, between `pogocache_begin` and `pogocache_end`. -/
def cmdAPPEND (e : Env) (args : List Bytes) : Prog (List W) :=
  match args with
  | [name, key, val] =>
    let prepend := argeq name [112, 114, 101, 112, 101, 110, 100]
    let fin : Nat → Spec.Reply → Prog (List W) := fun len r =>
      if r.status = .nomem then .ret [.err .outOfMemory]
      else if r.status = .inserted ∨ r.status = .replaced then
        .ret (if e.proto = .memcache then [.raw [83, 84, 79, 82, 69, 68, 13, 10]]
          else if e.proto = .postgres then
            pgEnd ((if prepend then [80, 82, 69, 80, 69, 78, 68, 32] else [65, 80, 80, 69, 78, 68, 32]) ++ u64toa len)
          else [.int len])
      else .ret [.failed]
    .call (.load key false (some fun _ => none)) fun r =>
      if r.status = .notfound then
        if e.proto = .memcache then .ret [.raw [78, 79, 84, 95, 83, 84, 79, 82, 69, 68, 13, 10]]
        else .call (.store { key, val, expires := 0, ttl := 0, cas := 0, flags := 0, keepttl := false, casop := false
                             nx := false, xx := false, lowmem := false, ask := none }) (fin val.length)
      else
        let old : Spec.Item := (r.shown.head?.map (·.2)).getD ⟨[], 0, 0, 0⟩
        let out := if prepend then val ++ old.value else old.value ++ val
        if (out.length : Int) > maxArgSz then .ret [.err .tooLarge]
        else .call (.store { key, val := out, expires := old.expires, ttl := 0, cas := 0, flags := old.flags, keepttl := false
                             casop := false, nx := false, xx := false, lowmem := false, ask := none }) (fin out.length)
  | _ => .ret [.err .wrongNumArgs]

end Verif.Cmd
