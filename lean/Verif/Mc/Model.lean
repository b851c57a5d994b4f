import Verif.Resp.Model

/-!
Model of the memcache parser, `/repo/src/memcache.c`.

`.ub` stands for: the parser uses an entry of `args->bufs` at or behind `args->len` (nothing, or what an earlier request left there),
or makes an argument of length 2^64-1.  Errors do not close a memcache connection (`/repo/src/conn.c:124-129`): they are returned as
requests, together with the number `mc_n` of bytes that are skipped.
-/

namespace Verif.Mc

open Verif.Num Verif.Resp

/-- Error replies: "ERROR", `CLIENT_ERROR_BAD_FORMAT` and `CLIENT_ERROR_BAD_CHUNK`, `/repo/src/memcache.c`, `/repo/src/parse.h`. -/
inductive Err where
  | error | format | chunk
deriving DecidableEq, Repr

/-- What is handed to `evdata`: a command (arguments and the flag `noreply`), or an error.  A line without words is answered like
"ERROR" (`/repo/src/conn.c:140-150`). -/
inductive Req where
  | cmd (args : List Bytes) (noreply : Bool)
  | bad (e : Err)
deriving DecidableEq, Repr

/-- `mc_valid_key`, `/repo/src/memcache.c:27-39`. -/
def validKey (k : Bytes) : Bool := !(k.length = 0 || k.length > 250) && k.all fun b => !(b ≤ 32 || b = 0x7F)

/-- The loop of `parse_memcache_telnet`, `/repo/src/memcache.c:63-92`: offset, arguments, the word begun, and `last`. -/
def lineLoop : Bytes → Nat → List Bytes → Bytes → UInt8 → PR (List Bytes × Nat)
  | [], _, _, _, _ => .more
  | ch :: s, i, args, w, last =>
    if ch = 32 then lineLoop s (i + 1) (args ++ [w]) [] last
    else if ch = 10 then
      if last = 13 then
        if w = [] then .ub
        else if w.length - 1 > 0 then .got (args ++ [w.take (w.length - 1)], i + 1) else .got (args, i + 1)
      else if w.length > 0 then .got (args ++ [w], i + 1) else .got (args, i + 1)
    else lineLoop s (i + 1) args (w ++ [ch]) ch

/-- `parse_memcache_telnet`, `/repo/src/memcache.c:63-92`. -/
def parseLine (s : Bytes) : PR (List Bytes × Nat) := lineLoop s 0 [] [] 0

/-- Reading `args->bufs[i]`. -/
def arg (args : List Bytes) (i : Nat) : PR Bytes :=
  match args[i]? with
  | some a => .got a
  | none => .ub

/-- `enum mc_cmd`, `/repo/src/memcache.c:41-53`. -/
inductive Cmd where
  | set | add | replace | append | prepend | cas | incr | decr | flushAll | delete | touch | verbosity
  | get | gets | gat | gats | version | stats | quit
deriving DecidableEq, Repr

/-- The lookup, `/repo/src/memcache.c:174-194`. -/
def lookup (w : Bytes) : Option Cmd :=
  if w = [115, 101, 116] then some .set
  else if w = [97, 100, 100] then some .add
  else if w = [99, 97, 115] then some .cas
  else if w = [114, 101, 112, 108, 97, 99, 101] then some .replace
  else if w = [103, 101, 116] then some .get
  else if w = [100, 101, 108, 101, 116, 101] then some .delete
  else if w = [97, 112, 112, 101, 110, 100] then some .append
  else if w = [112, 114, 101, 112, 101, 110, 100] then some .prepend
  else if w = [103, 101, 116, 115] then some .gets
  else if w = [105, 110, 99, 114] then some .incr
  else if w = [100, 101, 99, 114] then some .decr
  else if w = [116, 111, 117, 99, 104] then some .touch
  else if w = [103, 97, 116] then some .gat
  else if w = [103, 97, 116, 115] then some .gats
  else if w = [102, 108, 117, 115, 104, 95, 97, 108, 108] then some .flushAll
  else if w = [115, 116, 97, 116, 115] then some .stats
  else if w = [118, 101, 114, 115, 105, 111, 110] then some .version
  else if w = [113, 117, 105, 116] then some .quit
  else if w = [118, 101, 114, 98, 111, 115, 105, 116, 121] then some .verbosity
  else none

/-- `is_mc_store_cmd`, `/repo/src/memcache.c:55-57`. -/
def Cmd.isStore : Cmd → Bool
  | .set | .add | .replace | .append | .prepend | .cas => true
  | _ => false

/-- `is_mc_noreplyable`, `/repo/src/memcache.c:59-61`. -/
def Cmd.noreplyable : Cmd → Bool
  | .set | .add | .replace | .append | .prepend | .cas | .incr | .decr | .flushAll | .delete | .touch | .verbosity => true
  | _ => false

/-- The value behind the line, `/repo/src/memcache.c:143-153,252-262`: `n` bytes of line, `x` bytes of value.  `k` makes the command
from the value. -/
def withValue (data : Bytes) (n x : Nat) (k : Bytes → Req) : PR (Req × Nat) :=
  if data.length - n < x + 2 then .more
  else if data[n + x]? ≠ some 13 ∨ data[n + x + 1]? ≠ some 10 then .got (.bad .chunk, n + x + 2)
  else .got (k ((data.drop n).take x), n + x + 2)

/-- The fast path for `set` with five words and flags "0", `/repo/src/memcache.c:121-165`. -/
def setFive (data : Bytes) (n : Nat) (key exp len : Bytes) : PR (Req × Nat) :=
  if !validKey key then .got (.bad (if key.length = 0 then .error else .format), n)
  else if exp ≠ [48] ∧ parseI64 exp = none then .got (.bad .format, n)
  else
    match parseI64 len with
    | none => .got (.bad .format, n)
    | some x =>
      if x < 0 ∨ x > maxArgSz then .got (.bad .format, n)
      else withValue data n x.toNat fun v =>
        .cmd ([[115, 101, 116], key, v] ++ if exp ≠ [48] then [[101, 120], exp] else []) false

/-- The reconstructed command, `/repo/src/memcache.c:264-302`. -/
def storeArgs (cmd : Cmd) (key v flags exp cas : Bytes) : List Bytes :=
  match cmd with
  | .append => [[97, 112, 112, 101, 110, 100], key, v]
  | .prepend => [[112, 114, 101, 112, 101, 110, 100], key, v]
  | _ =>
    [[115, 101, 116], key, v] ++ (if flags ≠ [48] then [[102, 108, 97, 103, 115], flags] else []) ++
      (if exp ≠ [48] then [[101, 120], exp] else []) ++
      (if cmd = .add then [[110, 120]] else if cmd = .replace then [[120, 120]] else []) ++
      (if cmd = .cas then [[99, 97, 115], cas] else [])

/-- Storage commands from the label `set_plus` on, `/repo/src/memcache.c:215-302`.  The arity check before the label (lines 209-214)
never holds: a command cannot both be and not be `cas`. -/
def storePlus (data : Bytes) (n : Nat) (cmd : Cmd) (args : List Bytes) (noreply : Bool) : PR (Req × Nat) :=
  (arg args 1).bind fun key =>
  if !validKey key then .got (.bad .format, n) else
  (arg args 2).bind fun flags =>
  if (parseI64 flags).all (· < 0) then .got (.bad .format, n) else
  (arg args 3).bind fun exp =>
  if parseI64 exp = none then .got (.bad .format, n) else
  (arg args 4).bind fun len =>
  match parseI64 len with
  | none => .got (.bad .format, n)
  | some x =>
    if x < 0 ∨ x > maxArgSz then .got (.bad .format, n) else
    let go := fun cas => withValue data n x.toNat fun v => .cmd (storeArgs cmd key v flags exp cas) noreply
    if cmd = .cas then
      (arg args 5).bind fun cas => if parseU64 cas = none then .got (.bad .format, n) else go cas
    else go []

/-- The other commands, `/repo/src/memcache.c:303-472`. -/
def other (n : Nat) (cmd : Cmd) (args : List Bytes) (noreply : Bool) : PR (Req × Nat) :=
  match cmd with
  | .get =>
    if args.length = 1 then .got (.bad .error, n)
    else if !(args.tail.all validKey) then .got (.bad .format, n)
    else .got (.cmd ([109, 103, 101, 116] :: args.tail) noreply, n)
  | .delete =>
    if args.length = 1 then .got (.bad .error, n)
    else if args.length > 2 then .got (.bad .format, n)
    else (arg args 1).bind fun key =>
      if !validKey key then .got (.bad .format, n) else .got (.cmd [[100, 101, 108], key] noreply, n)
  | .gets =>
    if args.length = 1 then .got (.bad .error, n)
    else if !(args.tail.all validKey) then .got (.bad .format, n)
    else .got (.cmd ([109, 103, 101, 116, 115] :: args.tail) noreply, n)
  | .gat | .gats =>
    if args.length ≤ 2 then .got (.bad .error, n)
    else (arg args 2).bind fun x =>
      if parseI64 x = none then .got (.bad .format, n)
      else if !((args.drop 2).all validKey) then .got (.bad .format, n)
      else .got (.cmd ((if cmd = .gat then [103, 97, 116] else [103, 97, 116, 115]) :: args.tail) noreply, n)
  | .stats => .got (.cmd ([115, 116, 97, 116, 115] :: args.tail) noreply, n)
  | .incr =>
    if args.length ≠ 3 then .got (.bad .error, n)
    else (arg args 1).bind fun key => (arg args 2).bind fun x =>
      if !validKey key then .got (.bad .format, n) else .got (.cmd [[117, 105, 110, 99, 114, 98, 121], key, x] noreply, n)
  | .decr =>
    if args.length ≠ 3 then .got (.bad .error, n)
    else (arg args 1).bind fun key => (arg args 2).bind fun x =>
      if !validKey key then .got (.bad .format, n) else .got (.cmd [[117, 100, 101, 99, 114, 98, 121], key, x] noreply, n)
  | .touch =>
    if args.length ≠ 3 then .got (.bad .error, n)
    else (arg args 1).bind fun key => (arg args 2).bind fun x =>
      if !validKey key then .got (.bad .format, n) else .got (.cmd [[101, 120, 112, 105, 114, 101], key, x] noreply, n)
  | .flushAll =>
    if args.length > 2 then .got (.bad .error, n)
    else if args.length = 2 then (arg args 1).bind fun x =>
      .got (.cmd [[102, 108, 117, 115, 104, 97, 108, 108], [100, 101, 108, 97, 121], x] noreply, n)
    else .got (.cmd [[102, 108, 117, 115, 104, 97, 108, 108]] noreply, n)
  | .quit => .got (.cmd [[113, 117, 105, 116]] true, n)
  | .version => .got (.cmd [[118, 101, 114, 115, 105, 111, 110]] false, n)
  | .verbosity =>
    if args.length > 2 then .got (.bad .error, n)
    -- the name is appended with length 7 ("verbosi")
    else (arg args 1).bind fun x => .got (.cmd [[118, 101, 114, 98, 111, 115, 105], x] noreply, n)
  | _ => .got (.bad .error, n)

/-- `parse_memcache`, `/repo/src/memcache.c:94-476`. -/
def parseMc (data : Bytes) : PR (Req × Nat) :=
  (parseLine data).bind fun (args, n) =>
  match args with
  | [] => .got (.bad .error, n)
  | w :: rest =>
    if args.length = 2 ∧ w = [103, 101, 116] then
      (arg args 1).bind fun key =>
        if !validKey key then .got (.bad (if key.length = 0 then .error else .format), n)
        else .got (.cmd [[109, 103, 101, 116], key] false, n)
    else if args.length = 5 ∧ w = [115, 101, 116] then
      (arg args 1).bind fun key => (arg args 2).bind fun flags => (arg args 3).bind fun exp => (arg args 4).bind fun len =>
        if flags = [48] then setFive data n key exp len else storePlus data n .set args false
    else
      match lookup w with
      | none => .got (.bad .error, n)
      | some cmd =>
        let nr := cmd.noreplyable && decide ((w :: rest).getLast? = some [110, 111, 114, 101, 112, 108, 121])
        let args := if nr then args.dropLast else args
        if cmd.isStore then storePlus data n cmd args nr else other n cmd args nr

end Verif.Mc
