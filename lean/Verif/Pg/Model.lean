import Verif.Num.Model
import Verif.Cmd.Model
import Verif.Http.Model

/-!
Model of the Postgres protocol, `/repo/src/postgres.c`.

Simplifications: the names of prepared statements and portals are looked up in association lists instead of the hash map of
`/repo/src/hashmap.c`; texts of error messages of the parsers are left out; the ownership of argument buffers is the subject of
`Verif.Args`.
-/

namespace Verif.Pg

open Verif.Num Verif.Resp
open Verif.Http (upTo)

/-! ### Strings -/

/-- The loop of `arg_append_unescape_simplestr`, `/repo/src/postgres.c:151-156`: `i` runs up to the length of the *output* `out`. -/
def simpleLoop (str : Bytes) : Nat → Nat → Bytes → Bytes
  | 0, _, out => out
  | f + 1, i, out =>
    if i < out.length then
      let j := if str.getD i 0 = 39 ∧ str.getD (i + 1) 39 = 39 then i + 1 else i
      simpleLoop str f (j + 1) (out ++ [str.getD j 0])
    else out

/-- `arg_append_unescape_simplestr`, `/repo/src/postgres.c:146-159`. -/
def unescapeSimple (str : Bytes) : Bytes := simpleLoop str (str.length + 1) 0 []

/-- `hextoks`, `/repo/src/postgres.c:326-331` (the rest of the table is zero). -/
def hextok (b : UInt8) : Nat :=
  if 48 ≤ b ∧ b ≤ 57 then b.toNat - 48 else if 65 ≤ b ∧ b ≤ 70 then b.toNat - 55 else if 97 ≤ b ∧ b ≤ 102 then b.toNat - 87 else 0

/-- `decode_hex`, `/repo/src/postgres.c:334-337`. -/
def decodeHex (a b c d : UInt8) : Nat := (hextok a <<< 12) ||| (hextok b <<< 8) ||| (hextok c <<< 4) ||| hextok d

/-- `is_surrogate`, `/repo/src/postgres.c:339-341`. -/
def isSurrogate (cp : Nat) : Bool := cp > 55296 && cp < 57344

/-- `decode_codepoint`, `/repo/src/postgres.c:343-347`. -/
def decodeCodepoint (cp1 cp2 : Nat) : Nat :=
  if cp1 > 55296 ∧ cp1 < 56320 ∧ cp2 > 56320 ∧ cp2 < 57344 then ((cp1 - 55296) <<< 10) ||| ((cp2 - 56320) + 65536) else 65533

/-- `encode_codepoint`, `/repo/src/postgres.c:349-371`. -/
def encodeCodepoint (cp : Nat) : Bytes :=
  if cp < 128 then [UInt8.ofNat cp]
  else if cp < 2048 then [UInt8.ofNat (192 ||| (cp >>> 6)), UInt8.ofNat (128 ||| (cp &&& 63))]
  else
    let cp := if cp > 1114111 ∨ isSurrogate cp then 65533 else cp
    if cp < 65536 then [UInt8.ofNat (224 ||| (cp >>> 12)), UInt8.ofNat (128 ||| ((cp >>> 6) &&& 63)), UInt8.ofNat (128 ||| (cp &&& 63))]
    else [UInt8.ofNat (240 ||| (cp >>> 18)), UInt8.ofNat (128 ||| ((cp >>> 12) &&& 63)), UInt8.ofNat (128 ||| ((cp >>> 6) &&& 63)),
      UInt8.ofNat (128 ||| (cp &&& 63))]

/-- The macro `for_each_utf8`, `/repo/src/postgres.c:377-420`, which appends every byte to the result (`arg_append_unescape_str`,
`/repo/src/postgres.c:422-432`). -/
def unescape : Nat → Bytes → Bytes
  | 0, _ => []
  | _ + 1, [] => []
  | f + 1, b :: s =>
    if b ≠ 92 then b :: unescape f s
    else
      match s with
      | [] => []
      | c :: s =>
        if c = 92 then 92 :: unescape f s
        else if c = 47 then 47 :: unescape f s
        else if c = 98 then 8 :: unescape f s
        else if c = 102 then 12 :: unescape f s
        else if c = 110 then 10 :: unescape f s
        else if c = 114 then 13 :: unescape f s
        else if c = 116 then 9 :: unescape f s
        else if c = 34 then 34 :: unescape f s
        else if c = 117 then
          match s with
          | h1 :: h2 :: h3 :: h4 :: s =>
            let cp := decodeHex h1 h2 h3 h4
            if isSurrogate cp then
              match s with
              | 92 :: 117 :: g1 :: g2 :: g3 :: g4 :: t => encodeCodepoint (decodeCodepoint cp (decodeHex g1 g2 g3 g4)) ++ unescape f t
              | _ => encodeCodepoint cp ++ unescape f s
            else encodeCodepoint cp ++ unescape f s
          | _ => []
        else unescape f s

/-! ### The set of parameter numbers -/

/-- `struct pmap`, `/repo/src/postgres.c:435-440`. -/
structure Pmap where
  count : Nat
  buckets : List Nat
deriving Repr, DecidableEq

/-- `pmap_init`, `/repo/src/postgres.c:442-446`. -/
def Pmap.init : Pmap := ⟨0, List.replicate 8 0⟩

/-- `pmap_insert0`, `/repo/src/postgres.c:454-464`; the fuel is the number of buckets.  `none`: no free bucket (the loop does not end). -/
def insert0Loop (buckets : List Nat) (p : Nat) : Nat → Nat → Option (List Nat)
  | 0, _ => none
  | f + 1, i => if buckets.getD i 0 = 0 then some (buckets.set i p) else insert0Loop buckets p f ((i + 1) % buckets.length)

/-- `pmap_insert0`, `/repo/src/postgres.c:454-464`, for any hash function in place of `mix13`. -/
def insert0 (hash : Nat → Nat) (buckets : List Nat) (p : Nat) : Option (List Nat) :=
  insert0Loop buckets p buckets.length (hash p % buckets.length)

/-- `pmap_grow`, `/repo/src/postgres.c:466-481`. -/
def Pmap.grow (hash : Nat → Nat) (m : Pmap) : Option Pmap :=
  (m.buckets.foldlM (fun bs p => if p ≠ 0 then insert0 hash bs p else some bs) (List.replicate (m.buckets.length * 2) 0)).map fun bs =>
    ⟨m.count, bs⟩

/-- `pmap_insert`, `/repo/src/postgres.c:483-490`. -/
def Pmap.insert (hash : Nat → Nat) (m : Pmap) (p : Nat) : Option Pmap :=
  (if m.count = m.buckets.length / 2 + m.buckets.length / 4 then m.grow hash else some m).bind fun m =>
    (insert0 hash m.buckets p).map fun bs => ⟨m.count + 1, bs⟩

/-- `pmap_exists`, `/repo/src/postgres.c:492-504`; `none`: the loop does not end. -/
def existsLoop (buckets : List Nat) (p : Nat) : Nat → Nat → Option Bool
  | 0, _ => none
  | f + 1, i =>
    if buckets.getD i 0 = 0 then some false
    else if buckets.getD i 0 = p then some true
    else existsLoop buckets p f ((i + 1) % buckets.length)

def Pmap.exists (hash : Nat → Nat) (m : Pmap) (p : Nat) : Option Bool :=
  existsLoop m.buckets p m.buckets.length (hash p % m.buckets.length)

/-- The check that no parameter is missing, `/repo/src/postgres.c:652-660`. -/
def checkParams (hash : Nat → Nat) (m : Pmap) : Nat → Option Bool
  | 0 => some true
  | k + 1 =>
    match checkParams hash m k with
    | some true => m.exists hash (k + 1)
    | r => r

/-! ### Queries -/

/-- An argument of a query with its entry in `argtypes`: the letter A or P, plus 1 if it is joined to the argument before. -/
structure Tok where
  text : Bytes
  param : Bool
  join : Bool
deriving Repr, DecidableEq

/-- The loop over a simple string, `/repo/src/postgres.c:532-543`, from behind its first quote: contents, whether a quote is doubled, and
what follows the last quote. -/
def simpleStr : Bytes → Option (Bytes × Bool × Bytes)
  | [] => none
  | 39 :: 39 :: s => (simpleStr s).map fun x => (39 :: 39 :: x.1, true, x.2.2)
  | 39 :: s => some ([], false, s)
  | b :: s => (simpleStr s).map fun x => (b :: x.1, x.2.1, x.2.2)

/-- The loop over an escaped string, `/repo/src/postgres.c:585-598`; `raw` are the bytes since the first quote. -/
def escStr : Bytes → Bytes → Option (Bytes × Bytes)
  | [], _ => none
  | b :: s, raw =>
    if b = 39 ∧ (raw.reverse.takeWhile (· = 92)).length % 2 = 0 then some (raw, s) else escStr s (raw ++ [b])

/-- A byte that ends a keyword, `/repo/src/postgres.c:624-629`. -/
def endsWord (b : UInt8) : Bool := isSpace b || b = 59 || b = 39 || b = 34 || b = 36

/-- Whether something follows without a blank (`*p && !isspace(*p)`). -/
def sticks (s : Bytes) : Bool :=
  match s with
  | [] => false
  | b :: _ => !isSpace b

/-- The loop of `parse_query_args`, `/repo/src/postgres.c:522-650`: the arguments and the set of parameters.  Outer `none`: an endless
loop in the set; inner `none`: an error.  `esc` keeps its value from string to string, as in the code. -/
def tokens (hash : Nat → Nat) : Nat → Bytes → Bool → Bool → List Tok → Pmap → Option (Option (List Tok × Pmap))
  | 0, _, _, _, _, _ => some none
  | f + 1, s, join, esc, acc, m =>
    match s with
    | [] => some (some (acc, m))
    | b :: s =>
      if b = 59 then (if s.all (· = 59) then some (some (acc, m)) else some none)
      else if b = 34 then some none
      else if b = 39 then
        match simpleStr s with
        | none => some none
        | some (raw, esc', s) =>
          tokens hash f s (sticks s) esc' (acc ++ [⟨if esc' then unescapeSimple raw else raw, false, join⟩]) m
      else if b = 36 then
        let digits := s.takeWhile fun c => 48 ≤ c && c ≤ 57
        if digits = [] then some none
        else
          let n := digitsVal 0 digits
          if n = 0 ∨ n > 65535 then some none
          else
            match m.insert hash n with
            | none => none
            | some m => tokens hash f (s.drop digits.length) (sticks (s.drop digits.length)) esc (acc ++ [⟨36 :: digits, true, join⟩]) m
      else if (b = 69 ∨ b = 101) ∧ s.head? = some 39 then
        match escStr s.tail [] with
        | none => some none
        | some (raw, s) =>
          let esc' := esc || raw.contains 92
          tokens hash f s (sticks s) esc' (acc ++ [⟨if esc' then unescape (raw.length + 1) raw else raw, false, join⟩]) m
      else if isSpace b then tokens hash f s join esc acc m
      else
        let w := b :: s.takeWhile fun c => !endsWord c
        let rest := s.drop (w.length - 1)
        tokens hash f (rest.dropWhile isSpace) (sticks rest) esc (acc ++ [⟨w, false, join⟩]) m

/-- `parse_query_args` and `parse_cache_query_args`, `/repo/src/postgres.c:506-688`: the arguments and the number of parameters. -/
def parseQuery (hash : Nat → Nat) (q : Bytes) : Option (Option (List Tok × Nat)) :=
  let q := q.dropWhile isSpace
  (tokens hash (q.length + 1) q false false [] Pmap.init).bind fun
    | none => some none
    | some (ts, m) =>
      (checkParams hash m m.count).bind fun ok => some (if ok then some (ts, m.count) else none)

/-! ### Messages -/

/-- A prepared statement, `struct pg_statement`, `/repo/src/postgres.h:18-23`. -/
structure Stmt where
  nparams : Nat
  toks : List Tok
deriving Repr, DecidableEq

/-- A portal, `struct pg_portal`, `/repo/src/postgres.h:25-29`. -/
structure Portal where
  stmt : Bytes
  params : List Bytes
deriving Repr, DecidableEq

/-- `struct pg`, `/repo/src/postgres.h:31-55`. -/
structure State where
  error : Bool
  emptyQuery : Bool
  parse : Bool
  bind : Bool
  execute : Bool
  describe : Bool
  sync : Bool
  close : Bool
  ssl : Bool
  auth : Bool
  startup : Bool
  ready : Bool
  bytea : Bool
  statements : List (Bytes × Stmt)
  portals : List (Bytes × Portal)
  desc : Bytes
deriving Repr, DecidableEq

/-- `pg_new`, `/repo/src/postgres.c:201-206`. -/
def State.new : State := ⟨false, false, false, false, false, false, false, false, false, false, false, false, false, [], [], []⟩

/-- `read_i32`, `/repo/src/postgres.c:57-62`. -/
def readI32 (a b c d : UInt8) : Int :=
  let n := a.toNat * 16777216 + b.toNat * 65536 + c.toNat * 256 + d.toNat
  if n < 2147483648 then n else (n : Int) - 4294967296

/-- `read_i16` as unsigned number, `/repo/src/postgres.c:71-74`. -/
def readU16 (a b : UInt8) : Nat := a.toNat * 256 + b.toNat

/-- `parse_int16`, `/repo/src/postgres.c:112-119`. -/
def int16 : Bytes → Option (Nat × Bytes)
  | a :: b :: s => some (readU16 a b, s)
  | _ => none

/-- `parse_cstr`, `/repo/src/postgres.c:95-110`. -/
def cstr (s : Bytes) : Option (Bytes × Bytes) := upTo 0 s

/-- What a message results in: -1 (the connection is closed), or arguments and the new state. -/
inductive MRes where
  | fail
  | hang
  | ok (args : List Bytes) (pg : State)

/-- `parseQ`, `/repo/src/postgres.c:690-715`. -/
def parseQ (hash : Nat → Nat) (pg : State) (s : Bytes) : MRes :=
  match cstr s with
  | some (q, []) =>
    match parseQuery hash q with
    | none => .hang
    | some none => .ok [] { pg with error := true }
    | some (some (ts, n)) =>
      if n > 0 then .ok [] { pg with error := true }
      else if ts = [] then .ok [] { pg with emptyQuery := true }
      else .ok (ts.map (·.text)) pg
  | _ => .fail

/-- `parseP`, `/repo/src/postgres.c:717-760`. -/
def parseP (hash : Nat → Nat) (pg : State) (s : Bytes) : MRes :=
  match cstr s with
  | none => .fail
  | some (name, s) =>
    match cstr s with
    | none => .fail
    | some (q, s) =>
      match int16 s with
      | none => .fail
      | some (n, s) =>
        if s.length ≠ 4 * n then .fail
        else if name.length ≥ 64 then .ok [] { pg with error := true }
        else
          match parseQuery hash q with
          | none => .hang
          | some none => .ok [] { pg with error := true }
          | some (some (ts, n)) => .ok [] { pg with parse := true, statements := (name, ⟨n, ts⟩) :: pg.statements }

/-- `portal_get` and `statement_get`, `/repo/src/postgres.c:286-324`. -/
def lookupName {α : Type} (m : List (Bytes × α)) (name : Bytes) : Option α := if name.length ≥ 64 then none else m.lookup name

/-- `write_i32`, `/repo/src/postgres.c:64-69`. -/
def writeI32 (n : Nat) : Bytes := [UInt8.ofNat (n / 16777216), UInt8.ofNat (n / 65536), UInt8.ofNat (n / 256), UInt8.ofNat n]

/-- `write_i16`, `/repo/src/postgres.c:76-79`. -/
def writeI16 (n : Nat) : Bytes := [UInt8.ofNat (n / 256), UInt8.ofNat n]

/-- `pg->oid`, `/repo/src/postgres.c:29-30, 204`: BYTEAOID or TEXTOID. -/
def State.oid (pg : State) : Nat := if pg.bytea then 17 else 25

/-- The description of a portal, `/repo/src/postgres.c:788-815`. -/
def descPortal (oid n : Nat) : Bytes :=
  84 :: (writeI32 (6 + n * 19) ++ writeI16 n ++ (List.replicate n ([0] ++ writeI32 0 ++ writeI16 0 ++ writeI32 oid ++ writeI16 65535 ++ writeI32 4294967295 ++ writeI16 0)).flatten)

/-- The description of a statement, `/repo/src/postgres.c:826-846`. -/
def descStmt (oid n : Nat) : Bytes := 116 :: (writeI32 (6 + n * 4) ++ writeI16 n ++ (List.replicate n (writeI32 oid)).flatten)

/-- `parseD`, `/repo/src/postgres.c:762-848`. -/
def parseD (pg : State) (s : Bytes) : MRes :=
  if pg.describe then .fail
  else
    match s with
    | [] => .fail
    | t :: s =>
      match cstr s with
      | some (name, []) =>
        if t = 80 ∨ t = 81 then
          match lookupName pg.portals name with
          | none => .ok [] { pg with error := true }
          | some p => .ok [] { pg with desc := descPortal pg.oid p.params.length }
        else if t = 83 then
          match lookupName pg.statements name with
          | none => .ok [] { pg with error := true }
          | some p => .ok [] { pg with desc := descStmt pg.oid p.nparams, describe := true }
        else .ok [] { pg with error := true }
      | _ => .fail

/-- The loop over the formats, `/repo/src/postgres.c:877-884`: `none` is -1, `some none` the error. -/
def formats : Nat → Bytes → Option (Option Bytes)
  | 0, s => some (some s)
  | n + 1, s =>
    match int16 s with
    | none => none
    | some (x, s) => if x ≠ 0 ∧ x ≠ 1 then some none else formats n s

/-- The loop over the parameters, `/repo/src/postgres.c:887-895`. -/
def params : Nat → Bytes → Option (List Bytes × Bytes)
  | 0, s => some ([], s)
  | n + 1, a :: b :: c :: d :: s =>
    let len := (readI32 a b c d).toNat
    if s.length < len then none else (params n (s.drop len)).map fun x => (s.take len :: x.1, x.2)
  | _ + 1, _ => none

/-- `parseB`, `/repo/src/postgres.c:850-931`. -/
def parseB (pg : State) (s : Bytes) : MRes :=
  match cstr s with
  | none => .fail
  | some (portal, s) =>
    match cstr s with
    | none => .fail
    | some (stmt, s) =>
      match int16 s with
      | none => .fail
      | some (nf, s) =>
        match formats (if nf < 32768 then nf else 0) s with
        | none => .fail
        | some none => .ok [] { pg with error := true }
        | some (some s) =>
          match int16 s with
          | none => .fail
          | some (np, s) =>
            match params np s with
            | none => .fail
            | some (ps, s) =>
              match int16 s with
              | none => .fail
              | some (nr, s) =>
                if s.length ≠ 2 * nr then .fail
                else if portal.length ≥ 64 then .ok [] { pg with error := true }
                else if stmt.length ≥ 64 then .ok [] { pg with error := true }
                else .ok [] { pg with bind := true, portals := (portal, ⟨stmt, ps⟩) :: pg.portals }

/-- The text of an argument, with the value if it is a parameter, `/repo/src/postgres.c:985-1006`. -/
def Tok.arg (ps : List Bytes) (t : Tok) : Option Bytes :=
  if t.param then
    match t.text with
    | 36 :: n =>
      match parseU64 n with
      | none => none
      | some x => if x = 0 ∨ x > 65535 then none else ps[x - 1]?
    | _ => none
  else some t.text

/-- The loop of `parseE`, `/repo/src/postgres.c:979-1020`; `none` is `internal_error` (or the failed assertion in line 1014). -/
def fill (ps : List Bytes) : List Tok → List Bytes → Option (List Bytes)
  | [], targs => some targs
  | t :: ts, targs =>
    match t.arg ps with
    | none => none
    | some a =>
      if t.join then
        match targs.getLast? with
        | none => none
        | some l => fill ps ts (targs.dropLast ++ [l ++ a])
      else fill ps ts (targs ++ [a])

/-- `parseE`, `/repo/src/postgres.c:945-1034`. -/
def parseE (pg : State) (s : Bytes) : MRes :=
  match cstr s with
  | some (name, [_, _, _, _]) =>
    match lookupName pg.portals name with
    | none => .ok [] { pg with error := true }
    | some portal =>
      match lookupName pg.statements portal.stmt with
      | none => .ok [] { pg with error := true }
      | some stmt =>
        if stmt.nparams ≠ portal.params.length then .ok [] { pg with error := true }
        else
          match fill portal.params stmt.toks [] with
          | none => .ok [] { pg with error := true }
          | some args => .ok args { pg with execute := true }
  | _ => .fail

/-- `parsep`, `/repo/src/postgres.c:1049-1063`; `password` is the configured one, empty if there is none. -/
def parsep (password : Bytes) (pg : State) (s : Bytes) : MRes :=
  match cstr s with
  | some (w, []) => if w ≠ password then .fail else .ok [] { pg with auth := true }
  | _ => .fail

/-- The strings of a startup message, `/repo/src/postgres.c:1127-1151`: whether the encoding is refused.  `name` is the name waiting for its
value, `enc` the value of `client_encoding`, `w` the bytes since the last NUL. -/
def startupLoop : Bytes → Bytes → Option Bytes → Bytes → Bytes
  | [], _, _, enc => enc
  | b :: s, w, name, enc =>
    if b = 0 then
      if w ≠ [] then
        match name with
        | some n => startupLoop s [] none (if n = [99, 108, 105, 101, 110, 116, 95, 101, 110, 99, 111, 100, 105, 110, 103] then w else enc)
        | none => startupLoop s [] (some w) enc
      else startupLoop s [] name enc
    else startupLoop s (w ++ [b]) name enc

/-- A message: with a magic number, with a type, or with a type and a length below 4 (then the length without itself is negative; the parsers
of the known messages fail). -/
inductive Msg where
  | magic (code : Nat) (payload : Bytes)
  | typed (t : UInt8) (payload : Bytes)
  | short (t : UInt8)
deriving Repr, DecidableEq

/-- The types known to `parse_message`, `/repo/src/postgres.c:1079-1103`. -/
def known : List UInt8 := [81, 80, 88, 69, 112, 68, 66, 83]

/-- How the data is divided into messages: `parse_message` and `parse_magic` up to the call of the parser, `/repo/src/postgres.c:1065-1078,
1178-1199`.  A length of -1 gives 0 for an unknown message (`msglen+5` is 0) and an error for the others, as does a length of 3. -/
def frame : Bytes → PR (Msg × Nat)
  | [] => .more
  | 0 :: a :: b :: c :: s =>
    let n := readI32 0 a b c
    if n > 65536 then .err
    else if (s.length + 4 : Int) < n then .more
    else if n < 8 then .err
    else
      match s with
      | d :: e :: f :: g :: s => .got (.magic (d.toNat * 16777216 + e.toNat * 65536 + f.toNat * 256 + g.toNat) (s.take (n.toNat - 8)), n.toNat)
      | _ => .more
  | 0 :: _ => .more
  | t :: a :: b :: c :: d :: s =>
    let n := readI32 a b c d
    if n < -1 then .more
    else if n = -1 then (if t ∈ known then .err else .more)
    else if (s.length + 4 : Int) < n then .more
    else if n < 4 then (if n = 3 then .err else .got (.short t, n.toNat + 1))
    else .got (.typed t (s.take (n.toNat - 4)), n.toNat + 1)
  | _ :: _ => .more

/-- The parsers of the messages, `/repo/src/postgres.c:1079-1110, 1200-1219, 1223-1238`. -/
def handle (hash : Nat → Nat) (password : Bytes) (pg : State) (m : Msg) : MRes :=
  let pg := { pg with error := false }
  match m with
  | .magic code s =>
    if code = 0x04D2162F then .ok [] { pg with ssl := true }
    else if code = 0x00030000 then
      let enc := startupLoop s [] none []
      if enc ≠ [] ∧ enc ≠ [85, 84, 70, 56] then .fail else .ok [] { pg with startup := true }
    else .fail
  | .short t => if t ∈ known then .fail else .ok [] { pg with error := true }
  | .typed t s =>
    if t = 81 then parseQ hash pg s
    else if t = 80 then parseP hash pg s
    else if t = 88 then (if s = [] then .ok [] { pg with close := true } else .fail)
    else if t = 69 then parseE pg s
    else if t = 112 then parsep password pg s
    else if t = 68 then parseD pg s
    else if t = 66 then parseB pg s
    else if t = 83 then (if s = [] then .ok [] { pg with sync := true } else .fail)
    else .ok [] { pg with error := true }

/-- Replies.  `error` is the last error of the parsers; `empty` includes that the server is ready. -/
inductive Reply where
  | error | empty | parsed | bound | ready | ssl | authOk | askPassword
  | described (desc : Bytes)
  | tag (t : Bytes)
  | badType (t : Bytes)
deriving Repr, DecidableEq

/-- `pg_respond`, `/repo/src/postgres.c:1412-1489`: the replies, the new state, whether `conn_setauth` is called, and whether the
connection stays open. -/
def respond (password : Bytes) (pg : State) : List Reply × State × Bool × Bool :=
  if pg.error then ([.error], pg, false, true)
  else if pg.emptyQuery then ([.empty], { pg with emptyQuery := false }, false, true)
  else if pg.parse then ([.parsed], { pg with parse := false }, false, true)
  else if pg.bind then ([.bound], { pg with bind := false }, false, true)
  else if pg.describe then ([.described pg.desc], { pg with describe := false, desc := [] }, false, true)
  else if pg.sync then ([.ready], { pg with execute := false, sync := false }, false, true)
  else if pg.close then ([], { pg with close := false }, false, false)
  else if pg.ssl then ([.ssl], { pg with ssl := false }, false, true)
  else if pg.auth then
    if pg.startup = false then ([], pg, false, false) else ([.authOk], { pg with auth := false, ready := true }, true, true)
  else if pg.startup then
    if password ≠ [] then ([.askPassword], pg, false, true) else ([.authOk], { pg with ready := true, startup := false }, false, true)
  else ([], pg, false, true)

/-- `pg_precommand`, `/repo/src/postgres.c:1517-1568`: the arguments left for the command, or the reply if nothing is left to be done. -/
def precommand (pg : State) (args : List Bytes) : (List Reply × State) ⊕ (List Bytes × State) :=
  match args with
  | [] => .inr (args, pg)
  | a :: as =>
    if Cmd.argeq a [98, 101, 103, 105, 110] then .inl ([.tag [66, 69, 71, 73, 78], .ready], pg)
    else if Cmd.argeq a [114, 111, 108, 108, 98, 97, 99, 107] then .inl ([.tag [82, 79, 76, 76, 66, 65, 67, 75], .ready], pg)
    else if Cmd.argeq a [99, 111, 109, 109, 105, 116] then .inl ([.tag [67, 79, 77, 77, 73, 84], .ready], pg)
    else if [58, 58].isPrefixOf a then
      let go : State → (List Reply × State) ⊕ (List Bytes × State) := fun pg =>
        if as = [] then .inl ([.tag (if pg.bytea then [66, 89, 84, 69, 65] else [84, 69, 88, 84]), .ready], pg) else .inr (as, pg)
      if Cmd.argeq a [58, 58, 98, 121, 116, 101, 97] ∨ Cmd.argeq a [58, 58, 98, 121, 116, 101, 115] then go { pg with bytea := true }
      else if Cmd.argeq a [58, 58, 116, 101, 120, 116] then go { pg with bytea := false }
      else .inl ([.badType (a.drop 2), .ready], pg)
    else .inr (args, pg)

end Verif.Pg
