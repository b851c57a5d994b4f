import Verif.Num.Model

/-!
Model of the RESP parser (`/repo/src/resp.c`), of the protocol detection (`/repo/src/parse.c:38-142`) and of the buffering of
received data (`/repo/src/conn.c:82-191`).
-/

namespace Verif.Resp

open Verif.Num

/-- Result of a parser: more data is needed (C result 0), an error (-1), reading outside of the buffer, or a result. -/
inductive PR (α : Type) where
  | more
  | err
  | ub
  | got (a : α)
deriving DecidableEq, Repr

/-- Sequencing. -/
def PR.bind {α β : Type} (x : PR α) (f : α → PR β) : PR β :=
  match x with
  | .got a => f a
  | .more => .more
  | .err => .err
  | .ub => .ub

/-- `MAXARGS`, `/repo/src/parse.h:21`. -/
def maxArgs : Int := 100000
/-- `MAXARGSZ`, `/repo/src/parse.h:22`. -/
def maxArgSz : Int := 536870912

/-- `read_num`, `/repo/src/resp.c:136-144`, on the bytes `s` from `data` to the end of the buffer.  `strtoll` does not know about the
end: if it runs through all of `s` it reads outside of the buffer.  Without digits it returns 0 and leaves `end` at `data`. -/
def readNum (s : Bytes) (len : Nat) (min max : Int) : PR Int :=
  let (neg, ds, rest) := strtoScan s
  if rest = [] then .ub
  else
    let v : Int := if neg then -(digitsVal 0 ds : Int) else digitsVal 0 ds
    let used := if ds = [] then 0 else s.length - rest.length
    if i64min ≤ v ∧ v ≤ i64max ∧ used = len ∧ min ≤ v ∧ v ≤ max then .got v else .err

/-- The macro `read_resp_num`, `/repo/src/resp.c:146-168`: the number and what follows it. -/
def readRespNum (s : Bytes) (min max : Int) : PR (Int × Bytes) :=
  match s.findIdx? (· = 13) with
  | none => if s.length > 32 then .err else .more
  | some p =>
    if p + 1 = s.length then .more
    else if s[p + 1]? ≠ some 10 then .err
    else (readNum s p min max).bind fun v => .got (v, s.drop (p + 2))

/-- The loop of `parse_resp`, `/repo/src/resp.c:187-206`: `n` arguments remain; the arguments and what follows them. -/
def readArgs : Nat → Bytes → PR (List Bytes × Bytes)
  | 0, s => .got ([], s)
  | n + 1, s =>
    match s with
    | [] => .more
    | b :: s =>
      if b ≠ 36 then .err
      else if s = [] then .more
      else (readRespNum s 0 maxArgSz).bind fun (len, s) =>
        if len + 2 > s.length then .more
        else (readArgs n (s.drop (len.toNat + 2))).bind fun (as, s') => .got (s.take len.toNat :: as, s')

/-- `parse_resp`, `/repo/src/resp.c:173-208`: the arguments and the number of bytes used. -/
def parseResp (s : Bytes) : PR (List Bytes × Nat) :=
  match s with
  | [] => .more
  | b :: r =>
    if b ≠ 42 then .err
    else if r = [] then .more
    else (readRespNum r (-(2 ^ 63)) maxArgs).bind fun (n, r) =>
      (readArgs n.toNat r).bind fun (as, rest) => .got (as, s.length - rest.length)

/-- State of the loop of `parse_resp_telnet`, `/repo/src/resp.c:27-32`: finished arguments, `arg`, `inarg` and `quote` (0 for none). -/
structure Tel where
  args : List Bytes
  arg : Bytes
  inarg : Bool
  quote : UInt8

/-- `args_append` of the current argument with its check, `/repo/src/resp.c:40-43,80-83`. -/
def Tel.push (t : Tel) : Option Tel :=
  if (t.args.length + 1 : Int) > maxArgs then none else some { t with args := t.args ++ [t.arg], arg := [] }

/-- `buf_append_byte` with its check, `/repo/src/resp.c:67-71,90-94,108-113`. -/
def Tel.add (t : Tel) (ch : UInt8) : Option Tel :=
  if (t.arg.length + 1 : Int) > maxArgSz then none else some { t with arg := t.arg ++ [ch] }

/-- The escapes, `/repo/src/resp.c:61-65`. -/
def unescape (ch : UInt8) : UInt8 := if ch = 110 then 10 else if ch = 114 then 13 else if ch = 116 then 9 else ch

/-- The loop of `parse_resp_telnet`, `/repo/src/resp.c:32-116`, at offset `i`. -/
def telnetLoop : Bytes → Nat → Tel → PR (List Bytes × Nat)
  | [], _, _ => .more
  | ch :: s, i, t =>
    if t.inarg then
      if t.quote ≠ 0 then
        if ch = 10 then .err
        else if ch = t.quote then
          match t.push with
          | none => .err
          | some t =>
            match s with
            | [] => .more
            | ch :: s' =>
              if ch = 10 then telnetLoop (ch :: s') (i + 1) { t with inarg := false }
              else if !isSpace ch then .err
              else telnetLoop s' (i + 2) { t with inarg := false }
        else if ch = 92 then
          match s with
          | [] => .more
          | ch :: s' =>
            match t.add (unescape ch) with
            | none => .err
            | some t => telnetLoop s' (i + 2) t
        else
          match t.add ch with
          | none => .err
          | some t => telnetLoop s (i + 1) t
      else if ch = 34 ∨ ch = 39 then telnetLoop s (i + 1) { t with quote := ch }
      else if isSpace ch then
        match t.push with
        | none => .err
        | some t => if ch = 10 then .got (t.args, i + 1) else telnetLoop s (i + 1) { t with inarg := false }
      else
        match t.add ch with
        | none => .err
        | some t => telnetLoop s (i + 1) t
    else if ch = 10 then .got (t.args, i + 1)
    else if isSpace ch then telnetLoop s (i + 1) t
    else if ch = 34 ∨ ch = 39 then telnetLoop s (i + 1) { t with inarg := true, quote := ch }
    else
      match { t with inarg := true, quote := 0 : Tel }.add ch with
      | none => .err
      | some t => telnetLoop s (i + 1) t
termination_by s => s.length
decreasing_by all_goals simp_wf <;> omega

/-- `parse_resp_telnet`, `/repo/src/resp.c:27-134`. -/
def parseTelnet (s : Bytes) : PR (List Bytes × Nat) := telnetLoop s 0 ⟨[], [], false, 0⟩

/-- Protocols, `/repo/src/parse.h`. -/
inductive Proto where
  | none | resp | memcache | http | postgres
deriving DecidableEq, Repr

/-- Length of the first line, 0 if it is not complete, `/repo/src/parse.c:52-58`. -/
def lineLen (s : Bytes) : Nat :=
  match s.findIdx? (· = 10) with
  | none => 0
  | some i => i + 1

/-- `sniff_proto`, `/repo/src/parse.c:38-86`.  `none` is the C result false.  The loop over the leading blanks has no bound
(line 68); `n` is unsigned, so that with blanks before an incomplete line `n > 0` (lines 68-72). -/
def sniff (s : Bytes) : PR (Option Proto) :=
  if s.head? = some 42 then .got (some .resp)
  else if s.head? = some 0 then .got (some .postgres)
  else
    let n := lineLen s
    if n ≥ 11 ∧ (s.drop (n - 11)).take 5 = [32, 72, 84, 84, 80] ∧ s[n - 4]? = some 46 ∧ s[n - 2]? = some 13 then .got (some .http)
    else
      let t := s.dropWhile (· = 32)
      let blanks := s.length - t.length
      match t with
      | [] => .ub
      | c :: _ =>
        if n ≠ blanks ∧ 65 ≤ c ∧ c ≤ 90 then .got (some .resp)
        else if n ≠ blanks then .got (some .memcache)
        else .got none

/-- A connection: undecoded data (`conn->packet`), protocol, whether it is closed, and the state of everything else that commands act on. -/
structure Conn (σ : Type) where
  packet : Bytes
  proto : Proto
  closed : Bool
  st : σ

/-- What a request does to the rest of the state, and whether it closes the connection: lines 133-170 of `/repo/src/conn.c` (`evcommand`,
and what happens for requests without arguments). -/
abbrev Exec (α σ : Type) := α → σ → σ × Bool

/-- The branch of `parse_command` for RESP, `/repo/src/parse.c:125-131`. -/
def parseCommandResp (s : Bytes) : PR (List Bytes × Nat) := if s.head? = some 42 then parseResp s else parseTelnet s

/-- A RESP command without arguments is nothing (`/repo/src/conn.c:151-153`), others are executed. -/
def execResp {σ : Type} (exec : Exec (List Bytes) σ) : Exec (List Bytes) σ := fun as st => if as = [] then (st, false) else exec as st

/-- The loop of `evdata`, `/repo/src/conn.c:113-170`, with the parser of the connection's protocol.  An error is answered (`onErr`) and
closes the connection; the memcache parser, which can go on after an error (lines 124-129), returns errors as requests.  Result: state,
whether closed, and the data left over.  Commands that run in the background (`net_conn_bgworking`, line 166) are not modelled. -/
def drain {α σ : Type} (parse : Bytes → PR (α × Nat)) (exec : Exec α σ) (onErr : σ → σ) : Nat → Bytes → σ → PR (σ × Bool × Bytes)
  | 0, s, st => .got (st, false, s)
  | fuel + 1, s, st =>
    if s = [] then .got (st, false, [])
    else
      match parse s with
      | .more => .got (st, false, s)
      | .ub => .ub
      | .err => .got (onErr st, true, s)
      | .got (args, n) =>
        let (st', close) := exec args st
        if close then .got (st', true, s.drop n) else drain parse exec onErr fuel (s.drop n) st'

/-- `evdata`, `/repo/src/conn.c:82-191`, with the parsers of the protocols.  On a new connection the protocol is detected first
(`/repo/src/parse.c:114-124`); if that fails the connection is closed. -/
def evdata {α σ : Type} (parse : Proto → Bytes → PR (α × Nat)) (exec : Exec α σ) (onErr : σ → σ) (c : Conn σ) (chunk : Bytes) :
    PR (Conn σ) :=
  if c.closed then .got c
  else
    let s := c.packet ++ chunk
    if s = [] then .got c
    else
      let go : Proto → PR (Conn σ) := fun p => (drain (parse p) exec onErr s.length s c.st).bind fun (st, closed, rest) =>
        .got ⟨rest, p, closed, st⟩
      if c.proto = .none then
        (sniff s).bind fun
          | some p => go p
          | none => .got ⟨s, .none, true, onErr c.st⟩
      else go c.proto

/-- Several chunks one after another. -/
def feed {α σ : Type} (parse : Proto → Bytes → PR (α × Nat)) (exec : Exec α σ) (onErr : σ → σ) : Conn σ → List Bytes → PR (Conn σ)
  | c, [] => .got c
  | c, chunk :: cs => (evdata parse exec onErr c chunk).bind fun c => feed parse exec onErr c cs

/-- A new connection, `evopened`, `/repo/src/conn.c:62-68`. -/
def newConn {σ : Type} (st : σ) : Conn σ := ⟨[], .none, false, st⟩

end Verif.Resp
