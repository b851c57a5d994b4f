import Verif.Num.Model
import Verif.Cmd.Model

/-!
Model of the HTTP parser, `/repo/src/http.c`.  Statistics, `keepalive` and `httpvers` are left out (the connection is closed after every
request, `/repo/src/conn.c:169-171`).
-/

namespace Verif.Http

open Verif.Num Verif.Cmd

/-- The errors, `/repo/src/http.c:348-366`. -/
inductive HErr where
  | badRequest | invalidKey | unauthorized | showHelp (html : Bool)
deriving DecidableEq, Repr

/-- Result of `parse_http`: 0, -1 with the error text, or the arguments; all of the data is used up then. -/
inductive HRes where
  | more
  | err (e : HErr)
  | got (args : List Bytes)
deriving DecidableEq, Repr

/-- `http_valid_key`, `/repo/src/http.c:24-36`; `char` is signed, so that bytes from 128 on are below the blank. -/
def validKey (k : Bytes) : Bool :=
  !(k.length = 0 || k.length > 250) &&
    k.all fun b => !(b ≤ 32 || b ≥ 0x7F || b = 37 || b = 43 || b = 64 || b = 36 || b = 63 || b = 61)

/-- The loops reading the method and the path, `/repo/src/http.c:60-84`: the bytes up to the next blank and what follows it.  `none` if a
newline or the end comes first, which leads to `badreq` (in the third loop for the end). -/
def word : Bytes → Option (Bytes × Bytes)
  | [] => none
  | b :: s => if b = 32 then some ([], s) else if b = 10 then none else (word s).map fun x => (b :: x.1, x.2)

/-- Bytes up to the next `b` and what follows it. -/
def upTo (b : UInt8) : Bytes → Option (Bytes × Bytes)
  | [] => none
  | c :: s => if c = b then some ([], s) else (upTo b s).map fun x => (c :: x.1, x.2)

/-- The check of the protocol, `/repo/src/http.c:88-100`, of the line `l` without its LF. -/
def protoOk (l : Bytes) : Bool :=
  match l with
  | [72, 84, 84, 80, 47, a, 46, b, 13] =>
    48 ≤ a && a ≤ 57 && 48 ≤ b && b ≤ 57 && decide (9 ≤ (a.toNat - 48) * 10 + (b.toNat - 48) ∧ (a.toNat - 48) * 10 + (b.toNat - 48) < 30)
  | _ => false

/-- What the headers say. -/
structure Hdrs where
  bodylen : Nat
  html : Bool
  auth : Bytes
deriving DecidableEq, Repr

/-- Whether `pat` occurs in `s` (`memmem`). -/
def contains (pat : Bytes) : Bytes → Bool
  | [] => pat = []
  | b :: s => pat.isPrefixOf (b :: s) || contains pat s

/-- One header, `/repo/src/http.c:133-159`; `none` is `badreq`. -/
def header (h : Hdrs) (name val : Bytes) : Option Hdrs :=
  if argeq name [99, 111, 110, 116, 101, 110, 116, 45, 108, 101, 110, 103, 116, 104] then
    match parseU64 val with
    | none => none
    | some x => if (x : Int) > Resp.maxArgSz then none else some { h with bodylen := x }
  else if argeq name [99, 111, 110, 110, 101, 99, 116, 105, 111, 110] then some h
  else if argeq name [97, 99, 99, 101, 112, 116] then
    some (if contains [116, 101, 120, 116, 47, 104, 116, 109, 108] val then { h with html := true } else h)
  else if argeq name [97, 117, 116, 104, 111, 114, 105, 122, 97, 116, 105, 111, 110] then some { h with auth := val }
  else some h

/-- The loop over the headers, `/repo/src/http.c:114-179`: what they say and what follows them.  A header name extends to the next colon,
also over ends of lines. -/
def headers : Nat → Bytes → Hdrs → HRes ⊕ (Hdrs × Bytes)
  | 0, _, _ => .inl .more
  | f + 1, s, h =>
    match upTo 58 s with
    | none => .inl .more
    | some (name, s) =>
      match upTo 10 (s.dropWhile (· = 32)) with
      | none => .inl .more
      | some (raw, s) =>
        if raw.getLast? ≠ some 13 then .inl (.err .badRequest)
        else
          match header h name raw.dropLast with
          | none => .inl (.err .badRequest)
          | some h =>
            match s with
            | 13 :: 10 :: body => .inr (h, body)
            | 13 :: _ => .inl (.err .badRequest)
            | [] => .inl .more
            | s => headers f s h

/-- What the query says, `/repo/src/http.c:194-203`; a null pointer is `none`. -/
structure Query where
  ex : Option Bytes
  flags : Option Bytes
  cas : Option Bytes
  auth : Option Bytes
  xx : Bool
  nx : Bool
deriving DecidableEq, Repr

/-- One pair of the query, `/repo/src/http.c:232-253`. -/
def pair (q : Query) (key : Bytes) (val : Option Bytes) : Query :=
  if key = [102, 108, 97, 103, 115] then { q with flags := val }
  else if key = [101, 120] ∨ key = [116, 116, 108] then { q with ex := val }
  else if key = [99, 97, 115] then { q with cas := val }
  else if key = [120, 120] then { q with xx := true }
  else if key = [110, 120] then { q with nx := true }
  else if key = [97, 117, 116, 104] then { q with auth := val }
  else q

/-- The loop over the query, `/repo/src/http.c:218-262`: `key` are the bytes since `j`; within a value, `val` are its bytes so far.  The last byte
always belongs to the name, also if it is `&`. -/
def query : Bytes → Bytes → Option Bytes → Query → Query
  | [], _, none, q => q
  | [], key, some val, q => pair q key (some val)
  | b :: s, key, none, q =>
    if b = 61 then query s key (some []) q
    else if s = [] then pair q (key ++ [b]) none
    else if b = 38 then query s [] none (pair q key none)
    else query s (key ++ [b]) none q
  | b :: s, key, some val, q =>
    if b = 38 then query s [] none (pair q key (some val)) else query s key (some (val ++ [b])) q

/-- The check of the password, `/repo/src/http.c:324-346`; `password` is empty when none is configured. -/
def authorised (password : Bytes) (q : Query) (h : Hdrs) : Bool :=
  let qauth := q.auth.getD []
  if qauth ≠ [] then decide (qauth = password)
  else if h.auth ≠ [] then
    if ([66, 101, 97, 114, 101, 114, 32] : Bytes).isPrefixOf h.auth then
      let val := h.auth.drop 7
      if password ≠ [] ∨ val ≠ [] then decide (val = password) else true
    else false
  else if password ≠ [] then decide (([] : Bytes) = password)
  else true

/-- Turning the request into arguments, `/repo/src/http.c:264-322`. -/
def toArgs (method path body : Bytes) (q : Query) (html : Bool) : Except HErr (List Bytes) :=
  if method = [71, 69, 84] then
    if path.head? = some 64 then .error .badRequest
    else if path = [] then .error (.showHelp html)
    else if !validKey path then .error .invalidKey
    else .ok [[103, 101, 116], path]
  else if method = [80, 85, 84] then
    if path.head? = some 64 then .error .badRequest
    else if !validKey path then .error .invalidKey
    else .ok ([[115, 101, 116], path, body] ++
      (match q.cas with | some c => [[99, 97, 115], c] | none => []) ++
      (match q.ex with | some c => [[101, 120], c] | none => []) ++
      (match q.flags with | some c => [[102, 108, 97, 103, 115], c] | none => []) ++
      (if q.xx then [[120, 120]] else []) ++ (if q.nx then [[110, 120]] else []))
  else if method = [68, 69, 76, 69, 84, 69] then
    if path.head? = some 64 then .error .badRequest
    else if !validKey path then .error .invalidKey
    else .ok [[100, 101, 108], path]
  else .error .badRequest

/-- From the label `readbody` on, `/repo/src/http.c:180-347`. -/
def readBody (password method uri : Bytes) (h : Hdrs) (rest : Bytes) : HRes :=
  if rest.length < h.bodylen then .more
  else
    match uri with
    | 47 :: uri =>
      let path := uri.takeWhile (· ≠ 63)
      let q := query (uri.drop (path.length + 1)) [] none ⟨none, none, none, none, false, false⟩
      match toArgs method path (rest.take h.bodylen) q h.html with
      | .error e => .err e
      | .ok args => if authorised password q h then .got args else .err .unauthorized
    | _ => .err .badRequest

/-- `parse_http`, `/repo/src/http.c:38-367`. -/
def parseHttp (password data : Bytes) : HRes :=
  match word data with
  | none => .err .badRequest
  | some (method, s) =>
    match word s with
    | none => .err .badRequest
    | some (uri, s) =>
      match upTo 10 s with
      | none => .err .badRequest
      | some (l, s) =>
        if !protoOk l then .err .badRequest
        else
          match headers s.length s ⟨0, false, []⟩ with
          | .inl r => r
          | .inr (h, rest) => readBody password method uri h rest

end Verif.Http
