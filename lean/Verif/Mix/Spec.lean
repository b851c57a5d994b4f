import Mathlib.Tactic.Common
import Verif.Many.Spec
import Verif.Wire.Flags
import Verif.McWire.Spec
import Verif.Http.Response
import Verif.Pg.Service

/-!
C106: RESP clients and memcache clients at once, on the same keys.  The server that a user has in mind is the one of C98 for the RESP clients and the one of C100 for the memcache
clients; they share what is kept.  C109: and HTTP clients.  C110: and Postgres clients.
-/

namespace Verif.Mix

open Verif.Resp Verif.Cmd Function

/-- What is kept: values, flags, times and tokens, as in C100. -/
abbrev Store := McWire.Store

/-- What RESP clients see of a key. -/
def plainOf (x : McWire.Held) : Wire.Kept := ⟨x.value, x.upto⟩

/-- What RESP clients see of it: no flags and no tokens. -/
def plain (m : Store) : Wire.Store := fun k => (m.has k).map plainOf

/-- Requests of HTTP clients: GET, PUT (in any case, or only if the key is new, is there, or has a token; seconds to live) and DELETE. -/
inductive HttpAsk where
  | get (k : Bytes)
  | put (how : McWire.How) (k v : Bytes) (flags : Nat) (ttl : Option Int)
  | delete (k : Bytes)

/-- The key of a request. -/
def HttpAsk.key : HttpAsk → Bytes
  | .get k | .put _ k _ _ _ | .delete k => k

/-- Queries of Postgres clients; to count is INCRBY or DECRBY (`by_`), or INCR or DECR. -/
inductive PgAsk where
  | get (k : Bytes)
  | set (k v : Bytes)
  | del (k : Bytes)
  | mget (ks : List Bytes)
  | count (down by_ : Bool) (k : Bytes) (d : Int)
  | join (front : Bool) (k v : Bytes)

/-- Answers to Postgres clients: a table (the names of the columns, the rows, and the tag), a tag alone, or an error. -/
inductive PgAns where
  | table (names : List Bytes) (rows : List (List Bytes)) (tag : Bytes)
  | done (tag : Bytes)
  | refused

/-- Commands of RESP clients, of memcache clients, of HTTP clients, and of Postgres clients. -/
inductive Ask where
  | resp (a : Wire.Ask)
  | mc (a : McWire.Ask)
  | http (a : HttpAsk)
  | pg (a : PgAsk)

/-- Replies; `odd` where the server does something else than memcache (`McWire.Off`), in these bytes. -/
inductive Ans where
  | resp (r : Reply)
  | mc (r : McWire.Answer)
  | odd (bytes : Bytes)
  | http (code : Nat) (body : Bytes)
  | pg (r : PgAns)

/-- The keys of a command. -/
def keysOf : Ask → List Bytes
  | .resp a => Many.keysOf a
  | .mc (.get _ ks) => ks
  | .mc (.store _ k _ _ _) | .mc (.join _ k _) | .mc (.delete k) | .mc (.count _ k _) | .mc (.touch k _) => [k]
  | .mc .version | .mc .other => []
  | .http a => [a.key]
  | .pg (.get k) | .pg (.set k _) | .pg (.del k) | .pg (.count _ _ k _) | .pg (.join _ k _) => [k]
  | .pg (.mget ks) => ks

/-- The parts of a command on several keys. -/
def parts : Ask → List Ask
  | .resp a => (Many.parts a).map .resp
  | .mc (.get tokens ks) => ks.map fun k => .mc (.get tokens [k])
  | .mc a => [.mc a]
  | .http a => [.http a]
  | .pg (.mget ks) => ks.map fun k => .pg (.mget [k])
  | .pg a => [.pg a]

/-- The reply to a RESP command. -/
def Ans.reply? : Ans → Option Reply
  | .resp r => some r
  | _ => none

/-- The items of the reply to `get`. -/
def Ans.found : Ans → List Found
  | .mc (.values _ fs) => fs
  | _ => []

/-- "value" -/
def valueName : Bytes := [118, 97, 108, 117, 101]

/-- The answer to MGET: columns "key" and "value", and the tag "MGET" and the number of rows. -/
def mgetTable (rows : List (List Bytes)) : PgAns := .table [[107, 101, 121], valueName] rows ([77, 71, 69, 84, 32] ++ Wire.digits rows.length)

/-- The rows of an answer. -/
def Ans.rows : Ans → List (List Bytes)
  | .pg (.table _ rows _) => rows
  | _ => []

/-- The reply to a command, from those to its parts. -/
def whole : Ask → List Ans → Ans
  | .resp a, rs => .resp (Many.whole a (rs.filterMap Ans.reply?))
  | .mc (.get tokens _), rs => .mc (.values tokens (rs.flatMap Ans.found))
  | .mc _, rs => rs.headD (.odd [])
  | .http _, rs => rs.headD (.odd [])
  | .pg (.mget _), rs => .pg (mgetTable (rs.flatMap Ans.rows))
  | .pg _, rs => rs.headD (.odd [])

/-- What a RESP command does to what only memcache clients see: a key that is changed gets a new token, larger than all it had, and these flags; others stay as they are. -/
def Kept (now : Int) (a : Wire.Ask) (m m' : Store) : Prop :=
  ∀ k, (m'.has k = m.has k ∧ m'.used k = m.used k) ∨ (m'.has k = none ∧ m'.used k = m.used k) ∨
    ∃ x, m'.has k = some x ∧ m.used k < x.cas ∧ m'.used k = x.cas ∧ x.flags = Wire.newFlags a ((m.see now k).map (·.flags))

/-- Whether a PUT may store, given what the key holds. -/
def Allows : McWire.How → Option McWire.Held → Prop
  | .set, _ => True
  | .add, old => old = none
  | .replace, old => old ≠ none
  | .cas c, old => ∃ x, old = some x ∧ x.cas = c

/-- "Not Found" CR LF. -/
def notFound : Bytes := [78, 111, 116, 32, 70, 111, 117, 110, 100, 13, 10]
/-- "Stored" CR LF. -/
def stored : Bytes := [83, 116, 111, 114, 101, 100, 13, 10]
/-- "Deleted" CR LF. -/
def deleted : Bytes := [68, 101, 108, 101, 116, 101, 100, 13, 10]

/-- A request of an HTTP client: the code and the body of the response, and what is kept then.  A key that is stored gets a token larger than all it had. -/
inductive Fetches (now : Int) (m : Store) : HttpAsk → Nat → Bytes → Store → Prop
  | get {k : Bytes} {x : McWire.Held} : m.see now k = some x → Fetches now m (.get k) 200 x.value m
  | getMissing {k : Bytes} : m.see now k = none → Fetches now m (.get k) 404 notFound m
  | put {how : McWire.How} {k v : Bytes} {flags : Nat} {ttl : Option Int} {c : Nat} : Allows how (m.see now k) → m.used k < c →
      Fetches now m (.put how k v flags ttl) 200 stored (m.put k ⟨v, flags, ttl.map fun x => min (now + x * 1000000000) (2 ^ 63 - 1), c⟩)
  | putNot {how : McWire.How} {k v : Bytes} {flags : Nat} {ttl : Option Int} : ¬ Allows how (m.see now k) → Fetches now m (.put how k v flags ttl) 404 notFound m
  | delete {k : Bytes} : m.see now k ≠ none → Fetches now m (.delete k) 200 deleted (m.drop k)
  | deleteMissing {k : Bytes} : m.see now k = none → Fetches now m (.delete k) 404 notFound m

/-- The tag of a query that counts: "INCR", "INCRBY", "DECR", "DECRBY". -/
def countTag (down by_ : Bool) : Bytes := (if down then [68, 69, 67, 82] else [73, 78, 67, 82]) ++ if by_ then [66, 89] else []

/-- The number that a key holds; a key that is not there counts as zero. -/
def Numbered (old : Option McWire.Held) (n : Int) : Prop := (old = none ∧ n = 0) ∨ ∃ x, old = some x ∧ Wire.IsNumber x.value n

/-- The tag of a query that puts something in front of or behind a value: "PREPEND" or "APPEND", and the new length. -/
def joinTag (front : Bool) (n : Nat) : Bytes := (if front then [80, 82, 69, 80, 69, 78, 68, 32] else [65, 80, 80, 69, 78, 68, 32]) ++ Wire.digits n

/-- A query of a Postgres client: the answer, and what is kept then.  The tags are "GET 1", "GET 0", "SET 1", "DEL 1", "DEL 0".  A value made by counting or by
joining keeps the flags and the time of the old one. -/
inductive Queries (now : Int) (m : Store) : PgAsk → PgAns → Store → Prop
  | get {k : Bytes} {x : McWire.Held} : m.see now k = some x → Queries now m (.get k) (.table [valueName] [[x.value]] [71, 69, 84, 32, 49]) m
  | getMissing {k : Bytes} : m.see now k = none → Queries now m (.get k) (.table [valueName] [] [71, 69, 84, 32, 48]) m
  | set {k v : Bytes} {c : Nat} : m.used k < c → Queries now m (.set k v) (.done [83, 69, 84, 32, 49]) (m.put k ⟨v, 0, none, c⟩)
  | del {k : Bytes} : m.see now k ≠ none → Queries now m (.del k) (.done [68, 69, 76, 32, 49]) (m.drop k)
  | delMissing {k : Bytes} : m.see now k = none → Queries now m (.del k) (.done [68, 69, 76, 32, 48]) m
  | count {down by_ : Bool} {k : Bytes} {d n z : Int} {c : Nat} : Numbered (m.see now k) n → z = (if down then n - d else n + d) → Num.IsI64 z → m.used k < c →
      Queries now m (.count down by_ k d) (.table [valueName] [[Wire.shown z]] (countTag down by_))
        (m.put k ⟨Wire.shown z, ((m.see now k).map (·.flags)).getD 0, (m.see now k).bind (·.upto), c⟩)
  | countOver {down by_ : Bool} {k : Bytes} {d n : Int} : Numbered (m.see now k) n → ¬ Num.IsI64 (if down then n - d else n + d) →
      Queries now m (.count down by_ k d) .refused m
  | countNot {down by_ : Bool} {k : Bytes} {d : Int} : (¬ ∃ n, Numbered (m.see now k) n) → Queries now m (.count down by_ k d) .refused m
  | joinNew {front : Bool} {k v : Bytes} {c : Nat} : m.see now k = none → m.used k < c →
      Queries now m (.join front k v) (.done (joinTag front v.length)) (m.put k ⟨v, 0, none, c⟩)
  | join {front : Bool} {k v : Bytes} {c : Nat} {x : McWire.Held} : m.see now k = some x → v.length + x.value.length ≤ Wire.longest → m.used k < c →
      Queries now m (.join front k v) (.done (joinTag front (v.length + x.value.length)))
        (m.put k ⟨if front then v ++ x.value else x.value ++ v, x.flags, x.upto, c⟩)
  | joinTooLong {front : Bool} {k v : Bytes} {x : McWire.Held} : m.see now k = some x → Wire.longest < v.length + x.value.length →
      Queries now m (.join front k v) .refused m
  | mget {ks : List Bytes} : Queries now m (.mget ks) (mgetTable (ks.filterMap fun k => (m.see now k).map fun x => [k, x.value])) m

/-- A command at the time `now` of the clock of the cache and the Unix time `unix`: the reply, and what is kept then. -/
inductive Serves (ver : Bytes) (now unix : Int) (m : Store) : Ask → Ans → Store → Prop
  | resp {a : Wire.Ask} {r : Reply} {m' : Store} : Wire.Serves now (plain m) a r (plain m') → Kept now a m m' → Serves ver now unix m (.resp a) (.resp r) m'
  | mc {a : McWire.Ask} {r : McWire.Answer} {m' : Store} : McWire.Serves ver now unix m a r m' → Serves ver now unix m (.mc a) (.mc r) m'
  | odd {a : McWire.Ask} {b : Bytes} {m' : Store} : McWire.Off now m a b m' → Serves ver now unix m (.mc a) (.odd b) m'
  | http {a : HttpAsk} {code : Nat} {body : Bytes} {m' : Store} : Fetches now m a code body m' → Serves ver now unix m (.http a) (.http code body) m'
  | pg {a : PgAsk} {r : PgAns} {m' : Store} : Queries now m a r m' → Serves ver now unix m (.pg a) (.pg r) m'

/-- The clocks of the threads need not agree: see `Many.Drops`. -/
def Drops (now : Int) (ks : List Bytes) (m m' : Store) : Prop :=
  m'.used = m.used ∧ ∀ k, m'.has k = m.has k ∨ (k ∈ ks ∧ m.see now k = none ∧ m'.has k = none)

/-- A client reads this reply from the bytes, and exactly these bytes, whatever follows; HTTP clients up to the end of the connection.  The columns
of a table are of any one type. -/
def Says : Ans → Bytes → Prop
  | .resp r, b => ∃ fuel, ∀ rest f, fuel ≤ f → decode f (b ++ rest) = some (r, rest)
  | .mc r, b => McWire.Spoken r b
  | .odd x, b => b = x
  | .http code body, b => Http.readResponse b = some (code, body)
  | .pg (.table names rows tag), b => ∃ oid, ∀ rest, Pg.getAnswer (b ++ rest) = some (.table (names.map fun n => (n, oid)) rows tag, rest)
  | .pg (.done tag), b => ∀ rest, Pg.getAnswer (b ++ rest) = some (.done tag, rest)
  | .pg .refused, b => ∃ fields, ∀ rest, Pg.getAnswer (b ++ rest) = some (.failed fields, rest)

/-- Something that happened: the client, a part of a command, its reply, and what was kept before and after it. -/
structure Event where
  who : Nat
  ask : Ask
  ans : Ans
  before : Store
  after : Store

/-- The next part of the next command of client `t`, at the time of the command: from the replies `rs` and `ps` (to the parts of a command that is not yet finished)
to those after it. -/
inductive Next (ver : Bytes) (clock : Nat → Nat → Env) (asks : Nat → List Ask) (rs ps : Nat → List Ans) : Event → (Nat → List Ans) → (Nat → List Ans) → Prop
  | part {t : Nat} {m1 m1' m2 : Store} {a b : Ask} {r : Ans} :
      (asks t)[(rs t).length]? = some a → (parts a)[(ps t).length]? = some b → (ps t).length + 1 < (parts a).length →
      Drops (clock t (rs t).length).now (keysOf b) m1 m1' → Serves ver (clock t (rs t).length).now (clock t (rs t).length).unix m1' b r m2 →
      Next ver clock asks rs ps ⟨t, b, r, m1, m2⟩ rs (update ps t (ps t ++ [r]))
  | last {t : Nat} {m1 m1' m2 : Store} {a b : Ask} {r : Ans} :
      (asks t)[(rs t).length]? = some a → (parts a)[(ps t).length]? = some b → (ps t).length + 1 = (parts a).length →
      Drops (clock t (rs t).length).now (keysOf b) m1 m1' → Serves ver (clock t (rs t).length).now (clock t (rs t).length).unix m1' b r m2 →
      Next ver clock asks rs ps ⟨t, b, r, m1, m2⟩ (update rs t (rs t ++ [whole a (ps t ++ [r])])) (update ps t [])

/-- What happens, one part of a command after the other; `rs` are the replies to each client, and `ps` those to the parts of the command that is not yet finished. -/
inductive Story (ver : Bytes) (clock : Nat → Nat → Env) (asks : Nat → List Ask) (m : Store) : List Event → (Nat → List Ans) → (Nat → List Ans) → Store → Prop
  | none : Story ver clock asks m [] (fun _ => []) (fun _ => []) m
  | one {evs : List Event} {rs ps rs' ps' : Nat → List Ans} {ev : Event} : Story ver clock asks m evs rs ps ev.before →
      Next ver clock asks rs ps ev rs' ps' → Story ver clock asks m (evs ++ [ev]) rs' ps' ev.after

/-- The protocol of a connection; of a Postgres connection that is past its start also what the server is like, and its state. -/
inductive Kind where
  | resp | memcache | http
  | postgres (hash : Nat → Nat) (conf : Pg.Conf) (pg : Pg.State)

/-- The token asked for. -/
def tokenOf : McWire.How → Option Nat
  | .cas c => some c
  | _ => none

/-- What a request asks for.  (No PUT with more than one of the parameters `nx`, `xx` and `cas`.) -/
inductive Requests : HttpAsk → Http.Request → Prop
  | get {r : Http.Request} : r.method = .get → Requests (.get r.key) r
  | put {r : Http.Request} {how : McWire.How} {flags : Option Nat} {ttl : Option Int} : r.method = .put → r.Asks (tokenOf how) ttl flags →
      (r.has [110, 120] = true ↔ how = .add) → (r.has [120, 120] = true ↔ how = .replace) → Requests (.put how r.key r.body (flags.getD 0) ttl) r
  | delete {r : Http.Request} : r.method = .delete → Requests (.delete r.key) r

/-- The words of a query; their names in any case. -/
inductive PgWords : PgAsk → List Bytes → Prop
  | get {name k : Bytes} : Spells name getName → PgWords (.get k) [name, k]
  | set {name k v : Bytes} : Spells name setName → PgWords (.set k v) [name, k, v]
  | del {name k : Bytes} : Spells name delName → PgWords (.del k) [name, k]
  | countBy {down : Bool} {name k t : Bytes} {d : Int} : Spells name (incrName down false true) → IntArg t d → PgWords (.count down true k d) [name, k, t]
  | count {down : Bool} {name k : Bytes} : Spells name (incrName down false false) → PgWords (.count down false k 1) [name, k]
  | join {front : Bool} {name k v : Bytes} : Spells name (appendName front) → PgWords (.join front k v) [name, k, v]
  | mget {name : Bytes} {ks : List Bytes} : Spells name mgetName → ks ≠ [] → PgWords (.mget ks) (name :: ks)

/-- How commands are written.  Those of Postgres clients as simple queries (C42) of bare words and quoted texts, between which no reply is due. -/
inductive Written : Kind → Ask → Bytes → Prop
  | resp {a : Wire.Ask} {args : List Bytes} {w : Bytes} : Wire.Words a args → Enc args w → Written .resp (.resp a) w
  | mc {a : McWire.Ask} {w : Bytes} : McWire.Writes a w → Written .memcache (.mc a) w
  | pg {a : PgAsk} {ws : List Bytes} {q : Pg.Query} {hash : Nat → Nat} {conf : Pg.Conf} {st : Pg.State} : Pg.Idle st → st.error = false → PgWords a ws → Pg.Writes q ws →
      (∀ w ∈ ws, w.length ≤ Wire.longest) → (Pg.text q).length + 5 < 2147483648 →
      Written (.postgres hash conf st) (.pg a) (Pg.message 81 (Pg.queryMsg (Pg.text q)))

/-- An HTTP client sends at most one request, with the right password, and the whole head comes in one packet (`split_before_last_lf_refused` tells why); the body may come in
any packets. -/
def Sends (pw : Bytes) (asks : List Ask) (chunks ws : List Bytes) : Prop :=
  (asks = [] ∧ ws = []) ∨ ∃ a r, asks = [.http a] ∧ ws = [r.wire] ∧ r.Ok ∧ r.Allowed pw ∧ Requests a r ∧
    ∀ j, (chunks.take j).flatten = [] ∨ r.wire.length ≤ (chunks.take j).flatten.length + r.body.length

end Verif.Mix
