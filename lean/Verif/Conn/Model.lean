import Verif.Mc.Model
import Verif.Http.Model
import Verif.Pg.Model
import Verif.Cmd.Table

/-!
Model of a whole connection, `/repo/src/conn.c`: detection of the protocol, the parsers of all four protocols, authentication, execution
and replies, on top of the loop of `evdata` in `Verif.Resp.Model`.

Left out: background work, monitoring, statistics, TLS, and the conversion of replies to bytes (`Verif.Resp.Reply`).
-/

namespace Verif.Conn

open Verif.Resp Verif.Cache Verif.Cmd

/-- A request as it leaves the parser: of RESP, of memcache, of HTTP (with the data it was parsed from), of Postgres. -/
inductive Req where
  | resp (args : List Bytes)
  | mc (r : Mc.Req)
  | http (data : Bytes) (args : List Bytes)
  | pg (m : Pg.Msg)
deriving DecidableEq

/-- What is written to the client. -/
inductive Item where
  | cmd (w : W)
  | pg (r : Pg.Reply)
  | mc (e : Mc.Err)
  | protocolError
deriving DecidableEq, Repr

/-- What a server is made of, seen from one connection: the password (empty: none), the hash function of `pmap`, the clocks and whether memory is low, what each call
of the cache does to the world and answers, and what the commands do that are not modelled. -/
structure Server (ω : Type) where
  password : Bytes
  hash : Nat → Nat
  clock : ω → Env
  step : Spec.Call → ω → Spec.Reply × ω
  other : Fn → Env → List Bytes → Prog (List W)

/-- `struct conn`, `/repo/src/conn.c:26-37`, with the world.  `log` is not in the code: it records the requests. -/
structure St (ω : Type) where
  world : ω
  auth : ConnSt
  pg : Pg.State
  out : List Item
  log : List Req

/-- Running a program in a world. -/
def run {ω α : Type} (step : Spec.Call → ω → Spec.Reply × ω) : Prog α → ω → α × ω
  | .ret a, w => (a, w)
  | .call c k, w => run step (k (step c w).1) (step c w).2

/-- `parse_command`, `/repo/src/parse.c:126-145`.  An HTTP request uses up all of the data (`/repo/src/http.c:347`). -/
def parse (password : Bytes) : Proto → Bytes → PR (Req × Nat)
  | .resp, s => (parseCommandResp s).bind fun r => .got (.resp r.1, r.2)
  | .memcache, s => (Mc.parseMc s).bind fun r => .got (.mc r.1, r.2)
  | .http, s =>
    match Http.parseHttp password s with
    | .more => .more
    | .err _ => .err
    | .got args => .got (.http s args, s.length)
  | .postgres, s => (Pg.frame s).bind fun r => .got (.pg r.1, r.2)
  | .none, _ => .err

/-- `evcommand`, and whether it closed the connection. -/
def command {ω : Type} (S : Server ω) (p : Proto) (args : List Bytes) (st : St ω) : St ω × Bool :=
  let r := run S.step (evcommand { S.clock st.world with proto := p } S.password S.other args st.auth) st.world
  ({ st with world := r.2, auth := r.1.2, out := st.out ++ r.1.1.map .cmd }, decide (W.close ∈ r.1.1))

/-- The body of the loop of `evdata` behind the parser, `/repo/src/conn.c:118-169`: the new state and whether the connection is closed.  The
field `noreply` of the connection is written (line 116) and nowhere read. -/
def exec {ω : Type} (S : Server ω) : Exec Req (St ω) := fun r st =>
  let st := { st with log := st.log ++ [r] }
  match r with
  | .resp args => if args = [] then (st, false) else command S .resp args st
  | .mc (.cmd args _) => if args = [] then ({ st with out := st.out ++ [.mc .error] }, false) else command S .memcache args st
  | .mc (.bad e) => ({ st with out := st.out ++ [.mc e] }, false)
  | .http _ args => ((command S .http args st).1, true)
  | .pg m =>
    match Pg.handle S.hash S.password st.pg m with
    | .fail => ({ st with out := st.out ++ [.protocolError] }, true)
    | .hang => (st, true)
    | .ok args pg =>
      if args = [] then
        let (rs, pg, auth, stay) := Pg.respond S.password pg
        ({ st with pg := pg, auth := if auth then ⟨true⟩ else st.auth, out := st.out ++ rs.map .pg }, !stay)
      else if pg.ready = false then ({ st with pg := pg }, true)
      else
        match Pg.precommand pg args with
        | .inl (rs, pg) => ({ st with pg := pg, out := st.out ++ rs.map .pg }, false)
        | .inr (args, pg) => command S .postgres args { st with pg := pg }

/-- The answer to a protocol error, `/repo/src/conn.c:121-123`. -/
def onErr {ω : Type} (st : St ω) : St ω := { st with out := st.out ++ [.protocolError] }

/-- A new connection, `/repo/src/conn.c:62-68`. -/
def start {ω : Type} (w : ω) : St ω := ⟨w, ⟨false⟩, .new, [], []⟩

/-- What a connection looks like after it has received the chunks. -/
def serve {ω : Type} (S : Server ω) (w : ω) (chunks : List Bytes) : PR (Conn (St ω)) :=
  feed (parse S.password) (exec S) onErr (newConn (start w)) chunks

end Verif.Conn
