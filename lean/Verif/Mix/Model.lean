import Mathlib.Tactic.Common
import Verif.Mix.Spec
import Verif.Many.Model
import Verif.McWire.Model

/-!
C106, C109, C110: any number of RESP, memcache, HTTP and Postgres connections, each with its own thread, on the shards with their locks (`Verif.Conc`); as `Verif.Many.Model`.
-/

namespace Verif.Mix

open Verif.Resp Verif.Cmd Verif.Cache Verif.Shard Verif.Map

/-- What the parsers make of the input. -/
inductive Req where
  | resp (args : List Bytes)
  | mc (q : Mc.Req)
  | http (args : List Bytes)
  | pg (hash : Nat → Nat) (conf : Pg.Conf) (st : Pg.State) (msg : Bytes)

/-- A command in execution: whether its calls are made through a batch, whether a call has been made since the last lock was given back, and what is still to do; the result is the
bytes written, and whether the connection is closed. -/
structure Job where
  own : Bool
  used : Bool
  todo : Prog (Bytes × Bool)

/-- A connection: see `Many.Loc`. -/
structure Loc where
  chunks : List Bytes
  packet : Bytes
  sent : Bytes
  done : Nat
  job : Out (Option Job)

/-- `parse_command`, `/repo/src/parse.c:106-144`: the parser of the protocol, which is known (`sniff`, C98, C100 and C109).
What is written for HTTP requests that are refused is C76 and not modelled here.  Of Postgres requests the message is kept; what its parser does is part of `run`. -/
def parseOf (pw : Bytes) : Kind → Bytes → PR (Req × Nat)
  | .resp, b => (parseCommandResp b).bind fun x => .got (.resp x.1, x.2)
  | .memcache, b => (Mc.parseMc b).bind fun x => .got (.mc x.1, x.2)
  | .http, b =>
    match Http.parseHttp pw b with
    | .more => .more
    | .err _ => .err
    | .got args => .got (.http args, b.length)
  | .postgres hash conf st, b => (Pg.frame b).bind fun x => .got (.pg hash conf st (b.take x.2), x.2)

/-- The arguments of a Postgres message that is a query, `/repo/src/postgres.c:1065-1110, 1517-1568`. -/
def pgArgs (hash : Nat → Nat) (st : Pg.State) (msg : Bytes) : List Bytes :=
  match Pg.frame msg with
  | .got (m, _) =>
    match Pg.handle hash [] st m with
    | .ok args st =>
      match Pg.precommand st args with
      | .inr (args, _) => args
      | .inl _ => []
    | _ => []
  | _ => []

/-- Commands that use a batch, `/repo/src/cmds.c:1668-1769, 1886-1934`. -/
def batchedReq : Req → Bool
  | .resp args => Many.batched args
  | .mc (.cmd args _) => Many.batched args
  | .mc (.bad _) => false
  | .http args => Many.batched args
  | .pg hash _ st msg => Many.batched (pgArgs hash st msg)

/-- Executing a command in `evdata`, `/repo/src/conn.c:113-169`: what is written, `/repo/src/conn.c:230-410`, and whether the connection is closed.  A RESP command without
arguments is nothing.  An HTTP connection is closed anyway, see `step`; the help pages are not written for commands.  Simplified: a Postgres connection
has the same state at each message, which is so for the queries considered here (`query_kept`). -/
def run (e : Env) (pw : Bytes) (y : Sys) : Req → Prog (Bytes × Bool)
  | .resp args => if args = [] then .ret ([], false) else (evcommand e pw (admin y) args ⟨true⟩).map fun r => (renderAll r.1 [], decide (W.close ∈ r.1))
  | .mc q => (McWire.handle e pw y ⟨true⟩ q).map fun x => (x.1, x.2.2)
  | .http args => (evcommand e pw (admin y) args ⟨true⟩).map fun r => ((r.1.map (Http.respond fun _ => [])).flatten, false)
  | .pg hash conf st msg => (Pg.serve hash conf e pw (admin y) ⟨st, ⟨true⟩, true⟩ msg).map fun r => (r.1.flatten, !r.2.2.live)

/-- The loop of `evdata`, `/repo/src/conn.c:113-139`: parse the next command; if it is not complete go on when the next packet has come. -/
def fetch (parse : Bytes → PR (Req × Nat)) : List Bytes → Bytes → Option (Req × Bytes × List Bytes)
  | [], packet =>
    match (if packet = [] then .more else parse packet) with
    | .got (q, n) => some (q, packet.drop n, [])
    | _ => none
  | c :: cs, packet =>
    match (if packet = [] then .more else parse packet) with
    | .got (q, n) => some (q, packet.drop n, c :: cs)
    | .more => fetch parse cs (packet ++ c)
    | _ => none

/-- The next command, `/repo/src/conn.c:113-160`. -/
def advance (kind : Kind) (pw : Bytes) (y : Sys) (clock : Nat → Env) (l : Loc) : Loc :=
  match fetch (parseOf pw kind) l.chunks l.packet with
  | none => { l with job := .val none }
  | some (q, packet, chunks) => { l with chunks, packet, job := .val (some ⟨batchedReq q, false, run (clock l.done) pw y q⟩) }

/-- A connection for one request. -/
def Kind.once : Kind → Bool
  | .http => true
  | _ => false

/-- What the thread of a connection does next; calls on a key are `Many.onShard`, `/repo/src/pogocache.c:1396-1645`.  Other calls are not modelled here.
An HTTP connection is closed after its request, `/repo/src/conn.c:169-171`. -/
def step (c : Ctx) (n : Nat) (kind : Kind) (pw : Bytes) (y : Sys) (clock : Nat → Env) (l : Loc) : Conc.Act Loc Sh :=
  match l.job with
  | .val (some ⟨own, used, .ret (out, close)⟩) =>
    let l' : Loc := { l with sent := l.sent ++ out, done := l.done + 1 }
    if close = true ∨ kind.once = true then .commit { l' with job := .val none } else .commit (advance kind pw y clock l')
  | .val (some ⟨own, used, .call op k⟩) =>
    if own = false ∧ used = true then .commit { l with job := .val (some ⟨own, false, .call op k⟩) }
    else
      match Many.callKey op with
      | none => .done
      | some key => .access own (shardIdx c n key) fun sh =>
        match Many.onShard c (clock l.done).now (toOp op) sh with
        | .val r => ({ l with job := .val (some ⟨own, true, k ⟨toStatus r.status, r.seen.map kv⟩⟩) }, r.sh)
        | bad => ({ l with job := bad.bind fun _ => .val none }, sh)
  | _ => .done

/-- The threads.  The local state has the number of its client, which tells its protocol and its clock. -/
def server (c : Ctx) (n : Nat) (kind : Nat → Kind) (pw : Bytes) (y : Sys) (clock : Nat → Nat → Env) (addr : Nat → Nat) : Conc.Prog (Nat × Loc) Sh where
  addr := addr
  act l :=
    match step c n (kind l.1) pw y (clock l.1) l.2 with
    | .access own i f => .access own i fun sh => ((l.1, (f sh).1), (f sh).2)
    | .unlock i l' => .unlock i (l.1, l')
    | .commit l' => .commit (l.1, l')
    | .done => .done

/-- A new connection. -/
def opened (kind : Kind) (pw : Bytes) (y : Sys) (clock : Nat → Env) (chunks : List Bytes) : Loc := advance kind pw y clock ⟨chunks, [], [], 0, .val none⟩

end Verif.Mix
