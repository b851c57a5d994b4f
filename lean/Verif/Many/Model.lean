import Mathlib.Tactic.Common
import Verif.Many.Spec
import Verif.Wire.Model
import Verif.Conc.Model

/-!
C101: any number of RESP connections, each with its own thread, on the shards with their locks (`Verif.Conc`).  (If several connections share a thread their
commands do not overlap; these are some of the interleavings here.)
-/

namespace Verif.Many

open Verif.Resp Verif.Cmd Verif.Cache Verif.Shard Verif.Map

/-- A command in execution: whether its calls are made through a batch, whether a call has been made since the last lock was given back, and what is still to do. -/
structure Job where
  own : Bool
  used : Bool
  todo : Prog (List W × ConnSt)

/-- A connection: packets that are still to come, bytes received but not parsed, the output so far, the number of commands executed, and the command in execution (none: nothing to
do, or closed), or how the process ended. -/
structure Loc where
  chunks : List Bytes
  packet : Bytes
  sent : Bytes
  done : Nat
  job : Out (Option Job)

/-- Commands that use a batch: `execINCRDECR` and `cmdAPPEND` (also PREPEND), `/repo/src/cmds.c:1668-1769, 1886-1934`. -/
def batched (args : List Bytes) : Bool :=
  match getCmd (args.headD []) with
  | some (some x) => x.2 = .cmdINCR ∨ x.2 = .cmdDECR ∨ x.2 = .cmdINCRBY ∨ x.2 = .cmdDECRBY ∨ x.2 = .cmdAPPEND ∨ x.2 = .cmdPREPEND
  | _ => false

/-- The loop of `evdata`, `/repo/src/conn.c:113-139`: parse the next command; if it is not complete go on when the next packet has come.  (The protocol is known to be RESP.) -/
def fetch : List Bytes → Bytes → Option (List Bytes × Bytes × List Bytes)
  | [], packet =>
    match (if packet = [] then .more else parseCommandResp packet) with
    | .got (args, n) => some (args, packet.drop n, [])
    | _ => none
  | c :: cs, packet =>
    match (if packet = [] then .more else parseCommandResp packet) with
    | .got (args, n) => some (args, packet.drop n, c :: cs)
    | .more => fetch cs (packet ++ c)
    | _ => none

/-- The next command, `/repo/src/conn.c:113-160`.  A command without arguments is nothing. -/
def advance (pw : Bytes) (y : Sys) (clock : Nat → Env) (l : Loc) : Loc :=
  match fetch l.chunks l.packet with
  | none => { l with job := .val none }
  | some (args, packet, chunks) =>
    { l with chunks, packet, job := .val (some ⟨batched args, false, if args = [] then .ret ([], ⟨true⟩) else evcommand (clock l.done) pw (admin y) args ⟨true⟩⟩) }

/-- The key of a call on a key. -/
def callKey : Spec.Call → Option Bytes
  | .load k _ _ => some k
  | .store a => some a.key
  | .delete k _ => some k
  | _ => none

/-- The work on the shard under its lock, `/repo/src/pogocache.c:1396-1645`; all allocations succeed. -/
def onShard (c : Ctx) (now : Int) : Op → Sh → Out Res
  | .load k o, sh => loadOp c ⟨true, true, true⟩ now k o sh
  | .store k v o, sh => storeOp c ⟨true, true, true⟩ now k v o sh
  | .delete k cb, sh => deleteOp c ⟨true, true, true⟩ now k cb sh
  | _, _ => .ub

/-- What the thread of a connection does next.  Calls that are not on a key are not modelled here. -/
def step (c : Ctx) (n : Nat) (pw : Bytes) (y : Sys) (clock : Nat → Env) (l : Loc) : Conc.Act Loc Sh :=
  match l.job with
  | .val (some ⟨own, used, .ret (out, _)⟩) =>
    let l' : Loc := { l with sent := renderAll out l.sent, done := l.done + 1 }
    if W.close ∈ out then .commit { l' with job := .val none } else .commit (advance pw y clock l')
  | .val (some ⟨own, used, .call op k⟩) =>
    if own = false ∧ used = true then .commit { l with job := .val (some ⟨own, false, .call op k⟩) }
    else
      match callKey op with
      | none => .done
      | some key => .access own (shardIdx c n key) fun sh =>
        match onShard c (clock l.done).now (toOp op) sh with
        | .val r => ({ l with job := .val (some ⟨own, true, k ⟨toStatus r.status, r.seen.map kv⟩⟩) }, r.sh)
        | bad => ({ l with job := bad.bind fun _ => .val none }, sh)
  | _ => .done

/-- The threads.  The local state has the number of its client, which tells its clock. -/
def server (c : Ctx) (n : Nat) (pw : Bytes) (y : Sys) (clock : Nat → Nat → Env) (addr : Nat → Nat) : Conc.Prog (Nat × Loc) Sh where
  addr := addr
  act l :=
    match step c n pw y (clock l.1) l.2 with
    | .access own i f => .access own i fun sh => ((l.1, (f sh).1), (f sh).2)
    | .unlock i l' => .unlock i (l.1, l')
    | .commit l' => .commit (l.1, l')
    | .done => .done

/-- A new connection. -/
def opened (pw : Bytes) (y : Sys) (clock : Nat → Env) (chunks : List Bytes) : Loc := advance pw y clock ⟨chunks, [], [], 0, .val none⟩

end Verif.Many
