import Mathlib.Tactic.Common
import Verif.Wire.Spec
import Verif.Resp.Props

/-!
C98: a RESP connection on the model of the cache, from the bytes received to the bytes sent.
-/

namespace Verif.Wire

open Verif.Resp Verif.Cmd Verif.Cache Verif.Shard Verif.Map

/-- The server as one connection sees it: the cache, or how the process ended; whether the client may execute commands; the output so far;
the number of commands executed. -/
structure Srv where
  cache : Out Shards
  auth : ConnSt
  sent : Bytes
  done : Nat

/-- Executing a command in `evdata`, `/repo/src/conn.c:140-169`: `evcommand` at the time of the clock, on the cache; the replies are appended to the output
buffer.  All allocations succeed. -/
def exec (c : Ctx) (n : Nat) (pw : Bytes) (y : Sys) (clock : Nat → Env) : Exec (List Bytes) Srv := fun args st =>
  match st.cache.bind fun shs => (evcommand (clock st.done) pw (admin y) args st.auth).exec c n (fun _ _ => ⟨true, true, true⟩) (clock st.done).now 0 shs with
  | .val ((out, auth), shs) => (⟨.val shs, auth, renderAll out st.sent, st.done + 1⟩, decide (W.close ∈ out))
  | bad => ({ st with cache := bad.bind fun r => .val r.2 }, true)

/-- The bytes received in some chunks on a new connection, `evopened` and `evdata`, `/repo/src/conn.c:62-191`. -/
def serve (c : Ctx) (n : Nat) (pw : Bytes) (y : Sys) (clock : Nat → Env) (others : Proto → Bytes → PR (List Bytes × Nat)) (onErr : Srv → Srv) (shs : Shards)
    (chunks : List Bytes) : PR (Conn Srv) :=
  feed (fun p => if p = .resp then parseCommandResp else others p) (execResp (exec c n pw y clock)) onErr (newConn ⟨.val shs, ⟨true⟩, [], 0⟩) chunks

/-- A distance counter of the hash table has wrapped (C01). -/
def Wrapped (n : Nat) : Out Shards → Prop
  | .val shs => ¬ NoWrap n shs
  | .abort true => True
  | _ => False

end Verif.Wire
