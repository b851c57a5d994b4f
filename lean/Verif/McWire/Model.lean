import Mathlib.Tactic.Common
import Verif.McWire.Spec
import Verif.Wire.Model
import Verif.Mc.Props

/-!
C100: a memcache connection on the model of the cache, from the bytes received to the bytes sent.
-/

namespace Verif.McWire

open Verif.Resp Verif.Cmd Verif.Cache Verif.Shard Verif.Map

/-- What one request does, `/repo/src/conn.c:113-169`: an error of the parser is written; a command is executed by `evcommand`.  The result is the bytes written, the
state of the connection, and whether it is closed.  `noreply` is not looked at. -/
def handle (e : Env) (pw : Bytes) (y : Sys) (st : ConnSt) : Mc.Req → Prog (Bytes × ConnSt × Bool)
  | .bad x => .ret (Mc.writeErr x.text false, st, false)
  | .cmd args _ => (evcommand e pw (admin y) args st).map fun r => (Mc.written r.1, r.2, decide (W.close ∈ r.1))

/-- Executing a request in `evdata`, `/repo/src/conn.c:113-169`, at the time of the clock, on the cache; what is written is appended to the output buffer.  All
allocations succeed. -/
def exec (c : Ctx) (n : Nat) (pw : Bytes) (y : Sys) (clock : Nat → Env) : Exec Mc.Req Wire.Srv := fun q st =>
  match st.cache.bind fun shs => (handle (clock st.done) pw y st.auth q).exec c n (fun _ _ => ⟨true, true, true⟩) (clock st.done).now 0 shs with
  | .val ((bytes, auth, close), shs) => (⟨.val shs, auth, st.sent ++ bytes, st.done + 1⟩, close)
  | bad => ({ st with cache := bad.bind fun r => .val r.2 }, true)

/-- The bytes received in some chunks on a new connection, `evopened` and `evdata`, `/repo/src/conn.c:62-191`. -/
def serve (c : Ctx) (n : Nat) (pw : Bytes) (y : Sys) (clock : Nat → Env) (others : Proto → Bytes → PR (Mc.Req × Nat)) (onErr : Wire.Srv → Wire.Srv) (shs : Shards)
    (chunks : List Bytes) : PR (Conn Wire.Srv) :=
  feed (fun p => if p = .memcache then Mc.parseMc else others p) (exec c n pw y clock) onErr (newConn ⟨.val shs, ⟨true⟩, [], 0⟩) chunks

end Verif.McWire
