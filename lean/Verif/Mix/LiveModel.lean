import Mathlib.Tactic.Common
import Verif.Many.LiveModel
import Verif.Mix.Model

/-!
C123, C124: SAVE, KEYS, sweeps and flushes while clients of all protocols work.
-/

namespace Verif.Mix

open Verif.Resp Verif.Cmd Verif.Cache Verif.Shard Verif.Map Function
open Verif.Many (Chore Worker choreStep)

/-- All threads: clients, and workers as in C104 (`ACQUIRE_FOR_SCAN_AND_EXECUTE`, `/repo/src/pogocache.c:1383-1394`). -/
def liveServer (c : Ctx) (n : Nat) (kind : Nat → Kind) (pw : Bytes) (y : Sys) (clock : Nat → Nat → Env) (addr : Nat → Nat) : Conc.Prog ((Nat × Loc) ⊕ Worker) Sh where
  addr := addr
  act
    | .inl l =>
      match (server c n kind pw y clock addr).act l with
      | .access own i f => .access own i fun sh => (.inl (f sh).1, (f sh).2)
      | .unlock i l' => .unlock i (.inl l')
      | .commit l' => .commit (.inl l')
      | .done => .done
    | .inr w =>
      match choreStep c w with
      | .access own i f => .access own i fun sh => (.inr (f sh).1, (f sh).2)
      | .unlock i w' => .unlock i (.inr w')
      | .commit w' => .commit (.inr w')
      | .done => .done

/-- The start: thread `t` does the chores `work t`, or (none) serves client `t`.  The threads that save are those of `/repo/src/save.c:149-205`. -/
def liveStart (kind : Nat → Kind) (pw : Bytes) (y : Sys) (clock : Nat → Nat → Env) (chunks : Nat → List Bytes) (work : Nat → Option (List Chore)) (t : Nat) : (Nat × Loc) ⊕ Worker :=
  match work t with
  | none => .inl (t, opened (kind t) pw y (clock t) (chunks t))
  | some l => .inr ⟨l, .val none, []⟩

end Verif.Mix
