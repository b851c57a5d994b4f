import Mathlib.Tactic.Common
import Verif.Many.Model
import Verif.Many.LiveSpec

/-!
C104, C105: SAVE, KEYS, sweeps and flushes while clients work.  All of them go over the shards one by one, and lock only the one they work on.
-/

namespace Verif.Many

open Verif.Resp Verif.Cmd Verif.Cache Verif.Shard Verif.Map Verif.Wire Function

/-- A thread doing chores: those to do, what the one being done has shown (none: not begun) or how the process ended, and those that are done with what they have shown. -/
structure Worker where
  todo : List Chore
  got : Out (Option (List (Bytes × Spec.Item)))
  shown : List (Chore × List (Bytes × Spec.Item))

/-- The work under the lock of the shard: `iterop`, `sweepop`, `clearop`, `/repo/src/pogocache.c:1674-1722,1910-1940,1977-2045`; all allocations succeed. -/
def choreOp (c : Ctx) (x : Chore) (sh : Sh) : Out (List (Bytes × Spec.Item) × Sh) :=
  match x.kind with
  | .show => (iterOp c ⟨true, true, true⟩ x.now (some fun _ _ => .cont) sh).bind fun r => .val (r.seen.map kv, r.sh)
  | .sweep => (sweepOp c ⟨true, true, true⟩ x.now sh).bind fun r => .val ([], r.1.sh)
  | .clear => (clearOp c ⟨true, true, true⟩ x.now sh).bind fun r => .val ([], r.sh)

/-- What such a thread does next: `ACQUIRE_FOR_SCAN_AND_EXECUTE`, `/repo/src/pogocache.c:1383-1394`. -/
def choreStep (c : Ctx) (w : Worker) : Conc.Act Worker Sh :=
  match w.todo, w.got with
  | x :: _, .val none => .access false x.shard fun sh =>
    match choreOp c x sh with
    | .val (l, sh') => ({ w with got := .val (some l) }, sh')
    | bad => ({ w with got := bad.bind fun _ => .val none }, sh)
  | x :: xs, .val (some l) => .commit ⟨xs, .val none, w.shown ++ [(x, l)]⟩
  | _, _ => .done

/-- All threads: clients and workers. -/
def live (c : Ctx) (n : Nat) (pw : Bytes) (y : Sys) (clock : Nat → Nat → Env) (addr : Nat → Nat) : Conc.Prog ((Nat × Loc) ⊕ Worker) Sh where
  addr := addr
  act
    | .inl l =>
      match (server c n pw y clock addr).act l with
      | .access own i f => .access own i fun sh => (.inl (f sh).1, (f sh).2)
      | .unlock i l' => .unlock i (.inl l')
      | .commit l' => .commit (.inl l')
      | .done => .done
    | .inr w =>
      match choreStep c w with
      | .access own i f => .access own i fun sh => (.inr (f sh).1, (f sh).2)
      | .unlock i w' => .unlock i (.inr w')
      | .commit w' => .commit (.inr w')
      | .done => .done

/-- The start: thread `t` does the chores `work t`, or (none) serves client `t`. -/
def liveStart (pw : Bytes) (y : Sys) (clock : Nat → Nat → Env) (chunks : Nat → List Bytes) (work : Nat → Option (List Chore)) (t : Nat) : (Nat × Loc) ⊕ Worker :=
  match work t with
  | none => .inl (t, opened pw y (clock t) (chunks t))
  | some l => .inr ⟨l, .val none, []⟩

end Verif.Many
