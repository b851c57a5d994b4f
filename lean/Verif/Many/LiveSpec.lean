import Mathlib.Tactic.Common
import Verif.Many.Spec

/-!
C104: what SAVE, KEYS, sweeps and flushes do while clients work.  `grp` tells the shard of a key.
-/

namespace Verif.Many

open Verif.Resp Verif.Cmd Verif.Wire Verif.Cache Function

/-- What is done to a shard: show all its entries (`thsave`, `/repo/src/save.c:120-135`, and KEYS, `/repo/src/cmds.c:529-534`, whose callbacks always answer "continue"), throw away what has
expired (`/repo/src/cmds.c:1101-1105,1167-1168`, `/repo/src/main.c:384-386`), or all (`/repo/src/cmds.c:683-691,740-744`). -/
inductive Kind where
  | show
  | sweep
  | clear
deriving DecidableEq

/-- One such call: the shard, and the time given with the call, read before the lock is taken. -/
structure Chore where
  kind : Kind
  shard : Nat
  now : Int
deriving DecidableEq

/-- The store after a chore: what is gone by the clock of the chore is thrown away in its shard, or everything by a flush. -/
def choreDone (grp : Bytes → Nat) (x : Chore) (m : Store) : Store := fun k =>
  if grp k = x.shard then (if x.kind = .clear then none else m.see x.now k) else m k

/-- Parts of commands, and chores, one after the other; each event has its thread, and the chore if it is one.  `log` has the chores, each with its thread and the store
just before it. -/
inductive Live (clock : Nat → Nat → Env) (asks : Nat → List Ask) (grp : Bytes → Nat) (m : Store) :
    List (Nat × Option Chore) → (Nat → List Reply) → (Nat → List Reply) → Store → List (Nat × Chore × Store) → Prop
  | none : Live clock asks grp m [] (fun _ => []) (fun _ => []) m []
  | ask {ev : List (Nat × Option Chore)} {rs ps rs' ps' : Nat → List Reply} {m1 m2 : Store} {log : List (Nat × Chore × Store)} {t : Nat} : Live clock asks grp m ev rs ps m1 log →
      Next clock asks t rs ps m1 rs' ps' m2 → Live clock asks grp m (ev ++ [(t, none)]) rs' ps' m2 log
  | chore {ev : List (Nat × Option Chore)} {rs ps : Nat → List Reply} {m1 : Store} {log : List (Nat × Chore × Store)} {t : Nat} {x : Chore} : Live clock asks grp m ev rs ps m1 log →
      Live clock asks grp m (ev ++ [(t, some x)]) rs ps (choreDone grp x m1) (log ++ [(t, x, m1)])

/-- A list of entries is what the store has in the shard of a chore, at its time: exactly these keys with their values and deadlines. -/
def ShardShown (grp : Bytes → Nat) (x : Chore) (m : Store) (l : List (Bytes × Spec.Item)) : Prop :=
  ∀ k z, (∃ it, (k, it) ∈ l ∧ it.value = z.value ∧ (if it.expires = 0 then none else some it.expires) = z.upto) ↔ grp k = x.shard ∧ m.see x.now k = some z

end Verif.Many
