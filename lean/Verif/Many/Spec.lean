import Mathlib.Tactic.Common
import Verif.Wire.Spec

/-!
C101: many clients at once.  The server a user has in mind is the one of C98; it serves one command at a time, of any client; a command on several keys is served key by key, and
commands of other clients may come in between.
-/

namespace Verif.Many

open Verif.Resp Verif.Cmd Verif.Wire Function

/-- The keys of a command. -/
def keysOf : Ask → List Bytes
  | .ping | .echo _ => []
  | .get k | .ttl _ k | .set k _ _ _ | .swap k _ | .expire k _ | .join _ k _ | .add k _ => [k]
  | .mget ks | .exist ks | .touch ks | .del ks => ks

/-- The clocks of the threads need not agree.  A key of the command that is gone by the clock of the command may be thrown away, so that it is gone for the others as well. -/
def Drops (now : Int) (ks : List Bytes) (m m' : Store) : Prop := ∀ k, m' k = m k ∨ (k ∈ ks ∧ m.see now k = none ∧ m' k = none)

/-- Commands of the clients `order`, one after the other: each is the next command of its client, at its time; `rs` are the replies to each client. -/
inductive Served (clock : Nat → Nat → Env) (asks : Nat → List Ask) (m : Store) : List Nat → (Nat → List Reply) → Store → Prop
  | none : Served clock asks m [] (fun _ => []) m
  | one {order : List Nat} {rs : Nat → List Reply} {m1 m1' m2 : Store} {t : Nat} {a : Ask} {r : Reply} : Served clock asks m order rs m1 →
      (asks t)[(rs t).length]? = some a → Drops (clock t (rs t).length).now (keysOf a) m1 m1' → Serves (clock t (rs t).length).now m1' a r m2 →
      Served clock asks m (order ++ [t]) (update rs t (rs t ++ [r])) m2

/-- Commands on at most one key. -/
def OneKey : Ask → Prop
  | .mget ks | .exist ks | .touch ks | .del ks => ks.length = 1
  | _ => True

/-- The parts of a command on several keys. -/
def parts : Ask → List Ask
  | .mget ks => ks.map .get
  | .exist ks => ks.map fun k => .exist [k]
  | .touch ks => ks.map fun k => .touch [k]
  | .del ks => ks.map fun k => .del [k]
  | a => [a]

/-- The sum of the numbers. -/
def total : List Reply → Int
  | .int n :: rs => n + total rs
  | _ :: rs => total rs
  | [] => 0

/-- The reply to a command, from those to its parts: all of them, their sum, or the only one. -/
def whole : Ask → List Reply → Reply
  | .mget _, rs => .array rs
  | .exist _, rs | .touch _, rs | .del _, rs => .int (total rs)
  | _, rs => rs.headD .null

/-- The next part of the next command of client `t`, at the time of the command: from the replies `rs` and `ps` (to the parts of a command that is not yet finished) and the store
`m1` to those after it. -/
inductive Next (clock : Nat → Nat → Env) (asks : Nat → List Ask) (t : Nat) (rs ps : Nat → List Reply) (m1 : Store) : (Nat → List Reply) → (Nat → List Reply) → Store → Prop
  | part {m1' m2 : Store} {a b : Ask} {r : Reply} :
      (asks t)[(rs t).length]? = some a → (parts a)[(ps t).length]? = some b → (ps t).length + 1 < (parts a).length →
      Drops (clock t (rs t).length).now (keysOf b) m1 m1' → Serves (clock t (rs t).length).now m1' b r m2 →
      Next clock asks t rs ps m1 rs (update ps t (ps t ++ [r])) m2
  | last {m1' m2 : Store} {a b : Ask} {r : Reply} :
      (asks t)[(rs t).length]? = some a → (parts a)[(ps t).length]? = some b → (ps t).length + 1 = (parts a).length →
      Drops (clock t (rs t).length).now (keysOf b) m1 m1' → Serves (clock t (rs t).length).now m1' b r m2 →
      Next clock asks t rs ps m1 (update rs t (rs t ++ [whole a (ps t ++ [r])])) (update ps t []) m2

/-- Parts of commands of the clients `order`, one after the other; `rs` are the replies to each client, and `ps` those to the parts of the command that is not yet finished. -/
inductive ServedByKey (clock : Nat → Nat → Env) (asks : Nat → List Ask) (m : Store) : List Nat → (Nat → List Reply) → (Nat → List Reply) → Store → Prop
  | none : ServedByKey clock asks m [] (fun _ => []) (fun _ => []) m
  | one {order : List Nat} {rs ps rs' ps' : Nat → List Reply} {m1 m2 : Store} {t : Nat} : ServedByKey clock asks m order rs ps m1 →
      Next clock asks t rs ps m1 rs' ps' m2 → ServedByKey clock asks m (order ++ [t]) rs' ps' m2

end Verif.Many
