import Mathlib.Tactic.Common
import Verif.Wire.Spec

/-!
C108: the server a user has in mind when memory is low.  It is the one of C98, except that SET (also SETEX, and SET with GET) may make the cache forget one other key, or is refused,
depending on how the cache is configured (`--evict`).
-/

namespace Verif.Low

open Verif.Resp Verif.Cmd Verif.Wire Function

/-- Memory: enough; low, and items may be evicted; low, and they may not. -/
inductive Room where
  | plenty | evict | full
deriving DecidableEq

/-- The key of a command that needs memory to be there. -/
def stores : Ask → Option Bytes
  | .set k _ _ _ | .swap k _ => some k
  | _ => none

/-- "ERR out of memory" -/
def tooFull : Reply := .error [69, 82, 82, 32, 111, 117, 116, 32, 111, 102, 32, 109, 101, 109, 111, 114, 121]

/-- A command at time `now`: the reply, and what is kept then. -/
inductive Serves (now : Int) (room : Room) (m : Store) : Ask → Reply → Store → Prop
  | as {a : Ask} {r : Reply} {m' : Store} : Wire.Serves now m a r m' → (room = .full → stores a = none) → Serves now room m a r m'
  | evict {a : Ask} {r : Reply} {m' : Store} {k v : Bytes} : room = .evict → stores a = some k → m.see now k = none → Wire.Serves now m a r m' → v ≠ k →
      Serves now room m a r (update m' v none)
  | refuse {a : Ask} {k : Bytes} : room = .full → stores a = some k → Serves now room m a tooFull m

/-- Commands at their times and with the memory there is, one after the other: the replies, and what is kept at the end. -/
inductive Conversation : List (Int × Room × Ask) → Store → List Reply → Store → Prop
  | nil (m : Store) : Conversation [] m [] m
  | cons {now : Int} {room : Room} {a : Ask} {l : List (Int × Room × Ask)} {m m1 m2 : Store} {r : Reply} {rs : List Reply} :
      Serves now room m a r m1 → Conversation l m1 rs m2 → Conversation ((now, room, a) :: l) m (r :: rs) m2

end Verif.Low
