import Mathlib.Tactic.Common
import Verif.Wire.Spec

/-!
C106: RESP clients do not see the flags of memcache clients, but they change them.
-/

namespace Verif.Wire

/-- The flags of a key after a RESP command that has changed it; `old` are those before (none: there was no such key). -/
def newFlags (a : Ask) (old : Option Nat) : Nat :=
  match a with
  | .set .. | .swap .. => 0
  | _ => old.getD 0

end Verif.Wire
