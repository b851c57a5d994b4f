import Mathlib.Tactic.Common
import Verif.Cmd.TableProps
import Verif.Cmd.SetOpt
import Verif.Cmd.Service
import Verif.Cmd.Keys
import Verif.Cmd.Single

/-!
C98: the server a user has in mind.  Keys have values, and some of them a time when they go away; each command has its reply and its effect.
Nothing here mentions bytes on the wire, hash tables, tokens or flags.
-/

namespace Verif.Wire

open Verif.Resp Verif.Cmd Function

/-- A value and the time when it goes away. -/
structure Kept where
  value : Bytes
  upto : Option Int
deriving DecidableEq

/-- What is kept. -/
abbrev Store := Bytes → Option Kept

/-- What is there at time `now`. -/
def Store.see (m : Store) (now : Int) (k : Bytes) : Option Kept := (m k).filter fun x => x.upto.all fun d => decide (now < d)

/-- How long a value is to stay: for ever, as long as the old one, or for some nanoseconds. -/
inductive Life where
  | ever
  | kept
  | span (x : Int)
deriving DecidableEq

/-- The time when it goes away; the last time is 2^63 - 1. -/
def Life.upto (now : Int) (old : Option Kept) : Life → Option Int
  | .ever => none
  | .kept => old.bind (·.upto)
  | .span x => some (min (now + x) (2 ^ 63 - 1))

/-- When to store: always, only a new key, only an old key. -/
inductive Cond where
  | always | new | old
deriving DecidableEq

/-- Whether the condition holds. -/
def Cond.holds (there : Option Kept) : Cond → Prop
  | .always => True
  | .new => there = none
  | .old => there ≠ none

/-- The commands. -/
inductive Ask where
  | ping
  | echo (t : Bytes)
  | get (k : Bytes)
  | mget (ks : List Bytes)
  | exist (ks : List Bytes)
  | touch (ks : List Bytes)
  | ttl (ms : Bool) (k : Bytes)
  | set (k v : Bytes) (c : Cond) (l : Life)
  | swap (k v : Bytes)
  | del (ks : List Bytes)
  | expire (k : Bytes) (secs : Int)
  | join (front : Bool) (k v : Bytes)
  | add (k : Bytes) (d : Int)

/-- Decimal digits. -/
def digits (n : Nat) : Bytes := if n < 10 then [UInt8.ofNat (48 + n)] else digits (n / 10) ++ [UInt8.ofNat (48 + n % 10)]

/-- A number in decimal. -/
def shown (x : Int) : Bytes := if x < 0 then 45 :: digits (-x).toNat else digits x.toNat

/-- The text is a number of 64 bits (no text at all is zero). -/
def IsNumber (t : Bytes) (x : Int) : Prop := (t = [] ∧ x = 0) ∨ (t.length ≤ 21 ∧ Num.DenotesInt t x ∧ Num.IsI64 x)

/-- A value as a reply. -/
def asReply : Option Kept → Reply
  | some x => .bulk x.value
  | none => .null

/-- "OK". -/
def okay : Reply := .simple [79, 75]

/-- The longest value APPEND and PREPEND make. -/
def longest : Nat := 536870912

/-- A command at time `now`: the reply, and what is kept then. -/
inductive Serves (now : Int) (m : Store) : Ask → Reply → Store → Prop
  | ping : Serves now m .ping (.simple [80, 79, 78, 71]) m
  | echo {t : Bytes} : Serves now m (.echo t) (.bulk t) m
  | get {k : Bytes} : Serves now m (.get k) (asReply (m.see now k)) m
  | mget {ks : List Bytes} : Serves now m (.mget ks) (.array (ks.map fun k => asReply (m.see now k))) m
  | exist {ks : List Bytes} : Serves now m (.exist ks) (.int (ks.countP fun k => (m.see now k).isSome)) m
  | touch {ks : List Bytes} : Serves now m (.touch ks) (.int (ks.countP fun k => (m.see now k).isSome)) m
  | ttlMissing {ms : Bool} {k : Bytes} : m.see now k = none → Serves now m (.ttl ms k) (.int (-2)) m
  | ttlEver {ms : Bool} {k v : Bytes} : m.see now k = some ⟨v, none⟩ → Serves now m (.ttl ms k) (.int (-1)) m
  | ttl {ms : Bool} {k v : Bytes} {d : Int} : m.see now k = some ⟨v, some d⟩ →
      Serves now m (.ttl ms k) (.int ((d - now) / if ms then 1000000 else 1000000000)) m
  | set {k v : Bytes} {c : Cond} {l : Life} : c.holds (m.see now k) →
      Serves now m (.set k v c l) okay (update m k (some ⟨v, l.upto now (m.see now k)⟩))
  | setNot {k v : Bytes} {c : Cond} {l : Life} : ¬ c.holds (m.see now k) → Serves now m (.set k v c l) .null m
  | swap {k v : Bytes} : Serves now m (.swap k v) (asReply (m.see now k)) (update m k (some ⟨v, none⟩))
  | del {ks : List Bytes} : Serves now m (.del ks) (.int (ks.dedup.countP fun k => (m.see now k).isSome)) (fun k => if k ∈ ks then none else m k)
  | expireMissing {k : Bytes} {secs : Int} : m.see now k = none → Serves now m (.expire k secs) (.int 0) m
  | expire {k : Bytes} {secs : Int} {x : Kept} : m.see now k = some x →
      Serves now m (.expire k secs) (.int 1) (update m k (some ⟨x.value, (Life.span (secs * 1000000000)).upto now none⟩))
  | joinNew {front : Bool} {k v : Bytes} : m.see now k = none → Serves now m (.join front k v) (.int v.length) (update m k (some ⟨v, none⟩))
  | join {front : Bool} {k v : Bytes} {x : Kept} : m.see now k = some x → v.length + x.value.length ≤ longest →
      Serves now m (.join front k v) (.int (v.length + x.value.length : Nat))
        (update m k (some ⟨if front then v ++ x.value else x.value ++ v, x.upto⟩))
  | joinTooLong {front : Bool} {k v t : Bytes} {x : Kept} : m.see now k = some x → longest < v.length + x.value.length →
      Serves now m (.join front k v) (.error t) m
  | addNew {k : Bytes} {d : Int} : m.see now k = none → Serves now m (.add k d) (.int d) (update m k (some ⟨shown d, none⟩))
  | add {k : Bytes} {d n : Int} {x : Kept} : m.see now k = some x → IsNumber x.value n → Num.IsI64 (n + d) →
      Serves now m (.add k d) (.int (n + d)) (update m k (some ⟨shown (n + d), x.upto⟩))
  | addOver {k t : Bytes} {d n : Int} {x : Kept} : m.see now k = some x → IsNumber x.value n → ¬ Num.IsI64 (n + d) →
      Serves now m (.add k d) (.error t) m
  | addNot {k t : Bytes} {d : Int} {x : Kept} : m.see now k = some x → (¬ ∃ n, IsNumber x.value n) → Serves now m (.add k d) (.error t) m

/-- Commands at their times, one after the other: the replies, and what is kept at the end. -/
inductive Conversation : List (Int × Ask) → Store → List Reply → Store → Prop
  | nil (m : Store) : Conversation [] m [] m
  | cons {now : Int} {a : Ask} {l : List (Int × Ask)} {m m1 m2 : Store} {r : Reply} {rs : List Reply} :
      Serves now m a r m1 → Conversation l m1 rs m2 → Conversation ((now, a) :: l) m (r :: rs) m2

/-- How a condition is written. -/
inductive CondWords : Cond → List Bytes → Prop
  | always : CondWords .always []
  | new {w : Bytes} : Spells w [110, 120] → CondWords .new [w]
  | old {w : Bytes} : Spells w [120, 120] → CondWords .old [w]

/-- How a life is written. -/
inductive LifeWords : Life → List Bytes → Prop
  | ever : LifeWords .ever []
  | kept {w : Bytes} : Spells w [107, 101, 101, 112, 116, 116, 108] → LifeWords .kept [w]
  | ex {w t : Bytes} {x : Int} : Spells w [101, 120] → IntArg t x → 0 < x → LifeWords (.span (x * 1000000000)) [w, t]
  | px {w t : Bytes} {x : Int} : Spells w [112, 120] → IntArg t x → 0 < x → LifeWords (.span (x * 1000000)) [w, t]

/-- How commands are written; names and options in any letter case, options in any order. -/
inductive Words : Ask → List Bytes → Prop
  | ping {w : Bytes} : Spells w pingName → Words .ping [w]
  | echo {w t : Bytes} : Spells w echoName ∨ Spells w pingName → Words (.echo t) [w, t]
  | get {w k : Bytes} : Spells w getName → Words (.get k) [w, k]
  | mget {w : Bytes} {ks : List Bytes} : Spells w mgetName → ks ≠ [] → Words (.mget ks) (w :: ks)
  | exist {w : Bytes} {ks : List Bytes} : Spells w existsName → ks ≠ [] → Words (.exist ks) (w :: ks)
  | touch {w : Bytes} {ks : List Bytes} : Spells w touchName → ks ≠ [] → Words (.touch ks) (w :: ks)
  | ttl {ms : Bool} {w k : Bytes} : Spells w (ttlName ms) → Words (.ttl ms k) [w, k]
  | set {w k v : Bytes} {c : Cond} {l : Life} {cs ls ws : List Bytes} : Spells w setName → CondWords c cs → LifeWords l ls →
      (ws = cs ++ ls ∨ ws = ls ++ cs) → Words (.set k v c l) (w :: k :: v :: ws)
  | setex {w k v t : Bytes} {x : Int} : Spells w setexName → IntArg t x → 0 < x → Words (.set k v .always (.span (x * 1000000000))) [w, k, t, v]
  | swap {w k v g : Bytes} : Spells w setName → Spells g [103, 101, 116] → Words (.swap k v) [w, k, v, g]
  | del {w : Bytes} {ks : List Bytes} : Spells w delName → ks ≠ [] → Words (.del ks) (w :: ks)
  | expire {w k t : Bytes} {x : Int} : Spells w expireName → IntArg t x → 0 < x → Words (.expire k x) [w, k, t]
  | join {front : Bool} {w k v : Bytes} : Spells w (appendName front) → Words (.join front k v) [w, k, v]
  | incrby {w k t : Bytes} {d : Int} : Spells w (incrName false false true) → IntArg t d → Words (.add k d) [w, k, t]
  | decrby {w k t : Bytes} {d : Int} : Spells w (incrName true false true) → IntArg t d → Num.IsI64 (-d) → Words (.add k (-d)) [w, k, t]
  | incr {w k : Bytes} : Spells w (incrName false false false) → Words (.add k 1) [w, k]
  | decr {w k : Bytes} : Spells w (incrName true false false) → Words (.add k (-1)) [w, k]

end Verif.Wire
