import Verif.Basic
import Mathlib.Tactic.Common

/-!
The pattern matcher of KEYS and SCAN.
-/

namespace Verif.Glob

/-- `match`, `/repo/src/util.c:405-432`, called with depth 0 (`/repo/src/cmds.c:518,2160`).  `none` means out of fuel.
92 is the backslash, 42 the star, 63 the question mark. -/
def matchGo : Nat → Bytes → Bytes → Nat → Option Bool
  | 0, _, _, _ => none
  | _ + 1, [], s, _ => some s.isEmpty
  | fuel + 1, p :: ps, s, d =>
    if p = 92 then
      match ps with
      | [] => some false
      | c :: ps' => match s with
        | [] => some false
        | x :: s' => if c ≠ 63 ∧ x ≠ c then some false else matchGo fuel ps' s' d
    else if p = 42 then
      match ps with
      | [] => some true
      | q :: ps' =>
        if q = 42 then matchGo fuel (q :: ps') s d
        else if d = 127 then some false
        else (matchGo fuel (q :: ps') s (d + 1)).bind fun r =>
          if r then some true
          else match s with
            | [] => some false
            | _ :: s' => matchGo fuel (p :: q :: ps') s' d
    else match s with
      | [] => some false
      | x :: s' => if p ≠ 63 ∧ x ≠ p then some false else matchGo fuel ps s' d

/-- The call with as much fuel as it can use (`matchGo_terminates`). -/
def globMatch (pat s : Bytes) : Option Bool := matchGo (pat.length + s.length + 1) pat s 0

/-! ### Specification -/

/-- The parts of a pattern. -/
inductive Tok where
  | lit (c : UInt8)
  | any
  | star
deriving DecidableEq

/-- Reading a pattern: a backslash makes the next character literal; a backslash at the end is an error. -/
def toks : Bytes → Option (List Tok)
  | [] => some []
  | 92 :: [] => none
  | 92 :: c :: ps => (toks ps).map (.lit c :: ·)
  | 42 :: ps => (toks ps).map (.star :: ·)
  | 63 :: ps => (toks ps).map (.any :: ·)
  | c :: ps => (toks ps).map (.lit c :: ·)

/-- What a pattern matches. -/
inductive Matches : List Tok → Bytes → Prop
  | nil : Matches [] []
  | lit {c : UInt8} {ts : List Tok} {s : Bytes} : Matches ts s → Matches (.lit c :: ts) (c :: s)
  | any {x : UInt8} {ts : List Tok} {s : Bytes} : Matches ts s → Matches (.any :: ts) (x :: s)
  | star {pre : Bytes} {ts : List Tok} {s : Bytes} : Matches ts s → Matches (.star :: ts) (pre ++ s)

/-- Number of groups of adjacent stars, not counting one at the end. -/
def starGroups : List Tok → Nat
  | [] => 0
  | .star :: [] => 0
  | .star :: .star :: ts => starGroups (.star :: ts)
  | .star :: t :: ts => 1 + starGroups (t :: ts)
  | _ :: ts => starGroups ts

end Verif.Glob
