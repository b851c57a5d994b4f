import Mathlib.Tactic.Common
import Verif.Map.Model

/-!
C118: the hash function of keys.
-/

namespace Verif.Hash

/-- The multiplier, `/repo/src/pogocache.c:96`. -/
def mul : BitVec 64 := 0x14020a57acced8b7

/-- `x<<31|x>>33`, `/repo/src/pogocache.c:97`. -/
def rot (x : BitVec 64) : BitVec 64 := x <<< 31 ||| x >>> 33

/-- The number that has these bytes, the lowest first. -/
def number : Bytes → Nat
  | [] => 0
  | b :: bs => b.toNat + 256 * number bs

/-- `memcpy(&x,p,8)`, `/repo/src/pogocache.c:97`, on a machine that has the lowest byte first. -/
def word (bs : Bytes) : BitVec 64 := BitVec.ofNat 64 (number bs)

/-- The body of the first loop, `/repo/src/pogocache.c:97`. -/
def mix (h x : BitVec 64) : BitVec 64 := rot (h * mul ^^^ rot (x * mul))

/-- The two loops, `/repo/src/pogocache.c:97-98`: words of 8 bytes, then single bytes. -/
def loop (h : BitVec 64) : Bytes → BitVec 64
  | a :: b :: c :: d :: e :: f :: g :: i :: p => loop (mix h (word [a, b, c, d, e, f, g, i])) p
  | p => p.foldl (fun h b => h * mul ^^^ BitVec.ofNat 64 b.toNat) h

/-- The last line, `/repo/src/pogocache.c:99`. -/
def finish (h : BitVec 64) (len : Nat) : BitVec 64 :=
  let h := h * mul + BitVec.ofNat 64 len
  let h := h ^^^ h >>> 31
  let h := h * mul
  let h := h ^^^ h >>> 31
  let h := h * mul
  let h := h ^^^ h >>> 31
  h * mul

/-- `th64`, `/repo/src/pogocache.c:94-100`. -/
def th64 (seed : BitVec 64) (key : Bytes) : BitVec 64 := finish (loop seed key) key.length

/-- What the C function returns for no bytes with seed 0, and for `hello world` with seed 1. -/
example : th64 0 [] = 0 ∧ th64 1 [104, 101, 108, 108, 111, 32, 119, 111, 114, 108, 100] = 0x0c52dbf42f179da2 := by decide +kernel

/-- The hash function that the cache uses with the seed, `/repo/src/pogocache.c:1091, 1356`. -/
def hashOf (seed : BitVec 64) (key : Bytes) : Nat := (th64 seed key).toNat

end Verif.Hash
