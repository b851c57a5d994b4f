import Verif.Basic

/-!
Model of the "sixpack" key compression, `/repo/src/pogocache.c` lines 153-237.
-/

namespace Verif.Sixpack

/-- The 128 leading elements of `tosix[256]`, `/repo/src/pogocache.c:161-170` (the C initialiser also
stops there; the remaining 128 elements are zero initialised). -/
def tosixTable : List UInt8 :=
  [ 0,  0,  0,  0,  0,  0,  0,  0,  0,  0,  0,  0,  0,  0,  0,  0,
    0,  0,  0,  0,  0,  0,  0,  0,  0,  0,  0,  0,  0,  0,  0,  0,
    0,  0,  0,  0,  0,  0,  0,  0,  0,  0,  0,  0,  0,  1,  2,  0,
    3,  4,  5,  6,  7,  8,  9, 10, 11, 12, 13,  0,  0,  0,  0,  0,
    0, 14, 15, 16, 17, 18, 19, 20, 21, 22, 23, 24, 25, 26, 27, 28,
   29,  0, 30, 31, 32, 33, 34, 35, 36, 37,  0,  0,  0,  0,  0, 38,
    0, 39, 40, 41, 42, 43, 44, 45, 46, 47, 48, 49, 50, 51, 52, 53,
   54, 55, 56, 57, 58, 59, 60, 61, 62, 63,  0,  0,  0,  0,  0,  0]

/-- `tosix[b]`, `/repo/src/pogocache.c:161-170`. -/
def tosix (b : UInt8) : UInt8 := tosixTable.getD b.toNat 0

/-- `fromsix[]`, `/repo/src/pogocache.c:172-178` (64 elements; every index used is `&63` or `>>2` of a
byte, so below 64). -/
def fromsixTable : List UInt8 :=
  [  0,  45,  46,  48,  49,  50,  51,  52,  53,  54,  55,  56,  57,  58,
    65,  66,  67,  68,  69,  70,  71,  72,  73,  74,  75,  76,  77,  78,
    79,  80,  82,  83,  84,  85,  86,  87,  88,  89,  95,  97,  98,  99,
   100, 101, 102, 103, 104, 105, 106, 107, 108, 109, 110, 111, 112, 113,
   114, 115, 116, 117, 118, 119, 120, 121]

/-- `fromsix[k]`, `/repo/src/pogocache.c:172-178`. -/
def fromsix (k : UInt8) : UInt8 := fromsixTable.getD k.toNat 0

/-- `dst[j-1] |= x` where `j` is the number of bytes filled so far,
`/repo/src/pogocache.c:200,203,206`. -/
def orLast (dst : Bytes) (x : UInt8) : Bytes :=
  match dst with
  | [] => []
  | [b] => [b ||| x]
  | b :: c :: r => b :: orLast (c :: r) x

/-- Loop body and loop of `sixpack`, `/repo/src/pogocache.c:192-209`: `i` is the loop index, `dst` the
bytes filled so far (`j = dst.length`).  `none` is `return 0`. -/
def sixpackLoop : Bytes → Nat → Bytes → Option Bytes
  | [], _, dst => some dst
  | b :: bs, i, dst =>
    let k := tosix b
    if k = 0 then none
    else if i % 4 = 0 then sixpackLoop bs (i+1) (dst ++ [k <<< 2])
    else if i % 4 = 1 then sixpackLoop bs (i+1) (orLast dst (k >>> 4) ++ [k <<< 4])
    else if i % 4 = 2 then sixpackLoop bs (i+1) (orLast dst (k >>> 2) ++ [k <<< 6])
    else sixpackLoop bs (i+1) (orLast dst k)

/-- `sixpack`, `/repo/src/pogocache.c:189-210`.  Result: the filled bytes; its length is the C return
value, `[]` is the `return 0` case. -/
def sixpack (data : Bytes) : Bytes := (sixpackLoop data 0 []).getD []

/-- Loop of `unsixpack`, `/repo/src/pogocache.c:220-232`: `prev` is `bytes[i-1]`, `k` the phase. -/
def unsixpackLoop : Bytes → UInt8 → Nat → Bytes → Bytes
  | [], _, _, dst => dst
  | b :: bs, prev, k, dst =>
    if k = 0 then unsixpackLoop bs b 1 (dst ++ [fromsix (b >>> 2)])
    else if k = 1 then unsixpackLoop bs b 2 (dst ++ [fromsix (((prev <<< 4) ||| (b >>> 4)) &&& 63)])
    else unsixpackLoop bs b 0
      (dst ++ [fromsix (((prev <<< 2) ||| (b >>> 6)) &&& 63), fromsix (b &&& 63)])

/-- What `unsixpack` writes to `dst` before the final adjustment (lines 220-232); its length is the
number of bytes written to the caller's 128 byte buffer. -/
def unsixpackWritten (data : Bytes) : Bytes := unsixpackLoop data 0 0 []

/-- `unsixpack`, `/repo/src/pogocache.c:216-237`: drop a trailing NUL (lines 233-235). -/
def unsixpack (data : Bytes) : Bytes :=
  let dst := unsixpackWritten data
  if dst.getLast? = some 0 then dst.dropLast else dst

end Verif.Sixpack
