import Verif.Basic

/-!
Number codecs and clamped arithmetic: `/repo/src/util.c` and the copies in `/repo/src/pogocache.c`,
`/repo/src/postgres.c`.  Unsigned C integers are `Nat` below the obvious bound; every place where
the C code truncates is written as an explicit `%`.
-/

namespace Verif.Num

/-- `varint_write_u64`, `/repo/src/util.c:75-88` (same text at `/repo/src/pogocache.c:254-267`).
The `do … while` loop and the `x < 128` shortcut are one recursion. -/
def varintWrite (x : Nat) : Bytes :=
  if x < 128 then [UInt8.ofNat x]
  else (UInt8.ofNat (x % 256) ||| 128) :: varintWrite (x / 128)
termination_by x
decreasing_by omega

/-- Loop of `varint_read_u64` with a length, `/repo/src/util.c:99-107`.
`i` is the loop index, `acc` the partial `*x`.  Result: the C return value and `*x`. -/
def varintReadLoop : Bytes → Nat → Nat → Int × Nat
  | [], i, acc => (if i = 10 then -1 else 0, acc)
  | b :: bs, i, acc =>
    if i < 10 then
      let acc' := acc ||| (((b &&& 127).toNat <<< (7 * i)) % 2 ^ 64)
      if b < 128 then ((i : Int) + 1, acc') else varintReadLoop bs (i + 1) acc'
    else (if i = 10 then -1 else 0, acc)

/-- `varint_read_u64` of `/repo/src/util.c:90-108`. -/
def varintRead (data : Bytes) : Int × Nat :=
  match data with
  | b :: _ => if b < 128 then (1, b.toNat) else varintReadLoop data 0 0
  | [] => varintReadLoop data 0 0

/-- Loop of the unchecked `varint_read_u64`, `/repo/src/pogocache.c:278-285`; `none` is reading past
the end of the given memory or shifting by 64 bits or more (both undefined in C). -/
def varintReadRawLoop : Bytes → Nat → Nat → Option (Nat × Nat)
  | [], _, _ => none
  | b :: bs, i, acc =>
    if 7 * i < 64 then
      let acc' := acc ||| (((b &&& 127).toNat <<< (7 * i)) % 2 ^ 64)
      if b < 128 then some (i + 1, acc') else varintReadRawLoop bs (i + 1) acc'
    else none

/-- The unchecked `varint_read_u64` of `/repo/src/pogocache.c:269-286`. -/
def varintReadRaw (data : Bytes) : Option (Nat × Nat) :=
  match data with
  | b :: _ => if b < 128 then some (1, b.toNat) else varintReadRawLoop data 0 0
  | [] => none

/-- `varint_write_i64`, `/repo/src/util.c:110-114`, on 64-bit words. -/
def zigzag (x : BitVec 64) : BitVec 64 :=
  let ux := x <<< 1
  if x.slt 0 then ~~~ux else ux

/-- `varint_read_i64`, `/repo/src/util.c:116-122`. -/
def unzigzag (ux : BitVec 64) : BitVec 64 :=
  let x := ux >>> 1
  if ux &&& 1 ≠ 0 then ~~~x else x

/-- `varint_write_i64`, `/repo/src/util.c:110-114`. -/
def varintWriteI (x : BitVec 64) : Bytes := varintWrite (zigzag x).toNat

/-- `varint_read_i64`, `/repo/src/util.c:116-122`. -/
def varintReadI (data : Bytes) : Int × BitVec 64 :=
  let (n, ux) := varintRead data
  (n, unzigzag (BitVec.ofNat 64 ux))

/-- Little-endian writers: `write_u64`/`write_u32`, `/repo/src/util.c:183-193,209-215`, the `memcpy`
stores of `entry_new` (`/repo/src/pogocache.c:567-594`, little-endian machine), and `store_ptr`
(`/repo/src/pogocache.c:131-136`, 6 bytes).  `n` is the number of bytes. -/
def writeLE : Nat → Nat → Bytes
  | 0, _ => []
  | n + 1, x => UInt8.ofNat (x % 256) :: writeLE n (x / 256)

/-- Little-endian readers: `/repo/src/util.c:195-207,217-225`, `memcpy` loads, `load_ptr`
(`/repo/src/pogocache.c:109-115`).  Reading fewer bytes than asked is `none` (out of bounds). -/
def readLE : Nat → Bytes → Option Nat
  | 0, _ => some 0
  | _ + 1, [] => none
  | n + 1, b :: bs => (readLE n bs).map fun hi => b.toNat ||| (hi <<< 8)

/-- Big-endian writer (`n` bytes): `write_i16`/`write_i32` in `/repo/src/postgres.c`. -/
def writeBE (n x : Nat) : Bytes := (writeLE n x).reverse

/-- Big-endian reader (`n` bytes). -/
def readBE (n : Nat) (bs : Bytes) : Option Nat :=
  if bs.length < n then none else readLE n (bs.take n).reverse

/-- `INT64_MIN`. -/
def i64min : Int := -(2 ^ 63)
/-- `INT64_MAX`. -/
def i64max : Int := 2 ^ 63 - 1

/-- Outcome of signed C arithmetic: leaving the 64-bit range is undefined behaviour (`none`). -/
def ck (x : Int) : Option Int := if i64min ≤ x ∧ x ≤ i64max then some x else none

/-- `int64_add_clamp`, `/repo/src/util.c:41-52` and `/repo/src/pogocache.c:240-251`.
`(a ^ b) < 0` says the sign bits differ.  `none` = signed overflow (undefined). -/
def addClamp (a b : Int) : Option Int :=
  if ¬ ((a < 0) ≠ (b < 0)) then
    if a > 0 then
      match ck (i64max - a) with
      | none => none
      | some m => if b > m then some i64max else ck (a + b)
    else
      match ck (i64min - a) with
      | none => none
      | some m => if b < m then some i64min else ck (a + b)
  else ck (a + b)

/-- C division of signed integers truncates toward zero; dividing by 0 or overflowing is undefined. -/
def cdiv (a b : Int) : Option Int := if b = 0 then none else ck (a.tdiv b)

/-- `int64_mul_clamp`, `/repo/src/util.c:55-72`. -/
def mulClamp (a b : Int) : Option Int :=
  if a ≠ 0 ∨ b ≠ 0 then
    if a > 0 then
      if b > 0 then
        (cdiv i64max b).bind fun q => if a > q then some i64max else ck (a * b)
      else if b < 0 then
        (cdiv i64min a).bind fun q => if b < q then some i64min else ck (a * b)
      else ck (a * b)
    else
      if b > 0 then
        (cdiv i64min b).bind fun q => if a < q then some i64min else ck (a * b)
      else if b < 0 then
        (cdiv i64max b).bind fun q => if a < q then some i64max else ck (a * b)
      else ck (a * b)
  else ck (a * b)

/-- The digit loop of `u64toa`, `/repo/src/util.c:276-279`: digits, least significant first. -/
def u64toaLoop (x : Nat) : Bytes :=
  UInt8.ofNat (48 + x % 10) :: (if x / 10 > 0 then u64toaLoop (x / 10) else [])
termination_by x
decreasing_by omega

/-- `u64toa`, `/repo/src/util.c:270-288` (the terminating NUL is not part of the result). -/
def u64toa (x : Nat) : Bytes :=
  if x < 10 then [UInt8.ofNat (48 + x)] else (u64toaLoop x).reverse

/-- The literal copied at `/repo/src/util.c:293`, `"-9223372036854775808"`. -/
def i64minText : Bytes :=
  [45, 57, 50, 50, 51, 51, 55, 50, 48, 51, 54, 56, 53, 52, 55, 55, 53, 56, 48, 56]

/-- `i64toa`, `/repo/src/util.c:290-301`. -/
def i64toa (x : Int) : Bytes :=
  if x < 0 then
    if x = i64min then i64minText
    else 45 :: u64toa (-x).toNat
  else u64toa x.toNat

/-- `isspace` in the C locale: space, `\t \n \v \f \r`. -/
def isSpace (b : UInt8) : Bool := b = 32 || (9 ≤ b && b ≤ 13)
/-- `isdigit`. -/
def isDigit (b : UInt8) : Bool := 48 ≤ b && b ≤ 57

/-- Value of a run of digits, most significant first (what `strtoll` accumulates). -/
def digitsVal (acc : Nat) : Bytes → Nat
  | [] => acc
  | b :: bs => digitsVal (acc * 10 + (b - 48).toNat) bs

/-- What `strtoll`/`strtoull` (base 10) see: skipped spaces, sign, digits, and whether the whole text
was consumed.  `(neg, digits, rest)`; C standard library, used at `/repo/src/util.c:320,336`. -/
def strtoScan (s : Bytes) : Bool × Bytes × Bytes :=
  let s1 := s.dropWhile isSpace
  let (neg, s2) := match s1 with
    | 45 :: r => (true, r)
    | 43 :: r => (false, r)
    | r => (false, r)
  (neg, s2.takeWhile isDigit, s2.dropWhile isDigit)

/-- `parse_i64`, `/repo/src/util.c:311-322`.  `none` = `false`.  Without digits `strtoll` returns 0
and leaves `end` at the start, so that only the empty text passes `end == buf+len`; out of range sets
`errno`. -/
def parseI64 (s : Bytes) : Option Int :=
  if s.length > 21 then none
  else
    let (neg, ds, rest) := strtoScan s
    if ds = [] then (if s = [] then some 0 else none)
    else if rest ≠ [] then none
    else
      let v : Int := if neg then -(digitsVal 0 ds : Int) else digitsVal 0 ds
      if v < i64min ∨ v > i64max then none else some v

/-- `parse_u64`, `/repo/src/util.c:324-338`.  A `-` in front is only rejected as the very first byte;
after blanks `strtoull` accepts it and negates modulo 2^64. -/
def parseU64 (s : Bytes) : Option Nat :=
  if s.length > 21 then none
  else if s.head? = some 45 then none
  else
    let (neg, ds, rest) := strtoScan s
    if ds = [] then (if s = [] then some 0 else none)
    else if rest ≠ [] then none
    else if digitsVal 0 ds ≥ 2 ^ 64 then none
    else some (if neg then (2 ^ 64 - digitsVal 0 ds) % 2 ^ 64 else digitsVal 0 ds)

end Verif.Num
