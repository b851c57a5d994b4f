import Verif.Lz4.Decompress

/-!
C85: `LZ4_compress_default`, `/repo/src/lz4.c:1474-1477`, as called by `flush` (`/repo/src/save.c:60-64`), which gives it a target of `LZ4_compressBound` bytes.
So of `LZ4_compress_generic_validated` only the case `notLimited`, `noDict`, `noDictIssue`, acceleration 1 is reached, with `byU16` for less than 65547 bytes and
`byU32` otherwise.  That is the case modelled, for a little-endian 64-bit machine; with a fresh state `startIndex` is 0 (`LZ4_initStream`, 1554-1568), the hash table
is zero and `base` is the source.

Positions are integers as in `Decompress.lean`.  `none` (or `.fail`): a read or write outside a buffer or the hash table, or no end.
-/

namespace Verif.Lz4

/-- `LZ4_read16`, `LZ4_read32`, `LZ4_read_ARCH`, `/repo/src/lz4.c:393-412`: `k` bytes, the lowest first. -/
def readLE (src : Mem) (i : Int) : Nat → Option Nat
  | 0 => some 0
  | k + 1 => (src.get i).bind fun b => (readLE src (i + 1) k).map fun r => b.toNat + 256 * r

/-- The number of zero bits below the lowest one bit, `__builtin_ctzll`. -/
def ctz (v : Nat) : Nat → Nat → Nat
  | 0, i => i
  | k + 1, i => if v.testBit i then i else ctz v k (i + 1)

/-- `LZ4_NbCommonBytes`, `/repo/src/lz4.c:581-620`. -/
def nbCommon (v : Nat) : Nat := ctz v 64 0 / 8

/-- The loop of `LZ4_count`, `/repo/src/lz4.c:686-699`; the first round is written out in the code.  `.inr` is the answer, `.inl` where the tail begins. -/
def countLoop (src : Mem) (limit start : Int) : Nat → Int → Int → Option (Int × Int ⊕ Int)
  | 0, _, _ => none
  | f + 1, p, q =>
    if p < limit - 7 then
      (readLE src q 8).bind fun a => (readLE src p 8).bind fun b =>
        if a ^^^ b = 0 then countLoop src limit start f (p + 8) (q + 8) else some (.inr (p + nbCommon (a ^^^ b) - start))
    else some (.inl (p, q))

/-- One of the three last steps of `LZ4_count`, `/repo/src/lz4.c:701-703`. -/
def countTail (src : Mem) (limit : Int) (k : Nat) (x : Int × Int) : Option (Int × Int) :=
  if x.1 < limit - (k - 1) then
    (readLE src x.2 k).bind fun a => (readLE src x.1 k).map fun b => if a = b then (x.1 + k, x.2 + k) else x
  else some x

/-- `LZ4_count`, `/repo/src/lz4.c:682-705`. -/
def count (src : Mem) (p q limit : Int) : Option Int :=
  (countLoop src limit p ((limit - p).toNat + 1) p q).bind fun
    | .inr r => some r
    | .inl x => (countTail src limit 4 x).bind fun x => (countTail src limit 2 x).bind fun x => (countTail src limit 1 x).map fun x => x.1 - p

/-- `LZ4_hash4` with `byU16`, `/repo/src/lz4.c:779-785`; `LZ4_HASHLOG` is 12. -/
def hash4 (s : Nat) : Nat := s * 2654435761 % 2 ^ 32 / 2 ^ 19

/-- `LZ4_hash5` with `byU32`, `/repo/src/lz4.c:787-797`. -/
def hash5 (s : Nat) : Nat := s * 2 ^ 24 % 2 ^ 64 * 889523592379 % 2 ^ 64 / 2 ^ 52

/-- `LZ4_hashPosition`, `/repo/src/lz4.c:799-808`. -/
def hashPos (src : Mem) (u16 : Bool) (p : Int) : Option Nat := if u16 then (readLE src p 4).map hash4 else (readLE src p 8).map hash5

/-- The hash table. -/
abbrev Tab := Nat → Int

/-- Its size: 16384 bytes. -/
def tabSize (u16 : Bool) : Nat := if u16 then 8192 else 4096

/-- `LZ4_getIndexOnHash`, `/repo/src/lz4.c:855-869`. -/
def tget (u16 : Bool) (t : Tab) (h : Nat) : Option Int := if h < tabSize u16 then some (t h) else none

/-- `LZ4_putIndexOnHash`, `/repo/src/lz4.c:822-832`. -/
def tput (u16 : Bool) (t : Tab) (h : Nat) (i : Int) : Option Tab :=
  if h < tabSize u16 then some fun x => if x = h then (if u16 then i % 65536 else i % 2 ^ 32) else t x else none

/-- What the search gives. -/
inductive Found where
  | fail
  | last
  | found (ip mat : Int) (t : Tab)

/-- The search for a match, `/repo/src/lz4.c:1047-1104`; `n` is the length of the source. -/
def search (src : Mem) (n : Int) (u16 : Bool) : Nat → Int → Int → Int → Nat → Tab → Found
  | 0, _, _, _, _, _ => .fail
  | f + 1, fip, step, nb, h, t =>
    match tget u16 t h with
    | none => .fail
    | some mi =>
      if fip + step > n - 11 then .last
      else
        match hashPos src u16 (fip + step), tput u16 t h fip with
        | some h', some t' =>
          if u16 = false ∧ mi + 65535 < fip then search src n u16 f (fip + step) (nb / 64) (nb + 1) h' t'
          else
            match readLE src mi 4, readLE src fip 4 with
            | some a, some b => if a = b then .found fip mi t' else search src n u16 f (fip + step) (nb / 64) (nb + 1) h' t'
            | _, _ => .fail
        | _, _ => .fail

/-- Whether the bytes before `ip` and `mat` are the same. -/
def sameBefore (src : Mem) (ip mat : Int) : Option Bool := (src.get (ip - 1)).bind fun a => (src.get (mat - 1)).map fun b => decide (a = b)

/-- The loop of the catch-up, `/repo/src/lz4.c:1111`. -/
def catchLoop (src : Mem) (anchor : Int) : Nat → Int → Int → Option (Int × Int)
  | 0, _, _ => none
  | f + 1, ip, mat =>
    if ip - 1 > anchor ∧ mat - 1 > 0 then
      (sameBefore src (ip - 1) (mat - 1)).bind fun s => if s then catchLoop src anchor f (ip - 1) (mat - 1) else some (ip - 1, mat - 1)
    else some (ip - 1, mat - 1)

/-- The catch-up, `/repo/src/lz4.c:1107-1112`. -/
def catchUp (src : Mem) (anchor ip mat : Int) : Option (Int × Int) :=
  if mat > 0 then (sameBefore src ip mat).bind fun s => if s then catchLoop src anchor (ip.toNat + 1) ip mat else some (ip, mat)
  else some (ip, mat)

/-- `for(; len >= 255 ; len-=255) *op++ = 255; *op++ = (BYTE)len;`, `/repo/src/lz4.c:1130-1131,1322-1323`. -/
def putLen : Nat → Mem → Int → Int → Option (Int × Mem)
  | 0, _, _, _ => none
  | f + 1, m, op, len =>
    if len ≥ 255 then (m.put op 255).bind fun m => putLen f m (op + 1) (len - 255)
    else (m.put op (UInt8.ofNat len.toNat)).map fun m => (op + 1, m)

/-- The token and the length of `len` literals, `/repo/src/lz4.c:1127-1133,1320-1326`: the result is the position behind. -/
def putLits (m : Mem) (op len : Int) : Option (Int × Mem) :=
  if len ≥ 15 then (m.put op 240).bind fun m => putLen ((len - 15).toNat + 1) m (op + 1) (len - 15)
  else (m.put op (UInt8.ofNat (len * 16).toNat)).map fun m => (op + 1, m)

/-- Encode literals, `/repo/src/lz4.c:1114-1141`: the result is the new `op`; the token is at the old one. -/
def emitLits (src : Mem) (m : Mem) (op anchor ip : Int) : Option (Int × Mem) :=
  (putLits m op (ip - anchor)).bind fun x =>
    (wild8From src (rounds x.1 (x.1 + (ip - anchor))) x.2 x.1 anchor (x.1 + (ip - anchor))).map fun m => (x.1 + (ip - anchor), m)

/-- The loop for long matches, `/repo/src/lz4.c:1220-1226`. -/
def putMatch : Nat → Mem → Int → Int → Option (Int × Mem)
  | 0, _, _, _ => none
  | f + 1, m, op, mc =>
    if mc ≥ 1020 then (m.store (op + 4) 4 fun _ => 255).bind fun m => putMatch f m (op + 4) (mc - 1020)
    else (m.put (op + mc / 255) (UInt8.ofNat (mc % 255).toNat)).map fun m => (op + mc / 255 + 1, m)

/-- `*token += x`, `/repo/src/lz4.c:1217,1229`. -/
def addToken (m : Mem) (token : Int) (x : Int) : Option Mem := (m.get token).bind fun b => m.put token (b + UInt8.ofNat x.toNat)

/-- From the label `_next_match`, `/repo/src/lz4.c:1143-1230`: the result is the new `ip`, `op` and target. -/
def emitMatch (src : Mem) (n : Int) (m : Mem) (token op ip mat : Int) : Option (Int × Int × Mem) :=
  (m.put op (UInt8.ofNat ((ip - mat) % 256).toNat)).bind fun m => (m.put (op + 1) (UInt8.ofNat ((ip - mat) / 256 % 256).toNat)).bind fun m =>
    (count src (ip + 4) (mat + 4) (n - 5)).bind fun mc =>
      if mc ≥ 15 then
        (addToken m token 15).bind fun m => (m.store (op + 2) 4 fun _ => 255).bind fun m =>
          (putMatch ((mc - 15).toNat + 1) m (op + 2) (mc - 15)).map fun x => (ip + (mc + 4), x.1, x.2)
      else (addToken m token mc).map fun m => (ip + (mc + 4), op + 2, m)

/-- Last literals, `/repo/src/lz4.c:1303-1331`: the result is the number of bytes written. -/
def lastLits (src : Mem) (n : Int) (m : Mem) (op anchor : Int) : Option (Int × Mem) :=
  (putLits m op (n - anchor)).bind fun x => (x.2.copyFrom x.1 src anchor (n - anchor)).map fun m => (x.1 + (n - anchor), m)

/-- Where the main loop goes on. -/
inductive Pend where
  /-- at its head, with `ip` -/
  | head (ip : Int)
  /-- at `_next_match`, with `token`, `ip`, `match` -/
  | next (token ip mat : Int)

/-- From the head of the main loop to `_next_match`, `/repo/src/lz4.c:1017-1141`; the result is what `_next_match` needs, or that last literals follow. -/
def toMatch (src : Mem) (n : Int) (u16 : Bool) (anchor op : Int) (t : Tab) (m : Mem) : Pend → Option (Option ((Int × Int × Int) × Int × Tab × Mem))
  | .next token ip mat => some (some ((token, ip, mat), op, t, m))
  | .head ip =>
    (hashPos src u16 ip).bind fun h =>
      match search src n u16 (n.toNat + 1) ip 1 64 h t with
      | .fail => none
      | .last => some none
      | .found ip mat t =>
        (catchUp src anchor ip mat).bind fun x => (emitLits src m op anchor x.1).map fun y => some ((op, x.1, x.2), y.1, t, y.2)

/-- After a match, `/repo/src/lz4.c:1237-1299`; `ip` is also the new anchor.  `none` inside: last literals. -/
def afterMatch (src : Mem) (n : Int) (u16 : Bool) (ip op : Int) (t : Tab) (m : Mem) : Option (Option (Pend × Int × Tab × Mem)) :=
  if ip ≥ n - 11 then some none
  else
    (hashPos src u16 (ip - 2)).bind fun h => (tput u16 t h (ip - 2)).bind fun t =>
      (hashPos src u16 ip).bind fun h => (tget u16 t h).bind fun mi => (tput u16 t h ip).bind fun t =>
        if u16 = false ∧ mi + 65535 < ip then some (some (.head (ip + 1), op, t, m))
        else
          (readLE src mi 4).bind fun a => (readLE src ip 4).bind fun b =>
            if a = b then (m.put op 0).map fun m => some (.next op ip mi, op + 1, t, m) else some (some (.head (ip + 1), op, t, m))

/-- The main loop, `/repo/src/lz4.c:1017-1301`. -/
def mainLoop (src : Mem) (n : Int) (u16 : Bool) : Nat → Pend → Int → Int → Tab → Mem → Option (Int × Mem)
  | 0, _, _, _, _, _ => none
  | f + 1, p, anchor, op, t, m =>
    (toMatch src n u16 anchor op t m p).bind fun
      | none => lastLits src n m op anchor
      | some ((token, ip, mat), op, t, m) =>
        (emitMatch src n m token op ip mat).bind fun (ip, op, m) =>
          (afterMatch src n u16 ip op t m).bind fun
            | none => lastLits src n m op ip
            | some (p, op, t, m) => mainLoop src n u16 f p ip op t m

/-- `LZ4_compress_generic_validated`, `/repo/src/lz4.c:932-1340`; the result is the number of bytes written and the target. -/
def generic (src : Mem) (n : Int) (u16 : Bool) (m : Mem) : Option (Int × Mem) :=
  if n < 13 then lastLits src n m 0 0
  else (hashPos src u16 0).bind fun h => (tput u16 (fun _ => 0) h 0).bind fun t => mainLoop src n u16 (n.toNat + 1) (.head 1) 0 0 t m

/-- `LZ4_COMPRESSBOUND`, `/repo/src/lz4.h:215`, of an argument that is an `int`. -/
def compressBound (n : Int) : Int := if n % 2 ^ 32 > 0x7E000000 then 0 else n + n / 255 + 16

/-- `LZ4_compress_default`, `/repo/src/lz4.c:1474-1477`, through `LZ4_compress_fast` (1455-1471), `LZ4_compress_fast_extState` (1384-1395) and `LZ4_compress_generic`
(1346-1381), with a target of at least `compressBound n` bytes; `LZ4_64Klimit` is 65547 (`/repo/src/lz4.c:712`). -/
def compress (src : Mem) (n : Int) (m : Mem) : Option (Int × Mem) :=
  if n % 2 ^ 32 > 0x7E000000 then some (0, m)
  else if n = 0 then (m.put 0 0).map fun m => (1, m)
  else generic src n (decide (n < 65547)) m

end Verif.Lz4
