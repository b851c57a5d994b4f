import Verif.Basic

/-!
C85, C86: `LZ4_decompress_safe`, `/repo/src/lz4.c`, as used by `load_block` (`/repo/src/save.c:259`).

Positions in a buffer are integers counted from its start, so that pointers in front of a buffer (`match`, `iend - RUN_MASK`) can be compared; the code
computes them too.  Addresses are so small that the tests for overflow (`/repo/src/lz4.c:2101-2102,2138,2270-2271,2351`) never hit.  Reading a byte not written
before is allowed.  The target is a little-endian 64-bit machine; `fast` says whether `LZ4_FAST_DEC_LOOP` is set (`/repo/src/lz4.c:478-492`).
-/

namespace Verif.Lz4

/-- A buffer: its size and its contents. -/
structure Mem where
  size : Int
  at' : Int → UInt8

/-- Reading a byte. -/
def Mem.get (m : Mem) (i : Int) : Option UInt8 := if 0 ≤ i ∧ i < m.size then some (m.at' i) else none

/-- Writing a byte. -/
def Mem.put (m : Mem) (i : Int) (b : UInt8) : Option Mem :=
  if 0 ≤ i ∧ i < m.size then some { m with at' := fun j => if j = i then b else m.at' j } else none

/-- Writing `n` bytes given by a function. -/
def Mem.store (m : Mem) (d n : Int) (v : Int → UInt8) : Option Mem :=
  if 0 ≤ d ∧ d + n ≤ m.size then some { m with at' := fun j => if d ≤ j ∧ j < d + n then v (j - d) else m.at' j } else none

/-- `memcpy` from another buffer. -/
def Mem.copyFrom (m : Mem) (d : Int) (src : Mem) (s n : Int) : Option Mem :=
  if 0 ≤ s ∧ s + n ≤ src.size then m.store d n (fun i => src.at' (s + i)) else none

/-- `memcpy` within a buffer; undefined if source and target overlap. -/
def Mem.copy (m : Mem) (d s n : Int) : Option Mem :=
  if s + n ≤ d ∨ d + n ≤ s then m.copyFrom d m s n else none

/-- `LZ4_wildCopy8`, `/repo/src/lz4.c:464-472`, within a buffer. -/
def wild8 : Nat → Mem → Int → Int → Int → Option Mem
  | 0, _, _, _, _ => none
  | f + 1, m, d, s, e => (m.copy d s 8).bind fun m => if d + 8 < e then wild8 f m (d + 8) (s + 8) e else some m

/-- `LZ4_wildCopy8`, `/repo/src/lz4.c:464-472`, from the input. -/
def wild8From (src : Mem) : Nat → Mem → Int → Int → Int → Option Mem
  | 0, _, _, _, _ => none
  | f + 1, m, d, s, e => (m.copyFrom d src s 8).bind fun m => if d + 8 < e then wild8From src f m (d + 8) (s + 8) e else some m

/-- `LZ4_wildCopy32`, `/repo/src/lz4.c:520-531`, within a buffer. -/
def wild32 : Nat → Mem → Int → Int → Int → Option Mem
  | 0, _, _, _, _ => none
  | f + 1, m, d, s, e =>
    (m.copy d s 16).bind fun m => (m.copy (d + 16) (s + 16) 16).bind fun m => if d + 32 < e then wild32 f m (d + 32) (s + 32) e else some m

/-- `LZ4_wildCopy32`, `/repo/src/lz4.c:520-531`, from the input. -/
def wild32From (src : Mem) : Nat → Mem → Int → Int → Int → Option Mem
  | 0, _, _, _, _ => none
  | f + 1, m, d, s, e =>
    (m.copyFrom d src s 16).bind fun m => (m.copyFrom (d + 16) src (s + 16) 16).bind fun m =>
      if d + 32 < e then wild32From src f m (d + 32) (s + 32) e else some m

/-- Bytes one after the other, as in `/repo/src/lz4.c:2410-2413,2431`. -/
def bytewise : Nat → Mem → Int → Int → Option Mem
  | 0, m, _, _ => some m
  | k + 1, m, d, s => (m.get s).bind fun b => (m.put d b).bind fun m => bytewise k m (d + 1) (s + 1)

/-- `inc32table`, `/repo/src/lz4.c:474`. -/
def inc32 (off : Int) : Int :=
  if off = 1 then 1 else if off = 2 then 2 else if off = 3 then 1 else if off = 4 then 0 else if off = 5 then 4 else if off = 6 then 4
  else if off = 7 then 4 else 0

/-- `dec64table`, `/repo/src/lz4.c:475`. -/
def dec64 (off : Int) : Int :=
  if off = 1 then 0 else if off = 2 then 0 else if off = 3 then -1 else if off = 4 then -4 else if off = 5 then 1 else if off = 6 then 2
  else if off = 7 then 3 else 0

/-- The first eight bytes of a match, `/repo/src/lz4.c:500-514` and the same at 2408-2421; the result is the buffer and the new source. -/
def first8 (m : Mem) (d s off : Int) : Option (Mem × Int) :=
  if off < 8 then
    (m.store d 4 (fun _ => 0)).bind fun m => (bytewise 4 m d s).bind fun m =>
      let s := s + inc32 off
      (m.copy (d + 4) s 4).map fun m => (m, s - dec64 off)
  else (m.copy d s 8).map fun m => (m, s + 8)

/-- The loop at the end of `LZ4_memcpy_using_offset`, `/repo/src/lz4.c:568-573`. -/
def storeV (v : Int → UInt8) : Nat → Mem → Int → Int → Option Mem
  | 0, _, _, _ => none
  | f + 1, m, d, e => (m.store d 8 v).bind fun m => if d + 8 < e then storeV v f m (d + 8) e else some m

/-- The number of rounds of a loop that goes from `d` to `e`. -/
def rounds (d e : Int) : Nat := (e - d).toNat + 1

/-- `LZ4_memcpy_using_offset`, `/repo/src/lz4.c:536-574`, with `LZ4_memcpy_using_offset_base` (497-518). -/
def copyOffset (m : Mem) (d s e off : Int) : Option Mem :=
  if off = 1 then (m.get s).bind fun b => storeV (fun _ => b) (rounds d e) m d e
  else if off = 2 then
    if 0 ≤ s ∧ s + 2 ≤ m.size then storeV (fun i => m.at' (s + i % 2)) (rounds d e) m d e else none
  else if off = 4 then
    if 0 ≤ s ∧ s + 4 ≤ m.size then storeV (fun i => m.at' (s + i % 4)) (rounds d e) m d e else none
  else (first8 m d s off).bind fun x => wild8 (rounds d e) x.1 (d + 8) x.2 e

/-- What `read_variable_length` gives. -/
inductive Len where
  | fail
  | err (ip : Int)
  | ok (len ip : Int)

/-- The loop of `read_variable_length`, `/repo/src/lz4.c:1990-2016`. -/
def readLoop (src : Mem) (limit : Int) : Nat → Int → Int → Len
  | 0, _, _ => .fail
  | f + 1, ip, len =>
    match src.get ip with
    | none => .fail
    | some s => if ip + 1 > limit then .err (ip + 1) else if s ≠ 255 then .ok (len + s.toNat) (ip + 1) else readLoop src limit f (ip + 1) (len + s.toNat)

/-- `read_variable_length`, `/repo/src/lz4.c:1980-2017`; `sizeof(length)` is 8. -/
def readLen (src : Mem) (limit : Int) (check : Bool) (ip : Int) : Len :=
  if check = true ∧ ip ≥ limit then .err ip else readLoop src limit (rounds ip limit + 1) ip 0

/-- What a part of the decoder does: undefined, the error exit, the end, or the next round of the safe loop. -/
inductive R where
  | fail
  | err (ip : Int) (m : Mem)
  | done (op : Int) (m : Mem)
  | next (ip op : Int) (m : Mem)

section
variable (src : Mem) (n oend : Int)

/-- From the label `safe_match_copy`, `/repo/src/lz4.c:2356-2437`, with `dict = noDict`, `dictSize = 0`, `lowPrefix = dst`, no partial decoding. -/
def safeMatch (len off mat ip op : Int) (m : Mem) : R :=
  if mat < 0 then .err ip m
  else
    let cpy := op + len
    match first8 m op mat off with
    | none => .fail
    | some (m, mat) =>
      let op := op + 8
      if cpy > oend - 12 then
        let limit := oend - 7
        if cpy > oend - 5 then .err ip m
        else if op < limit then
          match (wild8 (rounds op limit) m op mat limit).bind fun m => bytewise (cpy - limit).toNat m limit (mat + (limit - op)) with
          | none => .fail
          | some m => .next ip cpy m
        else
          match bytewise (cpy - op).toNat m op mat with
          | none => .fail
          | some m => .next ip cpy m
      else
        match (m.copy op mat 8).bind fun m => if len > 16 then wild8 (rounds op cpy) m (op + 8) (mat + 8) cpy else some m with
        | none => .fail
        | some m => .next ip cpy m

/-- From the label `_copy_match`, `/repo/src/lz4.c:2343-2352`. -/
def copyMatch (len off mat ip op : Int) (m : Mem) : R :=
  if len = 15 then
    match readLen src (n - 5 + 1) false ip with
    | .fail => .fail
    | .err ip => .err ip m
    | .ok x ip => safeMatch oend (len + x + 4) off mat ip op m
  else safeMatch oend (len + 4) off mat ip op m

/-- `LZ4_readLE16`, `/repo/src/lz4.c:430-438`. -/
def read16 (i : Int) : Option Int := (src.get i).bind fun a => (src.get (i + 1)).map fun b => (a.toNat + 256 * b.toNat : Int)

/-- From the label `safe_literal_copy`, `/repo/src/lz4.c:2275-2341`. -/
def safeLit (tok len ip op : Int) (m : Mem) : R :=
  let cpy := op + len
  if cpy > oend - 12 ∨ ip + len > n - 8 then
    if ip + len ≠ n ∨ cpy > oend then .err ip m
    else
      match m.copyFrom op src ip len with
      | none => .fail
      | some m => .done (op + len) m
  else
    match wild8From src (rounds op cpy) m op ip cpy with
    | none => .fail
    | some m =>
      match read16 src (ip + len) with
      | none => .fail
      | some off => copyMatch src n oend (tok % 16) off (cpy - off) (ip + len + 2) cpy m

/-- One round of the safe loop, `/repo/src/lz4.c:2217-2274`. -/
def safeStep (ip op : Int) (m : Mem) : R :=
  match src.get ip with
  | none => .fail
  | some tok =>
    let tok : Int := tok.toNat
    let ip := ip + 1
    let len := tok / 16
    if len ≠ 15 ∧ ip < n - 16 ∧ op ≤ oend - 32 then
      match m.copyFrom op src ip 16 with
      | none => .fail
      | some m =>
        let op := op + len
        let ip := ip + len
        match read16 src ip with
        | none => .fail
        | some off =>
          let ip := ip + 2
          let mat := op - off
          if tok % 16 ≠ 15 ∧ off ≥ 8 ∧ mat ≥ 0 then
            match (m.copy op mat 8).bind fun m => (m.copy (op + 8) (mat + 8) 8).bind fun m => m.copy (op + 16) (mat + 16) 2 with
            | none => .fail
            | some m => .next ip (op + (tok % 16 + 4)) m
          else copyMatch src n oend (tok % 16) off mat ip op m
    else if len = 15 then
      match readLen src (n - 15) true ip with
      | .fail => .fail
      | .err ip => .err ip m
      | .ok x ip => safeLit src n oend tok (len + x) ip op m
    else safeLit src n oend tok len ip op m

/-- The second half of a round of the fast loop, `/repo/src/lz4.c:2119-2210`; on the left: the next round of the fast loop. -/
def fastMatch (tok ip op : Int) (m : Mem) : (Int × Int × Mem) ⊕ R :=
  match read16 src ip with
  | none => .inr .fail
  | some off =>
    let ip := ip + 2
    let mat := op - off
    let go (len ip : Int) : (Int × Int × Mem) ⊕ R :=
      if mat < 0 then .inr (.err ip m)
      else
        match if off < 16 then copyOffset m op mat (op + len) off else wild32 (rounds op (op + len)) m op mat (op + len) with
        | none => .inr .fail
        | some m => .inl (ip, op + len, m)
    if tok % 16 = 15 then
      match readLen src (n - 5 + 1) false ip with
      | .fail => .inr .fail
      | .err ip => .inr (.err ip m)
      | .ok x ip =>
        let len := 15 + x + 4
        if op + len ≥ oend - 64 then .inr (safeMatch oend len off mat ip op m) else go len ip
    else
      let len := tok % 16 + 4
      if op + len ≥ oend - 64 then .inr (safeMatch oend len off mat ip op m)
      else if mat ≥ 0 ∧ off ≥ 8 then
        match (m.copy op mat 8).bind fun m => (m.copy (op + 8) (mat + 8) 8).bind fun m => m.copy (op + 16) (mat + 16) 2 with
        | none => .inr .fail
        | some m => .inl (ip, op + len, m)
      else go len ip

/-- One round of the fast loop, `/repo/src/lz4.c:2085-2117`. -/
def fastStep (ip op : Int) (m : Mem) : (Int × Int × Mem) ⊕ R :=
  match src.get ip with
  | none => .inr .fail
  | some tok =>
    let tok : Int := tok.toNat
    let ip := ip + 1
    let len := tok / 16
    if len = 15 then
      match readLen src (n - 15) true ip with
      | .fail => .inr .fail
      | .err ip => .inr (.err ip m)
      | .ok x ip =>
        let len := len + x
        if op + len > oend - 32 ∨ ip + len > n - 32 then .inr (safeLit src n oend tok len ip op m)
        else
          match wild32From src (rounds op (op + len)) m op ip (op + len) with
          | none => .inr .fail
          | some m => fastMatch src n oend tok (ip + len) (op + len) m
    else if ip ≤ n - 17 then
      match m.copyFrom op src ip 16 with
      | none => .inr .fail
      | some m => fastMatch src n oend tok (ip + len) (op + len) m
    else .inr (safeLit src n oend tok len ip op m)

/-- The safe loop, `/repo/src/lz4.c:2215-2446`. -/
def safeLoop : Nat → Int → Int → Mem → R
  | 0, _, _, _ => .fail
  | f + 1, ip, op, m =>
    match safeStep src n oend ip op m with
    | .next ip op m => safeLoop f ip op m
    | r => r

/-- The fast loop, `/repo/src/lz4.c:2083-2211`. -/
def fastLoop : Nat → Int → Int → Mem → R
  | 0, _, _, _ => .fail
  | f + 1, ip, op, m =>
    match fastStep src n oend ip op m with
    | .inl (ip, op, m) => fastLoop f ip op m
    | .inr (.next ip op m) => safeLoop src n oend (f + 1) ip op m
    | .inr r => r

end

/-- `LZ4_decompress_safe`, `/repo/src/lz4.c:2453-2458`, with the beginning of `LZ4_decompress_generic` (2025-2079): `n` is `compressedSize`, `oend` is
`maxDecompressedSize`.  The answer is the return value and the buffer; `none`: undefined behaviour or no end. -/
def decompress (fast : Bool) (src : Mem) (n oend : Int) (m : Mem) : Option (Int × Mem) :=
  if oend < 0 then some (-1, m)
  else if oend = 0 then
    if n = 1 then (src.get 0).map fun b => if b = 0 then (0, m) else (-1, m) else some (-1, m)
  else if n = 0 then some (-1, m)
  else
    match if fast = true ∧ oend ≥ 64 then fastLoop src n oend (n.toNat + 1) 0 0 m else safeLoop src n oend (n.toNat + 1) 0 0 m with
    | .fail => none
    | .next _ _ _ => none
    | .err ip m => some (-ip - 1, m)
    | .done op m => some (op, m)

/-- A buffer with given contents. -/
def Mem.of (l : Bytes) : Mem := ⟨l.length, fun i => l.getD i.toNat 0⟩

end Verif.Lz4
