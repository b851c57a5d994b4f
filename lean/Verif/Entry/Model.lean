import Verif.Sixpack.Model
import Verif.Num.Model

/-!
Model of the packed in-memory entry, `/repo/src/pogocache.c:313-670`.

The header fields of `struct entry` (lines 319-327) are record fields; the flexible array `data[]` is
a byte list.  The reference counter is modelled separately (`Verif.Refs`).  `expires` is an
`int64_t` (`Int`), the other numbers are `Nat` below their C bounds.
-/

namespace Verif.Entry

open Verif.Num Verif.Sixpack

/-- The two context switches that influence the layout: `ctx->usecas`, `ctx->nosixpack`
(`/repo/src/pogocache.c:302-303`). -/
structure Fmt where
  usecas : Bool
  nosixpack : Bool
deriving DecidableEq, Repr

/-- `struct entry`, `/repo/src/pogocache.c:319-327` (without `rc`). -/
structure Raw where
  time : Int
  memszsz : Nat
  hasExpires : Bool
  hasFlags : Bool
  hasSixpack : Bool
  data : Bytes
deriving DecidableEq, Repr

/-- `sizeof(struct entry)` on a 64-bit machine: 8 + 4 + bit-fields, padded to 16. -/
def sizeofEntry : Nat := 16

/-- The key bytes stored and whether they are packed, `/repo/src/pogocache.c:525-534`. -/
def storedKey (fmt : Fmt) (key : Bytes) : Bytes × Bool :=
  if !fmt.nosixpack && key.length ≤ 128 then
    let p := sixpack key
    if p.length > 0 then (p, true) else (key, false)
  else (key, false)

/-- `prefixlen`, `/repo/src/pogocache.c:515-524`. -/
def prefixLen (fmt : Fmt) (expires : Int) (flags : Nat) : Nat :=
  (if expires > 0 then 8 else 0) + (if flags > 0 then 4 else 0) + (if fmt.usecas then 8 else 0)

/-- `size` before the size field is added, `/repo/src/pogocache.c:535-537`. -/
def baseSize (fmt : Fmt) (key val : Bytes) (expires : Int) (flags : Nat) : Nat :=
  let (k, _) := storedKey fmt key
  sizeofEntry + prefixLen fmt expires flags + (varintWrite k.length).length + k.length + val.length

/-- `memszsz`, `/repo/src/pogocache.c:540-553`. -/
def sizeClass (base : Nat) : Nat :=
  if base ≤ 0xFF - 1 then 0
  else if base ≤ 0xFFFF - 2 then 1
  else if base ≤ 0xFFFFFFFF - 4 then 2
  else 3

/-- The allocation size, `/repo/src/pogocache.c:540-555`. -/
def allocSize (fmt : Fmt) (key val : Bytes) (expires : Int) (flags : Nat) : Nat :=
  let base := baseSize fmt key val expires flags
  base + (match sizeClass base with | 0 => 1 | 1 => 2 | 2 => 4 | _ => 8)

/-- `entry_new` when the allocation succeeds, `/repo/src/pogocache.c:492-636`.  The size field is
truncated to its width exactly as the C assignments at lines 567-582 do. -/
def entryNew (fmt : Fmt) (key val : Bytes) (expires : Int) (flags cas : Nat) : Raw :=
  let (k, six) := storedKey fmt key
  let size := allocSize fmt key val expires flags
  let cls := sizeClass (baseSize fmt key val expires flags)
  { time := 0
    memszsz := cls
    hasExpires := decide (expires > 0)
    hasFlags := decide (flags > 0)
    hasSixpack := six
    data :=
      writeLE (2 ^ cls) size ++
      (if expires > 0 then writeLE 8 expires.toNat else []) ++
      (if flags > 0 then writeLE 4 flags else []) ++
      (if fmt.usecas then writeLE 8 cas else []) ++
      varintWrite k.length ++ k ++ val }

/-- `entry_memsize`, `/repo/src/pogocache.c:329-346`; `none` = read out of bounds. -/
def memsize (e : Raw) : Option Nat := readLE (2 ^ e.memszsz) e.data

/-- `entry_expires`, `/repo/src/pogocache.c:348-357`. -/
def expires (e : Raw) : Option Int :=
  if e.hasExpires then (readLE 8 (e.data.drop (2 ^ e.memszsz))).map Int.ofNat else some 0

/-- Offset of the `cas` field, the pointer arithmetic of `/repo/src/pogocache.c:380-383`. -/
def casOffset (e : Raw) : Nat :=
  2 ^ e.memszsz + (if e.hasExpires then 8 else 0) + (if e.hasFlags then 4 else 0)

/-- `entry_cas`, `/repo/src/pogocache.c:375-386`. -/
def cas (fmt : Fmt) (e : Raw) : Option Nat :=
  if fmt.usecas then readLE 8 (e.data.drop (casOffset e)) else some 0

/-- `entry_rawkey`, `/repo/src/pogocache.c:389-401`: offset of the key bytes and their number. -/
def rawkeyPos (fmt : Fmt) (e : Raw) : Option (Nat × Nat) :=
  let off := casOffset e + (if fmt.usecas then 8 else 0)
  (varintReadRaw (e.data.drop off)).map fun (n, keylen) => (off + n, keylen)

/-- Reading `len` bytes at offset `off`; `none` = out of bounds. -/
def slice (bs : Bytes) (off len : Nat) : Option Bytes :=
  if off + len ≤ bs.length then some ((bs.drop off).take len) else none

/-- `entry_rawkey` as bytes, `/repo/src/pogocache.c:389-401`. -/
def rawkey (fmt : Fmt) (e : Raw) : Option Bytes :=
  (rawkeyPos fmt e).bind fun (off, len) => slice e.data off len

/-- Unpacking into the caller's 128 byte buffer, `/repo/src/pogocache.c:477-480` (also 409-412);
`none` = buffer overrun. -/
def unpackKey (six : Bool) (k : Bytes) : Option Bytes :=
  if six then (if (unsixpackWritten k).length ≤ 128 then some (unsixpack k) else none) else some k

/-- `entry_key`, `/repo/src/pogocache.c:404-415`.  `none` also when unpacking would overrun the
128 byte buffer. -/
def key (fmt : Fmt) (e : Raw) : Option Bytes :=
  (rawkey fmt e).bind fun k => unpackKey e.hasSixpack k

/-- `entry_value`, `/repo/src/pogocache.c:418-427`; a negative length would wrap around in C and is
`none` here. -/
def value (fmt : Fmt) (e : Raw) : Option Bytes :=
  (memsize e).bind fun size =>
    (rawkeyPos fmt e).bind fun (off, keylen) =>
      let p := off + keylen
      if p + sizeofEntry ≤ size then slice e.data p (size - p - sizeofEntry) else none

/-- What `entry_extract` delivers. -/
structure Fields where
  key : Bytes
  value : Bytes
  expires : Int
  flags : Nat
  cas : Nat
  memsize : Nat
deriving DecidableEq, Repr

/-- An optional fixed-width field: present means read it, absent means 0
(`/repo/src/pogocache.c:442-471`). -/
def optField (present : Bool) (n : Nat) (data : Bytes) (off : Nat) : Option Nat :=
  if present then readLE n (data.drop off) else some 0

/-- `entry_extract` with all output pointers given, `/repo/src/pogocache.c:433-488`. -/
def extract (fmt : Fmt) (e : Raw) : Option Fields :=
  (memsize e).bind fun ms =>
  let p1 := 2 ^ e.memszsz
  (optField e.hasExpires 8 e.data p1).bind fun ex =>
  let p2 := p1 + (if e.hasExpires then 8 else 0)
  (optField e.hasFlags 4 e.data p2).bind fun fl =>
  let p3 := p2 + (if e.hasFlags then 4 else 0)
  (optField fmt.usecas 8 e.data p3).bind fun cs =>
  let p4 := p3 + (if fmt.usecas then 8 else 0)
  (varintReadRaw (e.data.drop p4)).bind fun nx =>
  let p5 := p4 + nx.1
  (slice e.data p5 nx.2).bind fun k0 =>
  (unpackKey e.hasSixpack k0).bind fun k =>
  let p6 := p5 + nx.2
  (if p6 + sizeofEntry ≤ ms then slice e.data p6 (ms - p6 - sizeofEntry) else none).bind fun v =>
  some { key := k, value := v, expires := Int.ofNat ex, flags := fl, cas := cs, memsize := ms }

/-- `memcmp(a, b, min)` then the length rule, `/repo/src/pogocache.c:664-669`. -/
def cmpBytes : Bytes → Bytes → Int
  | [], [] => 0
  | [], _ :: _ => -1
  | _ :: _, [] => 1
  | a :: as, b :: bs => if a < b then -1 else if b < a then 1 else cmpBytes as bs

/-- `entry_compare`, `/repo/src/pogocache.c:650-670`. -/
def compare (fmt : Fmt) (a b : Raw) : Option Int :=
  if a.hasSixpack = b.hasSixpack then
    (rawkey fmt a).bind fun ka => (rawkey fmt b).bind fun kb => some (cmpBytes ka kb)
  else
    (key fmt a).bind fun ka => (key fmt b).bind fun kb => some (cmpBytes ka kb)

/-- The key test of `bucket_eq`, `/repo/src/pogocache.c:925-927`. -/
def keyEq (fmt : Fmt) (e : Raw) (k : Bytes) : Option Bool :=
  (key fmt e).map fun k2 => k.length = k2.length && k = k2

end Verif.Entry
