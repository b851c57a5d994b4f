import Verif.Crc.Model
import Verif.Num.Model
import Verif.Cache.Spec

/-!
The data file: writing a block for each shard and reading a file.

LZ4 (`/repo/src/lz4.c`) is a parameter with the contract `Lz4.Good`; `Verif.Lz4.Codec` proves the contract for the model of LZ4.  Memory allocation never fails
(`xmalloc` aborts otherwise).
-/

namespace Verif.Save

open Verif.Num Verif.Crc
open Verif.Cache (Spec.Item Spec.StoreArgs)

/-- `LZ4_compress_default` and `LZ4_decompress_safe`, used at `/repo/src/save.c:64,259`.  `decompress src cap` is `none` for a
negative return value. -/
structure Lz4 where
  compress : Bytes → Bytes
  decompress : Bytes → Nat → Option Bytes

/-- `LZ4_MAX_INPUT_SIZE`, `/repo/src/lz4.h`. -/
def lz4Max : Nat := 0x7E000000

/-- What the LZ4 documentation promises. -/
structure Lz4.Good (z : Lz4) : Prop where
  roundtrip : ∀ b cap, b.length ≤ lz4Max → b.length ≤ cap → cap < 2 ^ 31 → z.decompress (z.compress b) cap = some b
  small : ∀ b cap, b.length ≤ lz4Max → cap < b.length → z.decompress (z.compress b) cap = none
  large : ∀ src cap, 2 ^ 31 ≤ cap → cap < 2 ^ 32 → z.decompress src cap = none
  size : ∀ b, b.length ≤ lz4Max → (z.compress b).length ≤ b.length + b.length / 255 + 16

/-! ### Writing -/

/-- `save_entry`, `/repo/src/save.c:96-118`; `none` is the failed assertion of line 109. -/
def saveEntry (now : Int) (x : Bytes × Spec.Item) : Option Bytes :=
  let front := [0] ++ varintWrite x.1.length ++ x.1 ++ varintWrite x.2.value.length ++ x.2.value
  let back := varintWrite x.2.flags ++ varintWrite x.2.cas
  if x.2.expires > 0 then
    let ttl := x.2.expires - now
    if ttl > 0 then some (front ++ varintWrite ttl.toNat ++ back) else none
  else some (front ++ varintWrite 0 ++ back)

/-- The entries of a block one after the other. -/
def saveEntries (now : Int) : List (Bytes × Spec.Item) → Option Bytes
  | [] => some []
  | x :: l => (saveEntry now x).bind fun a => (saveEntries now l).map fun b => a ++ b

/-- The uncompressed block of a shard, `/repo/src/save.c:120-135`: wall clock, then the entries shown by the iteration. -/
def blockData (now unix : Int) (l : List (Bytes × Spec.Item)) : Option Bytes :=
  (saveEntries now l).map fun b => varintWrite unix.toNat ++ b

/-- The four letters `POGO`, `/repo/src/save.c:71`. -/
def tag : Bytes := [80, 79, 71, 79]

/-- The bytes of a block in the file, `/repo/src/save.c:58-79`. -/
def encodeBlock (z : Lz4) (data : Bytes) : Bytes :=
  let c := z.compress data
  tag ++ writeLE 4 (crc32 c).toNat ++ writeLE 4 data.length ++ writeLE 4 c.length ++ c

/-- `flush`, `/repo/src/save.c:53-94`: what a shard adds to the file. -/
def shardBlock (z : Lz4) (now unix : Int) (l : List (Bytes × Spec.Item)) : Option Bytes :=
  if l = [] then some [] else (blockData now unix l).map (encodeBlock z)

/-! ### Reading -/

/-- `varint_read_u64` and the test `n <= 0`, `/repo/src/save.c:272-277` and below: the number and what follows. -/
def readU (p : Bytes) : Option (Nat × Bytes) :=
  let (n, x) := varintRead p
  if n ≤ 0 then none else some (x, p.drop n.toNat)

/-- A length followed by that many bytes, `/repo/src/save.c:297-308,311-322`. -/
def readBytes (p : Bytes) : Option (Bytes × Bytes) :=
  (readU p).bind fun (len, p) => if p.length < len then none else some (p.take len, p.drop len)

/-- An entry of the file. -/
structure FileEnt where
  key : Bytes
  val : Bytes
  ttl : Nat
  flags : Nat
  cas : Nat
deriving DecidableEq

/-- One entry, `/repo/src/save.c:284-346`. -/
def readEntry : Bytes → Option (FileEnt × Bytes)
  | [] => none
  | kind :: p =>
    if kind ≠ 0 then none
    else
      (readBytes p).bind fun (key, p) =>
      (readBytes p).bind fun (val, p) =>
      (readU p).bind fun (ttl, p) =>
      if ttl ≥ 2 ^ 63 then none
      else
        (readU p).bind fun (flags, p) =>
        if flags > 2 ^ 32 - 1 then none
        else (readU p).bind fun (cas, p) => some (⟨key, val, ttl, flags, cas⟩, p)

/-- The store made for an entry, `/repo/src/save.c:347-363`; `none` when it has expired. -/
def entryStore (unixtime unixnow : Int) (e : FileEnt) : Option Spec.StoreArgs :=
  let mk (ttl : Int) : Spec.StoreArgs :=
    { key := e.key, val := e.val, expires := 0, ttl, cas := e.cas, flags := e.flags, keepttl := false, casop := false
      nx := false, xx := false, lowmem := false, ask := none }
  if e.ttl > 0 then
    -- both are 64-bit and not negative, so the sum is clamped above only
    let unixexpires := min (unixtime + e.ttl) (2 ^ 63 - 1)
    if unixexpires < unixnow then none else some (mk (unixexpires - unixnow))
  else some (mk 0)

/-- The loop over the entries of a block, `/repo/src/save.c:284-368`: the stores made, and whether the end was reached.  `fuel`
bounds the number of entries. -/
def readEntries (unixtime unixnow : Int) : Nat → Bytes → List Spec.StoreArgs × Bool
  | 0, p => ([], p.isEmpty)
  | fuel + 1, p =>
    if p = [] then ([], true)
    else match readEntry p with
      | none => ([], false)
      | some (e, p') =>
        let (l, ok) := readEntries unixtime unixnow fuel p'
        ((entryStore unixtime unixnow e).toList ++ l, ok)

/-- `load_block`, `/repo/src/save.c:251-374`: the stores made, and success. -/
def loadBlock (z : Lz4) (unixnow : Int) (cdata : Bytes) (dlen : Nat) : List Spec.StoreArgs × Bool :=
  match z.decompress cdata dlen with
  | none => ([], false)
  | some d =>
    if d.length ≠ dlen then ([], false)
    else match readU d with
      | none => ([], false)
      | some (t, p) => if t ≥ 2 ^ 63 then ([], false) else readEntries t unixnow p.length p

/-- The loop of `load` over the file, `/repo/src/save.c:466-537`: the blocks handed to the threads (compressed data and
length), and success.  A regular file is read: `read` returns what is there. -/
def readBlocks : Nat → Bytes → List (Bytes × Nat) × Bool
  | 0, f => ([], f.isEmpty)
  | fuel + 1, f =>
    if f = [] then ([], true)
    else if f.length < 16 then ([], false)
    else if f.take 4 ≠ tag then ([], false)
    else
      match readLE 4 (f.drop 4), readLE 4 (f.drop 8), readLE 4 (f.drop 12) with
      | some crc, some dlen, some clen =>
        let rest := f.drop 16
        if rest.length < clen then ([], false)
        else
          let cdata := rest.take clen
          if (crc32 cdata).toNat ≠ crc then ([], false)
          else
            let (l, ok) := readBlocks fuel (rest.drop clen)
            ((cdata, dlen) :: l, ok)
      | _, _, _ => ([], false)

/-- The file as a list of blocks. -/
def readFile (f : Bytes) : List (Bytes × Nat) × Bool := readBlocks f.length f

end Verif.Save
