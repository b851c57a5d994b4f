import Mathlib.Logic.Function.Basic
import Verif.Entry.Model

/-!
Model of the Robin-Hood hash table of one shard, `/repo/src/pogocache.c:672-1016`.

Entries are records of their fields here; `Verif.Entry` proves that the packed bytes deliver exactly
these fields and that `entry_compare`/`bucket_eq` decide equality of the original keys.

Simplifications: `int`/`size_t` quantities that count buckets or insertions are unbounded naturals
(a shard with 2^31 buckets is out of scope); `entsize` is reduced modulo 2^64 like the C `size_t`;
the `dib` byte is reduced modulo 256 like the C `uint8_t`.  `ovf` is a ghost flag without counterpart
in the code: it records that some `dib` has wrapped past 255.
-/

namespace Verif.Map

/-- The context switches, `struct pgctx` `/repo/src/pogocache.c:289-312`.  `lf` is the load factor in
percent (line 1202-1208), `H` is `th64(key, keylen, seed)`. -/
structure Ctx where
  usecas : Bool
  nosixpack : Bool
  noevict : Bool
  allowshrink : Bool
  lf : Nat
  H : Bytes → Nat

/-- The clamped load factor, `/repo/src/pogocache.c:1188,1200,1204-1207`. -/
def clampLf (lf : Int) : Nat :=
  if lf = 0 then 75 else if lf < 55 then 55 else if lf > 95 then 95 else lf.toNat

/-- An entry's fields (`struct entry` `/repo/src/pogocache.c:319-327` and its packed data).  `size` is
`entry_memsize`.  `id` stands for the entry's address: it is the shard's counter at the time of
`entry_new`, which every `entry_new` is preceded by an increment of (lines 1427, 1547). -/
structure Ent where
  key : Bytes
  value : Bytes
  expires : Int
  flags : Nat
  cas : Nat
  time : Int
  size : Nat
  id : Nat
deriving DecidableEq, Repr, Inhabited

/-- `entry_new` followed by `entry_settime`, `/repo/src/pogocache.c:492-636,364-366`, seen through
`entry_extract` (`Verif.Entry.extract_entryNew`). -/
def mkEnt (c : Ctx) (key value : Bytes) (expires : Int) (flags id : Nat) (now : Int) : Ent :=
  { key, value, flags, id, time := now
    expires := if expires > 0 then expires else 0
    cas := if c.usecas then id else 0
    size := Entry.allocSize ⟨c.usecas, c.nosixpack⟩ key value expires flags }

/-- `entry_alive_exp`, `/repo/src/pogocache.c:368-370`. -/
def aliveExp (expires now : Int) : Bool := expires = 0 || expires > now

/-- `entry_alive`, `/repo/src/pogocache.c:372-374`. -/
def Ent.alive (e : Ent) (now : Int) : Bool := aliveExp e.expires now

/-- `struct bucket`, `/repo/src/pogocache.c:679-683`.  The entry of a bucket with `dib = 0` is never
read by the code. -/
structure Bucket where
  ent : Ent
  hash : Nat
  dib : Nat
deriving DecidableEq, Repr, Inhabited

/-- A zeroed bucket (`memset`, `/repo/src/pogocache.c:830`). -/
def emptyBucket : Bucket := ⟨default, 0, 0⟩

/-- `struct map`, `/repo/src/pogocache.c:687-697`; `mask` is always `nbuckets-1`. -/
structure Tbl where
  cap : Nat
  nbuckets : Nat
  count : Nat
  growat : Nat
  shrinkat : Nat
  total : Nat
  entsize : Nat
  buckets : Nat → Bucket
  ovf : Bool

/-- `map->mask`, `/repo/src/pogocache.c:820`. -/
def Tbl.mask (m : Tbl) : Nat := m.nbuckets - 1

/-- `clip_hash` with `HASHSIZE` 3, `/repo/src/pogocache.c:763-765`. -/
def clipHash (h : Nat) : Nat := h % 2 ^ 24

/-- The table hash of a key: the low 32 bits of `th64` (`uint32_t *hash_out`,
`/repo/src/pogocache.c:1361`; also 1091), clipped. -/
def Ctx.hash24 (c : Ctx) (k : Bytes) : Nat := clipHash (c.H k % 2 ^ 32)

/-- `size_t` addition. -/
def add64 (a b : Nat) : Nat := (a + b) % 2 ^ 64

/-- `size_t` subtraction. -/
def sub64 (a b : Nat) : Nat := (a + (2 ^ 64 - b % 2 ^ 64)) % 2 ^ 64

/-- `(int)(nbuckets * loadfactor)`, `/repo/src/pogocache.c:821`.  The C code multiplies by the `double`
nearest to lf/100.  `nbuckets` is a power of two, so the product is exact relative to that double,
and `n*lf/100` is an integer only if 25 divides lf (then lf = 75 and 0.75 is exact); otherwise it is
at least 1/25 away from one, so truncation equals integer division. -/
def growAt (c : Ctx) (n : Nat) : Nat := n * c.lf / 100

/-- `(int)(nbuckets * shrinkfactor)`, `/repo/src/pogocache.c:822,1209`; 0.1 times a power of two is
never near an integer. -/
def shrinkAt (n : Nat) : Nat := n * 10 / 100

/-- `map_init` when the allocation succeeds, `/repo/src/pogocache.c:816-832`. -/
def mapInit (c : Ctx) (cap : Nat) : Tbl :=
  { cap, nbuckets := cap, count := 0, growat := growAt c cap, shrinkat := shrinkAt cap
    total := 0, entsize := 0, buckets := fun _ => emptyBucket, ovf := false }

/-- `set_dib(&ebkt, get_dib(&ebkt)+1)` on a `uint8_t`. -/
def Bucket.bump (b : Bucket) : Bucket := { b with dib := (b.dib + 1) % 256 }

/-- The inner loop of `resize`, `/repo/src/pogocache.c:844-856`.  `none` = fuel exhausted. -/
def placeLoop (mask : Nat) : Nat → (Nat → Bucket) → Bool → Nat → Bucket → Option ((Nat → Bucket) × Bool)
  | 0, _, _, _, _ => none
  | fuel + 1, b, ovf, j, eb =>
    if (b j).dib = 0 then some (Function.update b j eb, ovf)
    else if (b j).dib < eb.dib then
      placeLoop mask fuel (Function.update b j eb) (ovf || decide ((b j).dib + 1 ≥ 256))
        ((j + 1) &&& mask) (b j).bump
    else
      placeLoop mask fuel b (ovf || decide (eb.dib + 1 ≥ 256)) ((j + 1) &&& mask) eb.bump

/-- One iteration of the outer loop of `resize`, `/repo/src/pogocache.c:839-858`. -/
def resizeStep (n2 : Nat) (src : Nat → Bucket) (acc : Option ((Nat → Bucket) × Bool)) (i : Nat) :
    Option ((Nat → Bucket) × Bool) :=
  acc.bind fun a =>
    if (src i).dib ≠ 0 then
      placeLoop (n2 - 1) (n2 + 1) a.1 a.2 ((src i).hash &&& (n2 - 1)) { src i with dib := 1 }
    else some a

/-- `resize`, `/repo/src/pogocache.c:834-870`; `ok` tells whether the allocation succeeds.
The outer `none` is a loop that does not stop; the Boolean is the C return value. -/
def resize (c : Ctx) (m : Tbl) (newCap : Nat) (ok : Bool) : Option (Tbl × Bool) :=
  if ok then
    ((List.range m.nbuckets).foldl (resizeStep newCap m.buckets)
        (some ((mapInit c newCap).buckets, m.ovf))).map fun a =>
      ({ mapInit c newCap with
          buckets := a.1, ovf := a.2, cap := m.cap, count := m.count, entsize := m.entsize
          total := m.total }, true)
  else some (m, false)

/-- The loop of `map_insert`, `/repo/src/pogocache.c:888-914`: the table afterwards and `*old`. -/
def insertLoop : Nat → Tbl → Nat → Bucket → Option (Tbl × Option Ent)
  | 0, _, _, _ => none
  | fuel + 1, m, i, eb =>
    let b := m.buckets i
    if b.dib = 0 then
      some ({ m with buckets := Function.update m.buckets i eb, count := m.count + 1
                     total := m.total + 1 }, none)
    else if eb.hash = b.hash ∧ eb.ent.key = b.ent.key then
      some ({ m with entsize := sub64 m.entsize b.ent.size
                     buckets := Function.update m.buckets i { b with ent := eb.ent } }, some b.ent)
    else if b.dib < eb.dib then
      insertLoop fuel
        { m with buckets := Function.update m.buckets i eb, ovf := m.ovf || decide (b.dib + 1 ≥ 256) }
        ((i + 1) &&& m.mask) b.bump
    else
      insertLoop fuel { m with ovf := m.ovf || decide (eb.dib + 1 ≥ 256) }
        ((i + 1) &&& m.mask) eb.bump

/-- `map_insert`, `/repo/src/pogocache.c:872-915`.  The result is `none` for the C return value
`false`. The outer `none` is a loop that does not stop. -/
def mapInsert (c : Ctx) (m : Tbl) (e : Ent) (ok : Bool) : Option (Tbl × Option (Option Ent)) :=
  let h := c.hash24 e.key
  let go (m : Tbl) : Option (Tbl × Option (Option Ent)) :=
    let m := { m with entsize := add64 m.entsize e.size }
    (insertLoop (m.nbuckets + 1) m (h &&& m.mask) ⟨e, h, 1⟩).map fun r => (r.1, some r.2)
  if m.count ≥ m.growat then
    (resize c m (m.nbuckets * 2) ok).bind fun r =>
      if r.2 then go r.1 else some (m, none)
  else go m

/-- `map_get_bucket`, `/repo/src/pogocache.c:931-946`, with `bucket_eq` (917-928) inlined;
the inner `none` is the C result -1. -/
def getLoop (m : Tbl) (key : Bytes) (hash : Nat) : Nat → Nat → Option (Option Nat)
  | 0, _ => none
  | fuel + 1, i =>
    if (m.buckets i).dib = 0 then some none
    else if (m.buckets i).hash = hash ∧ (m.buckets i).ent.key = key then some (some i)
    else getLoop m key hash fuel ((i + 1) &&& m.mask)

/-- `map_get_bucket`, `/repo/src/pogocache.c:931-946`. -/
def getBucket (c : Ctx) (m : Tbl) (key : Bytes) : Option (Option Nat) :=
  getLoop m key (c.hash24 key) (m.nbuckets + 1) (c.hash24 key &&& m.mask)

/-- The loop of `delbkt`, `/repo/src/pogocache.c:952-961`; `h` is the hole. -/
def delLoop (mask : Nat) : Nat → (Nat → Bucket) → Nat → Option (Nat → Bucket)
  | 0, _, _ => none
  | fuel + 1, b, h =>
    let i := (h + 1) &&& mask
    if (b i).dib ≤ 1 then some (Function.update b h { b h with dib := 0 })
    else delLoop mask fuel (Function.update b h { b i with dib := (b i).dib - 1 }) i

/-- `delbkt`, `/repo/src/pogocache.c:950-963`. -/
def delbkt (m : Tbl) (i : Nat) : Option Tbl :=
  (delLoop m.mask (m.nbuckets + 1)
    (Function.update m.buckets i { m.buckets i with dib := 0 }) i).map fun b =>
      { m with buckets := b, count := m.count - 1 }

/-- `needsshrink`, `/repo/src/pogocache.c:965-968`. -/
def needsShrink (c : Ctx) (m : Tbl) : Bool :=
  c.allowshrink && decide (m.nbuckets > m.cap) && decide (m.count ≤ m.shrinkat)

/-- The capacity search of `tryshrink`, `/repo/src/pogocache.c:980-987`. -/
def shrinkCap (c : Ctx) (count : Nat) : Nat → Nat → Option Nat
  | 0, _ => none
  | fuel + 1, cap => if count ≥ growAt c cap then shrinkCap c count fuel (cap * 2) else some cap

/-- `tryshrink`, `/repo/src/pogocache.c:974-989`. -/
def tryShrink (c : Ctx) (m : Tbl) (ok : Bool) : Option Tbl :=
  if needsShrink c m then
    (shrinkCap c m.count (m.count + 1) m.cap).bind fun cap => (resize c m cap ok).map (·.1)
  else some m

/-- `delentry_at_bkt`, `/repo/src/pogocache.c:991-997`. -/
def delEntryAt (m : Tbl) (i : Nat) : Option (Tbl × Ent) :=
  let old := (m.buckets i).ent
  (delbkt { m with entsize := sub64 m.entsize old.size } i).map fun m => (m, old)

/-- `map_delete`, `/repo/src/pogocache.c:1002-1016`.  Its search loop is the one of `map_get_bucket`
(the same tests in the same order), so it is shared. -/
def mapDelete (c : Ctx) (m : Tbl) (key : Bytes) : Option (Tbl × Option Ent) :=
  (getBucket c m key).bind fun
    | none => some (m, none)
    | some i => (delEntryAt m i).map fun r => (r.1, some r.2)

end Verif.Map
